import Verif.Spec.Derivation
import Verif.Model.Ast

/-!
# Textbook notions for grammars

Language, nullability, FIRST, FOLLOW, LL(1).  Nothing here mentions the table generator.
-/

namespace LL1

/-- `alt` is an alternative of rule number `i`. -/
def Grammar.Alt (g : Grammar) (i : Nat) (alt : Sequence) : Prop :=
  ∃ r, g.rules[i]? = some r ∧ alt ∈ r.tail.sequences

/-- Rule number `i` exists and its head is `name`. -/
def Grammar.Head (g : Grammar) (i : Nat) (name : Str) : Prop :=
  ∃ r, g.rules[i]? = some r ∧ r.head = name

/-- The non-terminal `name` refers to rule `i`: the last rule with that head. -/
def Grammar.Refers (g : Grammar) (name : Str) (i : Nat) : Prop :=
  g.Head i name ∧ ∀ j, g.Head j name → j ≤ i

/-- The strings derivable from a sequence of symbols. -/
inductive Gen (g : Grammar) : List Symbol → Str → Prop
  | nil : Gen g [] []
  | terminal {t : Str} {rest : List Symbol} {w : Str} :
      Gen g rest w → Gen g (.terminal t :: rest) (t ++ w)
  | nothing {rest : List Symbol} {w : Str} : Gen g rest w → Gen g (.nothing :: rest) w
  | nonTerminal {name : Str} {i : Nat} {alt : Sequence} {rest : List Symbol} {u w : Str} :
      g.Refers name i → g.Alt i alt → Gen g alt.symbols u → Gen g rest w →
      Gen g (.nonTerminal name :: rest) (u ++ w)

/-- The strings derivable from rule `i`. -/
def GenRule (g : Grammar) (i : Nat) (w : Str) : Prop := ∃ alt, g.Alt i alt ∧ Gen g alt.symbols w

/-- The language of the grammar: derivable from its first rule. -/
def Sentence (g : Grammar) (w : Str) : Prop := GenRule g 0 w

/-- Textbook nullability of a sequence of symbols. -/
inductive Nullable (g : Grammar) : List Symbol → Prop
  | nil : Nullable g []
  | nothing {rest : List Symbol} : Nullable g rest → Nullable g (.nothing :: rest)
  | emptyTerminal {rest : List Symbol} : Nullable g rest → Nullable g (.terminal [] :: rest)
  | nonTerminal {name : Str} {i : Nat} {alt : Sequence} {rest : List Symbol} :
      g.Refers name i → g.Alt i alt → Nullable g alt.symbols → Nullable g rest →
      Nullable g (.nonTerminal name :: rest)

/-- Textbook FIRST of a sequence of symbols. -/
inductive First (g : Grammar) : List Symbol → UInt8 → Prop
  | terminal {b : UInt8} {t : Str} {rest : List Symbol} : First g (.terminal (b :: t) :: rest) b
  | head {name : Str} {i : Nat} {alt : Sequence} {rest : List Symbol} {b : UInt8} :
      g.Refers name i → g.Alt i alt → First g alt.symbols b → First g (.nonTerminal name :: rest) b
  | skip {x : Symbol} {rest : List Symbol} {b : UInt8} :
      Nullable g [x] → First g rest b → First g (x :: rest) b

/-- Textbook FOLLOW of rule `i`; byte 0 stands for the end of input. -/
inductive Follow (g : Grammar) : Nat → UInt8 → Prop
  | start : Follow g 0 0
  | first {j i : Nat} {alt : Sequence} {pre post : List Symbol} {name : Str} {b : UInt8} :
      g.Alt j alt → alt.symbols = pre ++ .nonTerminal name :: post → g.Refers name i →
      First g post b → Follow g i b
  | last {j i : Nat} {alt : Sequence} {pre post : List Symbol} {name : Str} {b : UInt8} :
      g.Alt j alt → alt.symbols = pre ++ .nonTerminal name :: post → g.Refers name i →
      Nullable g post → Follow g j b → Follow g i b

/-- The FOLLOW rules the package implements: it looks at the next symbol only, and identifies rules by
their head. -/
inductive NextFollow (g : Grammar) : Nat → UInt8 → Prop
  | start : NextFollow g 0 0
  | last {j i : Nat} {alt : Sequence} {pre : List Symbol} {name : Str} {b : UInt8} :
      g.Alt j alt → alt.symbols = pre ++ [.nonTerminal name] → g.Head i name →
      NextFollow g j b → NextFollow g i b
  | next {j i : Nat} {alt : Sequence} {pre post : List Symbol} {name : Str} {next : Symbol} {b : UInt8} :
      g.Alt j alt → alt.symbols = pre ++ .nonTerminal name :: next :: post → g.Head i name →
      First g [next] b → NextFollow g i b
  | nextNullable {j i : Nat} {alt : Sequence} {pre post : List Symbol} {name : Str} {next : Symbol}
      {b : UInt8} :
      g.Alt j alt → alt.symbols = pre ++ .nonTerminal name :: next :: post → g.Head i name →
      Nullable g [next] → NextFollow g j b → NextFollow g i b

/-- FIRST of a rule. -/
def RuleFirst (g : Grammar) (i : Nat) (b : UInt8) : Prop := ∃ alt, g.Alt i alt ∧ First g alt.symbols b

/-- Nullability of a rule. -/
def RuleNullable (g : Grammar) (i : Nat) : Prop := ∃ alt, g.Alt i alt ∧ Nullable g alt.symbols

/-- No two alternatives (at different places) of one rule can begin with the same byte. -/
def FirstDisjoint (g : Grammar) : Prop :=
  ∀ (i : Nat) (r : Rule) (k l : Nat) (a c : Sequence) (b : UInt8), g.rules[i]? = some r →
    r.tail.sequences[k]? = some a → r.tail.sequences[l]? = some c →
    First g a.symbols b → First g c.symbols b → k = l

/-- At most one alternative of each rule is nullable. -/
def OneNullable (g : Grammar) : Prop :=
  ∀ (i : Nat) (r : Rule) (k l : Nat) (a c : Sequence), g.rules[i]? = some r →
    r.tail.sequences[k]? = some a → r.tail.sequences[l]? = some c →
    Nullable g a.symbols → Nullable g c.symbols → k = l

/-- A nullable rule cannot begin with a byte that can follow it. -/
def FirstFollowDisjoint (g : Grammar) : Prop :=
  ∀ (i : Nat) (b : UInt8), RuleNullable g i → RuleFirst g i b → ¬ Follow g i b

/-- The textbook LL(1) condition. -/
def IsLL1 (g : Grammar) : Prop := FirstDisjoint g ∧ OneNullable g ∧ FirstFollowDisjoint g

/-- No nullable gap: a nullable symbol right after a non-terminal is the last of its alternative. -/
def NoNullableGap (g : Grammar) : Prop :=
  ∀ i alt pre name next post, g.Alt i alt → alt.symbols = pre ++ .nonTerminal name :: next :: post →
    Nullable g [next] → post = []

/-- No two rules have the same head. -/
def DistinctHeads (g : Grammar) : Prop :=
  ∀ i j name, g.Head i name → g.Head j name → i = j

/-- No terminal of the grammar contains a NUL byte. -/
def Grammar.NulFree (g : Grammar) : Prop :=
  ∀ i alt t, g.Alt i alt → Symbol.terminal t ∈ alt.symbols → (0 : UInt8) ∉ t

/-- No terminal of the grammar begins with a NUL byte. -/
def Grammar.NulStartFree (g : Grammar) : Prop :=
  ∀ i alt t, g.Alt i alt → Symbol.terminal t ∈ alt.symbols → t.head? ≠ some 0

/-- No terminal of the grammar is the empty string. -/
def Grammar.NoEmptyTerminal (g : Grammar) : Prop :=
  ∀ i alt t, g.Alt i alt → Symbol.terminal t ∈ alt.symbols → t ≠ []

/-- The empty-string symbol is only used as the only symbol of its alternative. -/
def Grammar.NothingAlone (g : Grammar) : Prop :=
  ∀ i alt, g.Alt i alt → Symbol.nothing ∈ alt.symbols → alt.symbols = [.nothing]

/-- No alternative is an empty list of symbols. -/
def Grammar.NoEmptyAlternative (g : Grammar) : Prop :=
  ∀ i alt, g.Alt i alt → alt.symbols ≠ []

/-- Every non-terminal used is defined. -/
def Grammar.AllDefined (g : Grammar) : Prop :=
  ∀ i alt name, g.Alt i alt → Symbol.nonTerminal name ∈ alt.symbols → ∃ j, g.Head j name

/-- What a grammar needs so that the generator has no reason to complain other than ambiguity. -/
structure Grammar.WellFormed (g : Grammar) : Prop where
  rules : g.rules ≠ []
  term : g.NoEmptyTerminal
  nothing : g.NothingAlone
  alts : g.NoEmptyAlternative
  defined : g.AllDefined

/-- Every non-terminal used in the grammar is defined and derives some string. -/
def Grammar.Productive (g : Grammar) : Prop :=
  ∀ i alt name, g.Alt i alt → Symbol.nonTerminal name ∈ alt.symbols →
    ∃ j w, g.Refers name j ∧ GenRule g j w

/-- A clash in rule `i`: a nullable alternative, a byte that can follow the rule, and an earlier
alternative that already uses the cell. -/
def Clash (g : Grammar) (i : Nat) : Prop :=
  ∃ r pre alt post b, g.rules[i]? = some r ∧ r.tail.sequences = pre ++ alt :: post ∧
    Nullable g alt.symbols ∧ NextFollow g i b ∧
    ∃ earlier ∈ pre, First g earlier.symbols b ∨ Nullable g earlier.symbols

/-- The operation a symbol turns into. -/
def OpOf (g : Grammar) : Symbol → ParserOp → Prop
  | .terminal t, op => op = .terminal t
  | .nonTerminal name, op => ∃ i : Nat, g.Refers name i ∧ op = .nonTerminal (i : Int)
  | .nothing, _ => False

/-- `Predicted g b alts ops`: `ops` are the operations of those alternatives of the list that can begin
with `b`, one after the other. -/
inductive Predicted (g : Grammar) (b : UInt8) : List Sequence → List ParserOp → Prop
  | nil : Predicted g b [] []
  | take {alt : Sequence} {alts : List Sequence} {ops rest : List ParserOp} :
      First g alt.symbols b → AllPairs (OpOf g) alt.symbols ops → Predicted g b alts rest →
      Predicted g b (alt :: alts) (ops ++ rest)
  | skip {alt : Sequence} {alts : List Sequence} {rest : List ParserOp} :
      ¬ First g alt.symbols b → Predicted g b alts rest → Predicted g b (alt :: alts) rest

/-- Every byte (0: end of input) that may come after a nullable rule, in the textbook sense, has a cell
in the row of that rule. -/
def Covered (g : Grammar) (tbl : Table) : Prop :=
  ∀ (i : Nat) (b : UInt8), RuleNullable g i → Follow g i b →
    ∃ row ops, tbl.get (i : Int) = some row ∧ GoMap.get row b = some ops

end LL1
