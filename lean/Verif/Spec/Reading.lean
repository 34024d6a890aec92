import Verif.Spec.Grammar

/-!
# FIRST and FOLLOW as the table generator reads a grammar

The generator represents "can be empty" by the byte 0 in a FIRST set, and FIRST of a terminal is its first byte.  So a
terminal that begins with a NUL byte reads as "can be empty, and nothing comes after it".  These are the textbook notions
of `Spec/Grammar.lean` with that one change; without such terminals they are the textbook notions
(`C74_reading_textbook`).
-/

namespace LL1

/-- The sequence reads as nullable. -/
inductive RNullable (g : Grammar) : List Symbol → Prop
  | nil : RNullable g []
  | nothing {rest : List Symbol} : RNullable g rest → RNullable g (.nothing :: rest)
  | emptyTerminal {rest : List Symbol} : RNullable g rest → RNullable g (.terminal [] :: rest)
  | nul {t : Str} {rest : List Symbol} : RNullable g (.terminal (0 :: t) :: rest)
  | nonTerminal {name : Str} {i : Nat} {alt : Sequence} {rest : List Symbol} :
      g.Refers name i → g.Alt i alt → RNullable g alt.symbols → RNullable g rest →
      RNullable g (.nonTerminal name :: rest)

/-- The sequence reads as beginning with `b` (never 0). -/
inductive RFirst (g : Grammar) : List Symbol → UInt8 → Prop
  | terminal {b : UInt8} {t : Str} {rest : List Symbol} : b ≠ 0 → RFirst g (.terminal (b :: t) :: rest) b
  | head {name : Str} {i : Nat} {alt : Sequence} {rest : List Symbol} {b : UInt8} :
      g.Refers name i → g.Alt i alt → RFirst g alt.symbols b → RFirst g (.nonTerminal name :: rest) b
  | skip {x : Symbol} {rest : List Symbol} {b : UInt8} :
      (∀ t, x ≠ .terminal (0 :: t)) → RNullable g [x] → RFirst g rest b → RFirst g (x :: rest) b

/-- The FOLLOW rules the package implements (`NextFollow`), on these notions. -/
inductive RNextFollow (g : Grammar) : Nat → UInt8 → Prop
  | start : RNextFollow g 0 0
  | last {j i : Nat} {alt : Sequence} {pre : List Symbol} {name : Str} {b : UInt8} :
      g.Alt j alt → alt.symbols = pre ++ [.nonTerminal name] → g.Head i name →
      RNextFollow g j b → RNextFollow g i b
  | next {j i : Nat} {alt : Sequence} {pre post : List Symbol} {name : Str} {next : Symbol} {b : UInt8} :
      g.Alt j alt → alt.symbols = pre ++ .nonTerminal name :: next :: post → g.Head i name →
      RFirst g [next] b → RNextFollow g i b
  | nextNullable {j i : Nat} {alt : Sequence} {pre post : List Symbol} {name : Str} {next : Symbol}
      {b : UInt8} :
      g.Alt j alt → alt.symbols = pre ++ .nonTerminal name :: next :: post → g.Head i name →
      RNullable g [next] → RNextFollow g j b → RNextFollow g i b

/-- FIRST of a rule. -/
def RRuleFirst (g : Grammar) (i : Nat) (b : UInt8) : Prop := ∃ alt, g.Alt i alt ∧ RFirst g alt.symbols b

/-- Nullability of a rule. -/
def RRuleNullable (g : Grammar) (i : Nat) : Prop := ∃ alt, g.Alt i alt ∧ RNullable g alt.symbols

/-- A clash in rule `i` (`Clash`), on these notions. -/
def RClash (g : Grammar) (i : Nat) : Prop :=
  ∃ r pre alt post b, g.rules[i]? = some r ∧ r.tail.sequences = pre ++ alt :: post ∧
    RNullable g alt.symbols ∧ RNextFollow g i b ∧
    ∃ earlier ∈ pre, RFirst g earlier.symbols b ∨ RNullable g earlier.symbols

/-- `RPredicted g b alts ops`: `ops` are the operations of those alternatives of the list that read as beginning with `b`,
one after the other. -/
inductive RPredicted (g : Grammar) (b : UInt8) : List Sequence → List ParserOp → Prop
  | nil : RPredicted g b [] []
  | take {alt : Sequence} {alts : List Sequence} {ops rest : List ParserOp} :
      RFirst g alt.symbols b → AllPairs (OpOf g) alt.symbols ops → RPredicted g b alts rest →
      RPredicted g b (alt :: alts) (ops ++ rest)
  | skip {alt : Sequence} {alts : List Sequence} {rest : List ParserOp} :
      ¬ RFirst g alt.symbols b → RPredicted g b alts rest → RPredicted g b (alt :: alts) rest

end LL1
