import Verif.Spec.Hang
import Verif.Spec.Reading

/-!
# What a grammar costs

Numbers that a user can read off a grammar.
-/

namespace LL1

/-- Two for a reference to a rule, two plus the number of bytes for a literal, nothing for the empty symbol. -/
def Symbol.cost : Symbol → Nat
  | .nonTerminal _ => 2
  | .terminal t => t.length + 2
  | .nothing => 0

def Sequence.cost (a : Sequence) : Nat := (a.symbols.map Symbol.cost).sum

/-- A rule costs what all its alternatives cost. -/
def Rule.cost (r : Rule) : Nat := (r.tail.sequences.map Sequence.cost).sum

/-- The cost of the dearest rule. -/
def Grammar.dearestRule (g : Grammar) : Nat := (g.rules.map Rule.cost).foldr max 0

/-- The cost of the dearest alternative. -/
def Grammar.dearestAlternative (g : Grammar) : Nat :=
  (g.rules.map fun r => (r.tail.sequences.map Sequence.cost).foldr max 0).foldr max 0

/-- On byte `b`, rule `i` leads on to rule `k` before anything is read: an alternative of `i` that can begin with `b` refers to `k`
after symbols that can all be empty, and `k` can begin with `b` itself. -/
def LeadsOn (g : Grammar) (b : UInt8) (i k : Nat) : Prop :=
  ∃ alt pre name post, g.Alt i alt ∧ First g alt.symbols b ∧ alt.symbols = pre ++ .nonTerminal name :: post ∧ Nullable g pre ∧
    g.Refers name k ∧ RuleFirst g k b

/-- No rule that the first rule refers to, directly or not, comes back to itself before anything is read. -/
def NoLoop (g : Grammar) : Prop := ∀ i b, Steps (Mentions g) 0 i → ¬ Steps1 (LeadsOn g b) i i

/-! The same for every grammar that is accepted, also with terminals that begin with a NUL byte: FIRST and "can be empty" as
the table generator reads them (`Spec/Reading.lean`).  Without such terminals they are the notions above
(`C104_reading_textbook`). -/

def RLeadsOn (g : Grammar) (b : UInt8) (i k : Nat) : Prop :=
  ∃ alt pre name post, g.Alt i alt ∧ RFirst g alt.symbols b ∧ alt.symbols = pre ++ .nonTerminal name :: post ∧
    (∀ x ∈ pre, RNullable g [x] ∧ ∀ t, x ≠ .terminal (0 :: t)) ∧ g.Refers name k ∧ RRuleFirst g k b

def RNoLoop (g : Grammar) : Prop := ∀ i b, Steps (Mentions g) 0 i → ¬ Steps1 (RLeadsOn g b) i i

end LL1
