import Verif.Spec.DTree
import Verif.Spec.Predictive

/-!
# Where a derivation lets a rule stand for nothing

Textbook notions only: which rules derive the empty string in a derivation tree, and which byte stands
behind them; and, for a grammar, for which rules and bytes this can happen.
-/

namespace LL1

/-- `Vanishes i b ts c`: somewhere in the trees `ts` (behind which the byte `c` stands; 0: end of input)
rule `i` derives the empty string, `b` is the next byte after that place, and no node above it
derives the empty string as well. -/
inductive Vanishes (i : Nat) (b : UInt8) : List DTree → UInt8 → Prop
  | here {k : Nat} {cs ts : List DTree} {c : UInt8} :
      DTree.yields cs = [] → ahead (DTree.yields ts) c = b → Vanishes i b (.node i k cs :: ts) c
  | inside {j k : Nat} {cs ts : List DTree} {c : UInt8} :
      DTree.yields cs ≠ [] → Vanishes i b cs (ahead (DTree.yields ts) c) → Vanishes i b (.node j k cs :: ts) c
  | later {t : DTree} {ts : List DTree} {c : UInt8} : Vanishes i b ts c → Vanishes i b (t :: ts) c

/-- Rule `i` can be used when deriving from rule 0. -/
inductive Reachable (g : Grammar) : Nat → Prop
  | start : Reachable g 0
  | step {j i : Nat} {alt : Sequence} {name : Str} :
      Reachable g j → g.Alt j alt → Symbol.nonTerminal name ∈ alt.symbols → g.Refers name i → Reachable g i

/-- A reduced grammar: every rule can be used, and every non-terminal used derives some string. -/
def Grammar.Reduced (g : Grammar) : Prop :=
  g.Productive ∧ ∀ i, i < g.rules.length → Reachable g i

/-- `MustVanish g i b`: some alternative that derives a non-empty string can have its use of rule `i` derive
nothing, with `b` as the next byte: either what comes after that use in the alternative can begin with
`b`, or something comes before it, all that comes after it can vanish too, and `b` is in the textbook
FOLLOW set of the rule the alternative belongs to. -/
inductive MustVanish (g : Grammar) (i : Nat) (b : UInt8) : Prop
  | first {j : Nat} {alt : Sequence} {pre post : List Symbol} {name : Str} :
      g.Alt j alt → alt.symbols = pre ++ .nonTerminal name :: post → g.Refers name i → RuleNullable g i →
      First g post b → MustVanish g i b
  | last {j : Nat} {alt : Sequence} {pre post : List Symbol} {name : Str} {c : UInt8} :
      g.Alt j alt → alt.symbols = pre ++ .nonTerminal name :: post → g.Refers name i → RuleNullable g i →
      First g pre c → Nullable g post → Follow g j b → MustVanish g i b

end LL1
