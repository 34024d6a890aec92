import Verif.Spec.Renumber
import Verif.Spec.Restart

/-!
# Two grammars put together under a new first rule
-/

namespace LL1

/-- The head of the first rule. -/
def Grammar.startName (g : Grammar) : Str :=
  match g.rules with
  | [] => []
  | r :: _ => r.head

/-- `top ::= <a> | <b>`, then the rules of `a`, then those of `b`. -/
def Grammar.choice (a : Grammar) (top : Str) (b : Grammar) : Grammar :=
  ⟨⟨top, ⟨[⟨[.nonTerminal a.startName]⟩, ⟨[.nonTerminal b.startName]⟩]⟩⟩ :: (a.rules ++ b.rules)⟩

/-- `top ::= <a> <b>`, then the rules of `a`, then those of `b`. -/
def Grammar.chain (a : Grammar) (top : Str) (b : Grammar) : Grammar :=
  ⟨⟨top, ⟨[⟨[.nonTerminal a.startName, .nonTerminal b.startName]⟩]⟩⟩ :: (a.rules ++ b.rules)⟩

/-- The two grammars and the new name can be put together: both have rules and define all they use, and no two of all
the heads are equal. -/
structure Joinable (top : Str) (a b : Grammar) : Prop where
  left : a.rules ≠ []
  right : b.rules ≠ []
  leftDefined : a.AllDefined
  rightDefined : b.AllDefined
  heads : (top :: (a.rules.map Rule.head ++ b.rules.map Rule.head)).Nodup

/-- The rule number `k` places further on; the built-in numbers stay. -/
def later (k : Nat) (n : Int) : Int := if 0 ≤ n then n + k else n

end LL1
