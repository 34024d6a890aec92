import Verif.Spec.Renumber

/-!
# Starting at another rule
-/

namespace LL1

mutual
/-- The tree for a text that stands at offset `p` of a larger one. -/
def Node.shift (p : Nat) : Node → Node
  | .mk n s e cs => .mk n (p + s) (p + e) (Node.shiftAll p cs)
def Node.shiftAll (p : Nat) : List Node → List Node
  | [] => []
  | c :: cs => Node.shift p c :: Node.shiftAll p cs
end

/-- `g'` has the rules of `g` in another order, and begins with rule `i` of `g`. -/
structure StartsAt (g g' : Grammar) (i : Nat) : Prop where
  rules : g'.rules.Perm g.rules
  first : ∃ r, g.rules[i]? = some r ∧ g'.rules[0]? = some r

end LL1
