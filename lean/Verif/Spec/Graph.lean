/-!
# Ways down in a graph of nodes
-/

namespace LL1

variable {N : Type}

/-- The entry reached from `x` by taking the child with index `i` for each `i` of the path (`none` inside: nil). -/
def entryAt (kids : N → List (Option N)) : Option N → List Nat → Option (Option N)
  | x, [] => some x
  | none, _ :: _ => none
  | some n, i :: path => match (kids n)[i]? with | none => none | some c => entryAt kids c path

/-- No infinitely long way down. -/
def Unfolds (kids : N → List (Option N)) (x : Option N) : Prop :=
  ∃ B, ∀ path y, entryAt kids x path = some y → path.length ≤ B

end LL1
