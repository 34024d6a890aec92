import Verif.Model.Parser

/-!
# Equality of tables as Go maps
-/

namespace LL1

/-- Two parsing tables are the same map of maps: the same rows, with the same cells. -/
def SameTable (a b : Table) : Prop :=
  ∀ n : Int,
    ((∃ row, a.get n = some row) ↔ (∃ row, b.get n = some row)) ∧
    ∀ rowA rowB, a.get n = some rowA → b.get n = some rowB →
      ∀ c : UInt8, GoMap.get rowA c = GoMap.get rowB c

end LL1
