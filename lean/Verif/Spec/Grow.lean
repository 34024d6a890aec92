import Verif.Spec.Derivation
import Verif.Spec.Grammar

/-!
# A grammar that grows, a table that grows

Nothing here knows how a grammar becomes a table or what a parser does with one.
-/

namespace LL1

/-- `g'` is `g` with more: every rule of `g` is still there, at the same place and with the same head, and its
alternatives are among those of the new rule, in the old order; rules added at the end have heads of their own. -/
structure Grows (g g' : Grammar) : Prop where
  kept : ∀ (i : Nat) (r : Rule), g.rules[i]? = some r →
    ∃ r', g'.rules[i]? = some r' ∧ r'.head = r.head ∧ r.tail.sequences.Sublist r'.tail.sequences
  added : ∀ (j : Nat) (r' : Rule), g.rules.length ≤ j → g'.rules[j]? = some r' → ∀ r ∈ g.rules, r.head ≠ r'.head

/-- Every cell of `tbl` is a cell of `tbl'` with the same contents. -/
def CellsKept (tbl tbl' : Table) : Prop :=
  ∀ n row b ops, tbl.get n = some row → GoMap.get row b = some ops →
    ∃ row', tbl'.get n = some row' ∧ GoMap.get row' b = some ops

/-- The errors that say that the table has nothing for a row and a byte. -/
def PErr.AboutTable : PErr → Prop
  | .emptyTable | .noEntry | .noRulesFor _ | .noRule _ _ => True
  | _ => False

end LL1
