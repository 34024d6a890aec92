import Verif.Proofs.SelfTable
import Verif.Golden.Json

/-!
# The JSON grammar of the example: its table and its LL(1) property, checked by the kernel
-/

namespace LL1
open Golden

/-- The table `FromGrammar` computes for the JSON grammar. -/
def jsonTable : Table :=
  match TG.run (TG.newGen jsonGrammar) (TG.newSets (TG.newGen jsonGrammar).ruleCount)
      (TG.newSets (TG.newGen jsonGrammar).ruleCount) with
  | .ok tbl => tbl
  | _ => []

def jsonCert : Cert := Cert.compute jsonGrammar 16

set_option maxRecDepth 100000 in
theorem json_runGives : runGives jsonGrammar jsonTable = true := by decide +kernel

set_option maxRecDepth 100000 in
theorem json_check : (ll1Check jsonGrammar jsonCert && coveredB jsonGrammar jsonCert jsonTable) = true := by
  decide +kernel

theorem json_ll1 : IsLL1 jsonGrammar := isLL1_of_check (c := jsonCert) (Bool.and_eq_true _ _ ▸ json_check).1

theorem json_covered {tbl : Table} (h : SameTable tbl jsonTable) : Covered jsonGrammar tbl :=
  covered_of (c := jsonCert) (Bool.and_eq_true _ _ ▸ json_check).1 (Bool.and_eq_true _ _ ▸ json_check).2 h

theorem json_nulFree : jsonGrammar.NulFree := nulFree_of (by decide +kernel)

theorem json_heads : DistinctHeads jsonGrammar := distinctHeads_of (by decide +kernel)

/-- A rule the certificate does not mark as nullable derives no empty string. -/
theorem json_not_null {i : Nat} (hi : jsonCert.isNull i = false) : ¬ GenRule jsonGrammar i [] := by
  rintro ⟨alt, ha, hn⟩
  have := (ll1Check_alt (Bool.and_eq_true _ _ ▸ json_check).1 ha).1
    (seqNull_of (Bool.and_eq_true _ _ ▸ json_check).1 (nullable_iff_gen.2 hn))
  rw [hi] at this
  cases this

end LL1
