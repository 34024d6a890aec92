import Verif.Proofs.Checker
import Verif.Proofs.Language
import Verif.Spec.Tables
import Verif.Golden.TestGrammars
import Verif.Golden.Tables
import Verif.Model.SelfGrammar

/-!
# The BNF grammar: its table, computed by the kernel
-/

namespace LL1

/-! ## Comparing tables -/

/-- Same entries: every key of either map has the same value in both. -/
def sameRowB (a b : Row) : Bool :=
  (a.all fun e => decide (GoMap.get a e.1 = GoMap.get b e.1)) &&
  (b.all fun e => decide (GoMap.get a e.1 = GoMap.get b e.1))

def sameCellB (a b : Table) (n : Int) : Bool :=
  match a.get n, b.get n with
  | none, none => true
  | some r, some s => sameRowB r s
  | _, _ => false

def sameTableB (a b : Table) : Bool :=
  (a.all fun e => sameCellB a b e.1) && (b.all fun e => sameCellB a b e.1)

theorem sameRow_of {a b : Row} (h : sameRowB a b = true) (c : UInt8) : GoMap.get a c = GoMap.get b c := by
  simp only [sameRowB, Bool.and_eq_true, List.all_eq_true, decide_eq_true_eq] at h
  cases ha : GoMap.get a c with
  | some v => rw [← ha]; exact h.1 _ (GoMap.mem_of_get_eq_some ha)
  | none =>
    cases hb : GoMap.get b c with
    | none => rfl
    | some v => rw [← ha, ← hb]; exact h.2 _ (GoMap.mem_of_get_eq_some hb)

theorem sameTable_of {a b : Table} (h : sameTableB a b = true) : SameTable a b := by
  simp only [sameTableB, Bool.and_eq_true, List.all_eq_true] at h
  intro n
  have key : (a.get n = none ∧ b.get n = none) ∨ sameCellB a b n = true := by
    cases ha : a.get n with
    | some v => exact .inr (h.1 _ (GoMap.mem_of_get_eq_some ha))
    | none =>
      cases hb : b.get n with
      | none => exact .inl ⟨rfl, rfl⟩
      | some v => exact .inr (h.2 _ (GoMap.mem_of_get_eq_some hb))
  rcases key with ⟨h1, h2⟩ | h
  · simp [h1, h2]
  · unfold sameCellB at h
    split at h
    · simp [*]
    · rename_i r s h1 h2
      refine ⟨⟨fun _ => ⟨s, h2⟩, fun _ => ⟨r, h1⟩⟩, ?_⟩
      intro rowA rowB hA hB c
      rw [h1] at hA; rw [h2] at hB
      cases hA; cases hB
      exact sameRow_of h c
    · cases h

theorem SameTable.body {a b : Table} (h : SameTable a b) (n : Int) (c : UInt8) :
    bodyFor a n c = bodyFor b n c := by
  unfold bodyFor
  split
  · obtain ⟨h1, h2⟩ := h n
    cases ha : a.get n with
    | none =>
      cases hb : b.get n with
      | none => rfl
      | some s => obtain ⟨r, hr⟩ := h1.2 ⟨s, hb⟩; rw [ha] at hr; cases hr
    | some r =>
      obtain ⟨s, hs⟩ := h1.1 ⟨r, ha⟩
      rw [hs]
      exact h2 r s ha hs c
  · rfl

theorem SameTable.symm {a b : Table} (h : SameTable a b) : SameTable b a :=
  fun n => ⟨(h n).1.symm, fun rA rB hA hB c => ((h n).2 rB rA hB hA c).symm⟩

theorem Derives.congr {a b : Table} (h : SameTable a b) {src : Str} {ops : List ParserOp} {i j : Nat}
    {cs : List Node} (hD : Derives a src ops i j cs) : Derives b src ops i j cs := by
  induction hD with
  | nil => exact .nil _
  | lit hl _ ih => exact .lit hl ih
  | nt hb _ _ ih1 ih2 => exact .nt (by rw [← h.body]; exact hb) ih1 ih2

theorem IsParse.congr {a b : Table} (h : SameTable a b) {src : Str} {t : Node} (hp : IsParse a src t) :
    IsParse b src t := by
  obtain ⟨j, h1, h2⟩ := hp
  exact ⟨j, h1.congr h, h2⟩

/-! ## Evaluation -/

/-- The run ends with a table equal to `t`. -/
def runGives (g : Grammar) (t : Table) : Bool :=
  match TG.run (TG.newGen g) (TG.newSets (TG.newGen g).ruleCount) (TG.newSets (TG.newGen g).ruleCount) with
  | .ok tbl => sameTableB tbl t
  | _ => false

theorem fromGrammar_of_runGives {g : Grammar} {t : Table} (h : runGives g t = true)
    (order : List (Str × Nat) → List (Str × Nat)) :
    ∃ tbl names, fromGrammar order g = .ok (tbl, names) ∧ SameTable tbl t := by
  unfold runGives at h
  split at h
  · rename_i tbl htbl
    refine ⟨tbl, TG.rowNames (order (TG.newGen g).ruleMap) [], ?_, sameTable_of h⟩
    unfold fromGrammar
    simp only [htbl, Res.ok_bind, Res.pure_eq]
  · cases h

set_option maxRecDepth 100000 in
theorem self_runGives : runGives selfGrammar Golden.selfTable = true := by decide +kernel

/-! ## Coverage check -/

def coveredRow (c : Cert) (tbl : Table) (i : Nat) : Bool :=
  !c.isNull i || (List.range 256).all fun b =>
    !(c.followOf i).testBit b || (bodyFor tbl (i : Int) (UInt8.ofNat b)).isSome

def coveredB (g : Grammar) (c : Cert) (tbl : Table) : Bool :=
  (List.range g.rules.length).all (coveredRow c tbl)

theorem covered_of {g : Grammar} {c : Cert} {tbl tbl' : Table} (hc : ll1Check g c = true)
    (h : coveredB g c tbl = true) (hs : SameTable tbl' tbl) : Covered g tbl' := by
  intro i b hn hf
  obtain ⟨alt, ha, hna⟩ := id hn
  simp only [coveredB, List.all_eq_true, List.mem_range] at h
  have hi := h i ha.lt
  have hnull : c.isNull i = true := by
    have := (ll1Check_alt hc ha).1
    exact this (seqNull_of hc hna)
  simp only [coveredRow, hnull, Bool.not_true, Bool.false_or, List.all_eq_true, List.mem_range] at hi
  have hb := hi b.toNat b.toNat_lt
  rw [followOf_of hc hf] at hb
  simp only [Bool.not_true, Bool.false_or, UInt8.ofNat_toNat, ← hs.body] at hb
  rw [Option.isSome_iff_exists] at hb
  obtain ⟨body, hb⟩ := hb
  simp only [bodyFor, Int.natCast_nonneg, if_true] at hb
  cases hr : tbl'.get (i : Int) with
  | none => simp [hr] at hb
  | some row => simp only [hr, Option.bind_some] at hb; exact ⟨row, body, rfl, hb⟩

def selfCert : Cert := Cert.compute selfGrammar 8

set_option maxRecDepth 100000 in
theorem self_check : (ll1Check selfGrammar selfCert && coveredB selfGrammar selfCert Golden.selfTable) = true := by
  decide +kernel

theorem self_ll1 : IsLL1 selfGrammar := isLL1_of_check (c := selfCert) (Bool.and_eq_true _ _ ▸ self_check).1

theorem self_covered {tbl : Table} (h : SameTable tbl Golden.selfTable) : Covered selfGrammar tbl :=
  covered_of (c := selfCert) (Bool.and_eq_true _ _ ▸ self_check).1 (Bool.and_eq_true _ _ ▸ self_check).2 h

theorem self_nulFree : selfGrammar.NulFree := nulFree_of (by decide +kernel)

end LL1
