import Verif.Model.TestDriver
import Verif.Proofs.Messages
import Verif.Props.TestReader

/-!
# The printed trees and names maps are codes
-/

namespace LL1
namespace TestTools

/-- The bytes of decimal numbers. -/
def NumByte (c : UInt8) : Prop := c = 45 ∨ (48 ≤ c.toNat ∧ c.toNat ≤ 57)

/-- Reads a decimal number. -/
def decVal (s : Str) : Nat := s.foldl (fun a c => a * 10 + (c.toNat - 48)) 0

theorem decVal_snoc (s : Str) (c : UInt8) : decVal (s ++ [c]) = decVal s * 10 + (c.toNat - 48) := by
  simp [decVal, List.foldl_append]

theorem digit_toNat : ∀ d : Nat, d < 10 → (48 + UInt8.ofNat d).toNat = 48 + d := by decide +kernel

theorem decVal_decimal (n : Nat) : decVal (decimal n) = n := by
  induction n using decimal.induct with
  | case1 n h =>
    rw [decimal, if_pos h]
    have := decVal_snoc [] (48 + UInt8.ofNat n)
    rw [List.nil_append] at this
    rw [this, digit_toNat n h]
    simp [decVal]
  | case2 n h ih =>
    rw [decimal, if_neg h, decVal_snoc, ih, digit_toNat _ (Nat.mod_lt _ (by omega))]
    omega

theorem decimal_digits (n : Nat) : ∀ c ∈ decimal n, 48 ≤ c.toNat ∧ c.toNat ≤ 57 := by
  induction n using decimal.induct with
  | case1 n h =>
    rw [decimal, if_pos h]
    intro c hc
    rw [List.mem_singleton] at hc
    subst hc
    rw [digit_toNat n h]
    omega
  | case2 n h ih =>
    rw [decimal, if_neg h]
    intro c hc
    rcases List.mem_append.1 hc with hc | hc
    · exact ih c hc
    · rw [List.mem_singleton] at hc
      subst hc
      have := Nat.mod_lt n (show 10 > 0 by omega)
      rw [digit_toNat _ this]
      omega

theorem decimal_ne_nil (n : Nat) : decimal n ≠ [] := by
  rw [decimal]
  split <;> simp

theorem decimal_inj {n m : Nat} (h : decimal n = decimal m) : n = m := by
  rw [← decVal_decimal n, h, decVal_decimal]

theorem fmtNat_inj {n m : Nat} (h : fmtNat n = fmtNat m) : n = m := by
  rw [fmtNat_eq, fmtNat_eq] at h
  exact decimal_inj h

theorem fmtInt_inj {n m : Int} (h : fmtInt n = fmtInt m) : n = m := by
  have key : ∀ a b : Nat, decimal a ≠ 45 :: decimal b := by
    intro a b e
    have := decimal_digits a 45 (by rw [e]; exact List.mem_cons_self)
    revert this
    decide
  rw [fmtInt_eq, fmtInt_eq] at h
  unfold decimalInt at h
  split at h <;> split at h
  · have := decimal_inj h; omega
  · exact (key _ _ h).elim
  · exact (key _ _ h.symm).elim
  · have := decimal_inj (List.cons.inj h).2; omega

theorem fmtNat_num (n : Nat) : ∀ c ∈ fmtNat n, NumByte c := by
  intro c hc
  rw [fmtNat_eq] at hc
  exact .inr (decimal_digits n c hc)

theorem fmtInt_num (n : Int) : ∀ c ∈ fmtInt n, NumByte c := by
  intro c hc
  rw [fmtInt_eq] at hc
  unfold decimalInt at hc
  split at hc
  · exact .inr (decimal_digits _ c hc)
  · rcases List.mem_cons.1 hc with rfl | hc
    · exact .inl rfl
    · exact .inr (decimal_digits _ c hc)

theorem fmtInt_ne_nil (n : Int) : fmtInt n ≠ [] := by
  rw [fmtInt_eq]
  unfold decimalInt
  split
  · exact decimal_ne_nil _
  · simp

/-- Two texts of `P`-bytes, each ended by another byte. -/
theorem split_at {P : UInt8 → Prop} (a b : Str) (ha : ∀ c ∈ a, P c) (hb : ∀ c ∈ b, P c) {c d : UInt8} {x y : Str}
    (hc : ¬ P c) (hd : ¬ P d) (h : a ++ c :: x = b ++ d :: y) : a = b ∧ c = d ∧ x = y := by
  induction a generalizing b with
  | nil =>
    cases b with
    | nil => simpa using h
    | cons e b =>
      simp only [List.nil_append, List.cons_append, List.cons.injEq] at h
      exact (hc (h.1 ▸ hb e List.mem_cons_self)).elim
  | cons e a ih =>
    cases b with
    | nil =>
      simp only [List.nil_append, List.cons_append, List.cons.injEq] at h
      exact (hd (h.1 ▸ ha e List.mem_cons_self)).elim
    | cons f b =>
      simp only [List.cons_append, List.cons.injEq] at h
      obtain ⟨rfl, h⟩ := h
      obtain ⟨e1, e2⟩ := ih b (fun c hc => ha c (List.mem_cons_of_mem _ hc)) (fun c hc => hb c (List.mem_cons_of_mem _ hc)) h
      exact ⟨by rw [e1], e2⟩

theorem not_num {c : UInt8} (h : c = 32 ∨ c = 58) : ¬ NumByte c := by
  rcases h with rfl | rfl <;> (unfold NumByte; decide)

theorem fmtNodes_cons (c : Node) (cs : List Node) :
    fmtNodes (c :: cs) = fmtNode c ++ (if cs = [] then [] else 32 :: fmtNodes cs) := by
  cases cs <;> simp [fmtNodes]

theorem fmtNode_head (t : Node) : ∃ x, fmtNode t = 123 :: x := by
  obtain ⟨ty, s, e, cs⟩ := t
  exact ⟨_, by rw [fmtNode]; rfl⟩

mutual
theorem fmtNode_code : ∀ (t t' : Node) (x y : Str), fmtNode t ++ x = fmtNode t' ++ y → t = t' ∧ x = y
  | .mk ty s e cs, .mk ty' s' e' cs', x, y => by
    intro h
    rw [fmtNode, fmtNode] at h
    have hb1 : (b!"{" : Str) = [123] := by decide
    have hb2 : (b!" [" : Str) = [32, 91] := by decide
    have hb3 : (b!"]}" : Str) = [93, 125] := by decide
    rw [hb1, hb2, hb3] at h
    simp only [List.append_assoc, List.cons_append, List.nil_append, List.cons.injEq, true_and] at h
    obtain ⟨h1, -, h⟩ := split_at _ _ (fmtInt_num _) (fmtInt_num _) (not_num (.inl rfl)) (not_num (.inl rfl)) h
    obtain ⟨h2, -, h⟩ := split_at _ _ (fmtNat_num _) (fmtNat_num _) (not_num (.inl rfl)) (not_num (.inl rfl)) h
    obtain ⟨h3, -, h⟩ := split_at _ _ (fmtNat_num _) (fmtNat_num _) (not_num (.inl rfl)) (not_num (.inl rfl)) h
    simp only [List.cons.injEq, true_and] at h
    obtain ⟨h4, h⟩ := fmtNodes_code cs cs' _ _ h
    simp only [List.cons.injEq, true_and] at h
    rw [fmtInt_inj h1, fmtNat_inj h2, fmtNat_inj h3, h4]
    exact ⟨rfl, h⟩
theorem fmtNodes_code : ∀ (cs cs' : List Node) (x y : Str), fmtNodes cs ++ 93 :: x = fmtNodes cs' ++ 93 :: y →
    cs = cs' ∧ x = y
  | [], [], x, y => by intro h; simpa [fmtNodes] using h
  | [], c :: cs, x, y => by
    intro h
    obtain ⟨z, hz⟩ := fmtNode_head c
    rw [fmtNodes_cons, hz, fmtNodes] at h
    simp at h
  | c :: cs, [], x, y => by
    intro h
    obtain ⟨z, hz⟩ := fmtNode_head c
    rw [fmtNodes_cons, hz, fmtNodes] at h
    simp at h
  | c :: cs, c' :: cs', x, y => by
    intro h
    rw [fmtNodes_cons, fmtNodes_cons, List.append_assoc, List.append_assoc] at h
    obtain ⟨h1, h⟩ := fmtNode_code c c' _ _ h
    by_cases hc : cs = []
    · by_cases hc' : cs' = []
      · subst hc hc' h1
        simp at h
        exact ⟨rfl, h⟩
      · simp [hc, hc'] at h
    · by_cases hc' : cs' = []
      · simp [hc, hc'] at h
      · simp only [if_neg hc, if_neg hc', List.cons_append, List.cons.injEq, true_and] at h
        obtain ⟨h2, h⟩ := fmtNodes_code cs cs' x y h
        exact ⟨by rw [h1, h2], h⟩
end

/-! ## The names map -/

/-- The key/value pairs in key order. -/
abbrev sortedNames (m : Names) : Names := m.foldr insertKey []

theorem insertKey_perm (e : Int × Str) (m : Names) : (insertKey e m).Perm (e :: m) := by
  induction m with
  | nil => exact .refl _
  | cons f m ih =>
    unfold insertKey
    split
    · exact .refl _
    · exact (ih.cons f).trans (.swap e f m)

theorem sortedNames_perm (m : Names) : (sortedNames m).Perm m := by
  induction m with
  | nil => exact .refl _
  | cons e m ih => exact (insertKey_perm e _).trans (ih.cons e)

theorem insertKey_sorted (e : Int × Str) (m : Names) (h : m.Pairwise fun a b => a.1 ≤ b.1) :
    (insertKey e m).Pairwise fun a b => a.1 ≤ b.1 := by
  induction m with
  | nil => simp [insertKey]
  | cons f m ih =>
    rw [List.pairwise_cons] at h
    unfold insertKey
    split
    · next he =>
      refine List.pairwise_cons.2 ⟨?_, List.pairwise_cons.2 h⟩
      intro g hg
      rcases List.mem_cons.1 hg with rfl | hg
      · exact he
      · exact Int.le_trans he (h.1 g hg)
    · next he =>
      refine List.pairwise_cons.2 ⟨?_, ih h.2⟩
      intro g hg
      rcases List.mem_cons.1 ((insertKey_perm e m).mem_iff.1 hg) with rfl | hg
      · omega
      · exact h.1 g hg

theorem sortedNames_sorted (m : Names) : (sortedNames m).Pairwise fun a b => a.1 ≤ b.1 := by
  induction m with
  | nil => exact .nil
  | cons e m ih => exact insertKey_sorted e _ ih

theorem get_iff_mem (m : Names) (hm : (m.map (·.1)).Nodup) (k : Int) (v : Str) : m.get k = some v ↔ (k, v) ∈ m := by
  induction m with
  | nil => simp [GoMap.get]
  | cons e m ih =>
    rw [List.map_cons, List.nodup_cons] at hm
    obtain ⟨a, b⟩ := e
    by_cases h : a = k
    · subst h
      simp only [GoMap.get, if_pos, Option.some.injEq, List.mem_cons, Prod.mk.injEq, true_and]
      constructor
      · intro h; exact .inl h.symm
      · rintro (h | h)
        · exact h.symm
        · exact (hm.1 (List.mem_map.2 ⟨_, h, rfl⟩)).elim
    · simp only [GoMap.get, if_neg h, List.mem_cons, Prod.mk.injEq]
      rw [ih hm.2]
      constructor
      · exact .inr
      · rintro (⟨h', -⟩ | h')
        · exact (h h'.symm).elim
        · exact h'

theorem names_perm (m m' : Names) (hm : (m.map (·.1)).Nodup) (hm' : (m'.map (·.1)).Nodup)
    (h : ∀ k, m.get k = m'.get k) : m.Perm m' := by
  have nd : ∀ l : Names, (l.map (·.1)).Nodup → l.Nodup := fun l hl =>
    List.Pairwise.of_map (·.1) (fun a b hab e => hab (by rw [e])) hl
  refine (List.perm_ext_iff_of_nodup (nd m hm) (nd m' hm')).2 fun e => ?_
  rw [← get_iff_mem m hm e.1 e.2, ← get_iff_mem m' hm' e.1 e.2, h]

theorem names_get_of_perm (m m' : Names) (hm : (m.map (·.1)).Nodup) (h : m.Perm m') (k : Int) :
    m.get k = m'.get k := by
  have hm' : (m'.map (·.1)).Nodup := (h.map _).nodup_iff.1 hm
  refine Option.ext fun v => ?_
  rw [get_iff_mem m hm, get_iff_mem m' hm', h.mem_iff]

theorem sortedNames_eq (m m' : Names) (hm : (m.map (·.1)).Nodup) (h : m.Perm m') : sortedNames m = sortedNames m' := by
  have hp : (sortedNames m).Perm (sortedNames m') := (sortedNames_perm m).trans (h.trans (sortedNames_perm m').symm)
  refine List.Perm.eq_of_pairwise ?_ (sortedNames_sorted m) (sortedNames_sorted m') hp
  intro a b ha hb h1 h2
  have e : a.1 = b.1 := Int.le_antisymm h1 h2
  have ha' := (sortedNames_perm m).mem_iff.1 ha
  have hb' := h.mem_iff.2 ((sortedNames_perm m').mem_iff.1 hb)
  have g1 := (get_iff_mem m hm a.1 a.2).2 ha'
  have g2 := (get_iff_mem m hm b.1 b.2).2 hb'
  rw [e, g2] at g1
  exact Prod.ext e (Option.some.inj g1).symm

/-- An entry as printed. -/
abbrev entryText (e : Int × Str) : Str := fmtInt e.1 ++ (58 :: e.2)

theorem entries_code (L L' : Names) (hL : ∀ e ∈ L, ∀ c ∈ e.2, c ≠ 32 ∧ c ≠ 93) (hL' : ∀ e ∈ L', ∀ c ∈ e.2, c ≠ 32 ∧ c ≠ 93)
    (x y : Str) (h : List.intercalate [32] (L.map entryText) ++ 93 :: x = List.intercalate [32] (L'.map entryText) ++ 93 :: y) :
    L = L' ∧ x = y := by
  have inter : ∀ (e : Int × Str) (l : Names), List.intercalate [32] ((e :: l).map entryText) =
      fmtInt e.1 ++ (58 :: (e.2 ++ (if l = [] then [] else 32 :: List.intercalate [32] (l.map entryText)))) := by
    intro e l
    cases l with
    | nil => simp [List.intercalate]
    | cons f l => simp [List.intercalate, List.append_assoc]
  have first : ∀ (e : Int) (r z : Str), fmtInt e ++ r ≠ 93 :: z := by
    intro e r z h
    cases hf : fmtInt e with
    | nil => exact fmtInt_ne_nil e hf
    | cons c cs =>
      rw [hf] at h
      have hc := fmtInt_num e c (by rw [hf]; exact List.mem_cons_self)
      rw [(List.cons.inj h).1] at hc
      revert hc
      unfold NumByte
      decide
  induction L generalizing L' with
  | nil =>
    cases L' with
    | nil => simpa [List.intercalate] using h
    | cons e L' =>
      rw [inter, List.append_assoc] at h
      exact (first _ _ _ h.symm).elim
  | cons e L ih =>
    cases L' with
    | nil =>
      rw [inter, List.append_assoc] at h
      exact (first _ _ _ h).elim
    | cons f L' =>
      rw [inter, inter, List.append_assoc, List.append_assoc, List.cons_append, List.cons_append] at h
      obtain ⟨h1, -, h⟩ := split_at _ _ (fmtInt_num _) (fmtInt_num _) (not_num (.inr rfl)) (not_num (.inr rfl)) h
      rw [List.append_assoc, List.append_assoc] at h
      have heP := hL e List.mem_cons_self
      have hfP := hL' f List.mem_cons_self
      have n32 : ¬ ((32 : UInt8) ≠ 32 ∧ (32 : UInt8) ≠ 93) := by decide
      have n93 : ¬ ((93 : UInt8) ≠ 32 ∧ (93 : UInt8) ≠ 93) := by decide
      by_cases hc : L = []
      · by_cases hc' : L' = []
        · simp only [hc, hc', if_true, List.nil_append] at h
          obtain ⟨h2, -, h⟩ := split_at (P := fun c => c ≠ 32 ∧ c ≠ 93) _ _ heP hfP n93 n93 h
          exact ⟨by rw [hc, hc', Prod.ext (fmtInt_inj h1) h2], h⟩
        · simp only [hc, if_neg hc', if_true, List.nil_append, List.cons_append] at h
          obtain ⟨-, h2, -⟩ := split_at (P := fun c => c ≠ 32 ∧ c ≠ 93) _ _ heP hfP n93 n32 h
          exact absurd h2 (by decide)
      · by_cases hc' : L' = []
        · simp only [if_neg hc, hc', if_true, List.nil_append, List.cons_append] at h
          obtain ⟨-, h2, -⟩ := split_at (P := fun c => c ≠ 32 ∧ c ≠ 93) _ _ heP hfP n32 n93 h
          exact absurd h2 (by decide)
        · simp only [if_neg hc, if_neg hc', List.cons_append] at h
          obtain ⟨h2, -, h⟩ := split_at (P := fun c => c ≠ 32 ∧ c ≠ 93) _ _ heP hfP n32 n32 h
          obtain ⟨h3, h⟩ := ih L' (fun e he => hL e (List.mem_cons_of_mem _ he))
            (fun e he => hL' e (List.mem_cons_of_mem _ he)) h
          exact ⟨by rw [h3, Prod.ext (fmtInt_inj h1) h2], h⟩

theorem contentFails_refl (a : Str) : contentFails a a = false := by
  unfold contentFails
  rw [C66_equal_passes a _ (by omega)]
  simp

theorem contentFails_prefix {a b : Str} (h : contentFails a b = false) : a <+: b ∨ b <+: a := by
  unfold contentFails at h
  rw [decide_eq_false_iff_not, Decidable.not_not] at h
  exact (C66_pass a b _ (by omega) h).1

theorem performTests_iff (parse : Str → Outcome) (fs : Files) (tests : List ParserTestCase) (failed : Bool) :
    performTestsOnParser parse fs tests failed = .finished false ↔ failed = false ∧ ∀ test ∈ tests,
      (test.err = none → ∃ reft refnt t m, fs test.parseTreeFile = some reft ∧ fs test.namingMapFile = some refnt ∧
        parse test.input = .ok t m ∧ contentFails reft (fmtNode t) = false ∧ contentFails refnt (fmtNames m) = false) ∧
      ∀ msg, test.err = some msg → ∃ e, parse test.input = .err e ∧ e.render = msg := by
  induction tests generalizing failed with
  | nil => cases failed <;> simp [performTestsOnParser]
  | cons test tests ih =>
    rw [List.forall_mem_cons]
    unfold performTestsOnParser
    cases he : test.err with
    | none =>
      cases h1 : fs test.parseTreeFile with
      | none => simp
      | some reft =>
        cases h2 : fs test.namingMapFile with
        | none => simp
        | some refnt =>
          cases h3 : parse test.input with
          | panic p => simp
          | err e => simp
          | ok t m =>
            simp only [ih]
            simp [and_assoc]
    | some msg =>
      cases h3 : parse test.input with
      | panic p => simp
      | ok t m => simp
      | err e =>
        by_cases hr : e.render = msg
        · simp [hr, ih]
        · simp [hr]

end TestTools
end LL1
