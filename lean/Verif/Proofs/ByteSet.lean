import Verif.Model.ByteSet

/-! # Bit-level lemmas for the byte set -/

namespace LL1

/-- A property of bytes holds for all bytes if it holds for `UInt8.ofNat n` for all `n < 256`. -/
theorem forall_byte {p : UInt8 → Prop} (h : ∀ n, n < 256 → p (UInt8.ofNat n)) (b : UInt8) : p b := by
  have := h b.toNat (UInt8.toNat_lt b)
  rwa [UInt8.ofNat_toNat] at this

namespace ByteSet

theorem word_setWord (s : ByteSet) (i j : UInt8) (w : UInt64) (hi : i < 4) (hj : j < 4) :
    (s.setWord i w).word j = if j = i then w else s.word j := by
  have h4 : ∀ k : UInt8, k < 4 → k = 0 ∨ k = 1 ∨ k = 2 ∨ k = 3 := by
    intro k; exact forall_byte (p := fun k => k < 4 → k = 0 ∨ k = 1 ∨ k = 2 ∨ k = 3)
      (by decide +kernel) k
  rcases h4 i hi with rfl | rfl | rfl | rfl <;> rcases h4 j hj with rfl | rfl | rfl | rfl <;> rfl

theorem div64_lt (b : UInt8) : b / 64 < 4 :=
  forall_byte (p := fun b => b / 64 < 4) (by decide +kernel) b

theorem byte_eq_iff (a b : UInt8) : a = b ↔ a / 64 = b / 64 ∧ a % 64 = b % 64 := by
  constructor
  · rintro rfl; simp
  · rintro ⟨h1, h2⟩
    rw [← UInt8.toNat_inj] at h1 h2 ⊢
    simp only [UInt8.toNat_div, UInt8.toNat_mod, UInt8.reduceToNat] at h1 h2
    omega

/-- Bit `i` of a word. -/
def bit (w : UInt64) (i : Nat) : Bool := w.toNat.testBit i

theorem bit_or (a b : UInt64) (i : Nat) : bit (a ||| b) i = (bit a i || bit b i) := by
  simp [bit]

theorem bit_and (a b : UInt64) (i : Nat) : bit (a &&& b) i = (bit a i && bit b i) := by
  simp [bit]

theorem bit_ge (a : UInt64) (i : Nat) (h : 64 ≤ i) : bit a i = false := by
  unfold bit
  apply Nat.testBit_lt_two_pow
  exact Nat.lt_of_lt_of_le (UInt64.toNat_lt a) (Nat.pow_le_pow_right (by omega) h)

theorem eq_of_bit (a b : UInt64) (h : ∀ i, i < 64 → bit a i = bit b i) : a = b := by
  rw [← UInt64.toNat_inj]
  apply Nat.eq_of_testBit_eq
  intro i
  by_cases hi : i < 64
  · exact h i hi
  · have h1 := bit_ge a i (by omega)
    have h2 := bit_ge b i (by omega)
    unfold bit at h1 h2
    rw [h1, h2]

theorem mod64_toNat (b : UInt8) : ((b % 64).toUInt64).toNat = b.toNat % 64 := by
  simp

theorem bit_mask (b : UInt8) (i : Nat) :
    bit ((1 : UInt64) <<< (b % 64).toUInt64) i = decide (i = b.toNat % 64) := by
  unfold bit
  rw [UInt64.toNat_shiftLeft, mod64_toNat]
  have hm : b.toNat % 64 < 64 := Nat.mod_lt _ (by omega)
  rw [Nat.mod_eq_of_lt hm]
  simp only [UInt64.reduceToNat, Nat.shiftLeft_eq, Nat.one_mul]
  rw [Nat.mod_eq_of_lt (Nat.pow_lt_pow_right (by omega) hm), Nat.testBit_two_pow]
  simp [eq_comm]

theorem bit_not (a : UInt64) (i : Nat) (hi : i < 64) : bit (~~~a) i = !bit a i := by
  unfold bit
  rw [← UInt64.toNat_toBitVec, ← UInt64.toNat_toBitVec, UInt64.toBitVec_not]
  have := BitVec.getLsbD_not (x := a.toBitVec) (i := i)
  simp only [BitVec.getLsbD] at this
  rw [this]
  simp [hi]

theorem contains_eq_bit (s : ByteSet) (b : UInt8) :
    s.contains b = bit (s.word (b / 64)) (b.toNat % 64) := by
  unfold contains bit
  simp only
  have hm : b.toNat % 64 < 64 := Nat.mod_lt _ (by omega)
  rw [Bool.eq_iff_iff, beq_iff_eq, ← UInt64.toNat_inj, UInt64.toNat_and, UInt64.toNat_shiftRight,
    mod64_toNat, Nat.mod_eq_of_lt hm]
  simp only [UInt64.reduceToNat, Nat.and_one_is_mod]
  rw [Nat.testBit, Nat.one_and_eq_mod_two]
  generalize ((s.word (b / 64)).toNat >>> (b.toNat % 64)) = n
  have : n % 2 < 2 := Nat.mod_lt _ (by omega)
  rcases Nat.mod_two_eq_zero_or_one n with h | h <;> simp [h]

theorem contains_add (s : ByteSet) (a b : UInt8) :
    (s.add a).contains b = (decide (b = a) || s.contains b) := by
  rw [contains_eq_bit, contains_eq_bit]
  unfold add
  simp only
  rw [word_setWord _ _ _ _ (div64_lt a) (div64_lt b)]
  have hm : b.toNat % 64 < 64 := Nat.mod_lt _ (by omega)
  by_cases h : b / 64 = a / 64
  · rw [if_pos h, bit_or, bit_mask _ _, h]
    have : (b = a) ↔ b.toNat % 64 = a.toNat % 64 := by
      rw [byte_eq_iff]
      simp only [h, true_and]
      rw [← UInt8.toNat_inj]
      simp
    simp only [this]
    rw [Bool.or_comm]
  · rw [if_neg h]
    have : b ≠ a := fun e => h (by rw [e])
    simp [this]

theorem contains_remove (s : ByteSet) (a b : UInt8) :
    (s.remove a).contains b = (!decide (b = a) && s.contains b) := by
  rw [contains_eq_bit, contains_eq_bit]
  unfold remove
  simp only
  rw [word_setWord _ _ _ _ (div64_lt a) (div64_lt b)]
  have hm : b.toNat % 64 < 64 := Nat.mod_lt _ (by omega)
  by_cases h : b / 64 = a / 64
  · rw [if_pos h, bit_and, bit_not _ _ hm, bit_mask _ _, h]
    have : (b = a) ↔ b.toNat % 64 = a.toNat % 64 := by
      rw [byte_eq_iff]
      simp only [h, true_and]
      rw [← UInt8.toNat_inj]
      simp
    simp only [this]
    rw [Bool.and_comm]
  · rw [if_neg h]
    have : b ≠ a := fun e => h (by rw [e])
    simp [this]

@[simp] theorem contains_empty (b : UInt8) : empty.contains b = false := by
  rw [contains_eq_bit]
  have : ∀ i, empty.word i = 0 := by intro i; unfold word empty; simp
  rw [this]; simp [bit]

theorem contains_foldl_add (vs : List UInt8) (s : ByteSet) (b : UInt8) :
    (vs.foldl add s).contains b = (vs.contains b || s.contains b) := by
  induction vs generalizing s with
  | nil => simp
  | cons v vs ih =>
    rw [List.foldl_cons, ih, contains_add, List.contains_cons]
    have : (b == v) = decide (b = v) := rfl
    rw [this]
    cases decide (b = v) <;> cases vs.contains b <;> simp

theorem contains_new (vs : List UInt8) (b : UInt8) : (new vs).contains b = vs.contains b := by
  unfold new; rw [contains_foldl_add]; simp

theorem word_union (s t : ByteSet) (i : UInt8) : (s.union t).word i = s.word i ||| t.word i := by
  unfold word union
  by_cases h0 : i = 0 <;> by_cases h1 : i = 1 <;> by_cases h2 : i = 2 <;> simp [h0, h1, h2]

theorem contains_union (s t : ByteSet) (b : UInt8) :
    (s.union t).contains b = (s.contains b || t.contains b) := by
  simp only [contains_eq_bit, word_union, bit_or]

/-- Every (word, bit) position is a byte. -/
theorem pos_byte (k i : Nat) (hk : k < 4) (hi : i < 64) :
    ∃ b : UInt8, b / 64 = UInt8.ofNat k ∧ b.toNat % 64 = i := by
  refine ⟨UInt8.ofNat (64 * k + i), ?_, ?_⟩
  · rw [← UInt8.toNat_inj]
    simp only [UInt8.toNat_div, UInt8.toNat_ofNat', UInt8.reduceToNat]
    omega
  · simp only [UInt8.toNat_ofNat']
    omega

theorem bits_of_contains {s t : ByteSet} {r : Bool → Bool → Prop}
    (h : ∀ b, r (s.contains b) (t.contains b)) (k : Nat) (hk : k < 4) (i : Nat) (hi : i < 64) :
    r (bit (s.word (UInt8.ofNat k)) i) (bit (t.word (UInt8.ofNat k)) i) := by
  obtain ⟨b, h1, h2⟩ := pos_byte k i hk hi
  have := h b
  rwa [contains_eq_bit, contains_eq_bit, h1, h2] at this

theorem ext_contains {s t : ByteSet} (h : ∀ b, s.contains b = t.contains b) : s = t := by
  have hw : ∀ k, k < 4 → s.word (UInt8.ofNat k) = t.word (UInt8.ofNat k) := fun k hk =>
    eq_of_bit _ _ (fun i hi => bits_of_contains (r := Eq) h k hk i hi)
  have h0 := hw 0 (by omega)
  have h1 := hw 1 (by omega)
  have h2 := hw 2 (by omega)
  have h3 := hw 3 (by omega)
  cases s; cases t
  simp only [word] at h0 h1 h2 h3
  simp_all

theorem equal_iff_eq (s t : ByteSet) : s.equal t = true ↔ s = t := by
  cases s; cases t
  simp [equal, and_assoc]

theorem equal_iff (s t : ByteSet) : s.equal t = true ↔ ∀ b, s.contains b = t.contains b := by
  rw [equal_iff_eq]
  exact ⟨fun h => by rw [h]; simp, ext_contains⟩

theorem and_eq_self_iff (a b : UInt64) :
    ((a &&& b) == a) = true ↔ ∀ i, i < 64 → bit a i = true → bit b i = true := by
  rw [beq_iff_eq]
  constructor
  · intro h i _ ha
    have := bit_and a b i
    rw [h, ha] at this
    simpa using this.symm
  · intro h
    apply eq_of_bit
    intro i hi
    rw [bit_and]
    have := h i hi
    cases ha : bit a i <;> simp_all

theorem isSubSet_iff (s t : ByteSet) :
    s.isSubSet t = true ↔ ∀ b, s.contains b = true → t.contains b = true := by
  constructor
  · intro h b
    rw [contains_eq_bit, contains_eq_bit]
    have hm : b.toNat % 64 < 64 := Nat.mod_lt _ (by omega)
    simp only [isSubSet, Bool.and_eq_true, and_eq_self_iff] at h
    obtain ⟨⟨⟨h0, h1⟩, h2⟩, h3⟩ := h
    unfold word
    by_cases e0 : b / 64 = 0
    · simp only [e0, if_true]; exact h0 _ hm
    · by_cases e1 : b / 64 = 1
      · simp [e1]; exact h1 _ hm
      · by_cases e2 : b / 64 = 2
        · simp [e2]; exact h2 _ hm
        · simp [e0, e1, e2]; exact h3 _ hm
  · intro h
    have hw := bits_of_contains (s := s) (t := t) (r := fun a b => a = true → b = true) h
    have h0 := hw 0 (by omega)
    have h1 := hw 1 (by omega)
    have h2 := hw 2 (by omega)
    have h3 := hw 3 (by omega)
    simp only [isSubSet, Bool.and_eq_true, and_eq_self_iff]
    exact ⟨⟨⟨h0, h1⟩, h2⟩, h3⟩

theorem isSuperSet_iff (s t : ByteSet) :
    s.isSuperSet t = true ↔ ∀ b, t.contains b = true → s.contains b = true := by
  unfold isSuperSet; rw [isSubSet_iff]

/-! ## The Kernighan step `v & (v-1)` -/

theorem lowbit (v : Nat) (hv : v ≠ 0) :
    ∃ k, v = (v &&& (v - 1)) + 2 ^ k ∧ v.testBit k = true ∧
      (∀ i, (v &&& (v - 1)).testBit i = (v.testBit i && decide (i ≠ k))) ∧
      (∀ i, i < k → v.testBit i = false) := by
  induction v using Nat.strongRecOn with
  | ind v ih =>
    rcases Nat.mod_two_eq_zero_or_one v with h | h
    · -- even
      have hu : v / 2 ≠ 0 := by omega
      obtain ⟨k, h1, h2, h3, h4⟩ := ih (v / 2) (by omega) hu
      have hhalf : (v &&& (v - 1)) / 2 = (v / 2) &&& (v / 2 - 1) := by
        rw [Nat.and_div_two]
        congr 1
        omega
      have hlow : (v &&& (v - 1)) % 2 = 0 := by
        have := @Nat.and_mod_two_eq_one v (v - 1)
        omega
      refine ⟨k + 1, ?_, ?_, ?_, ?_⟩
      · rw [Nat.pow_succ]; omega
      · rw [Nat.testBit_succ]; exact h2
      · intro i
        cases i with
        | zero => simp [Nat.testBit_zero, h, hlow]
        | succ i =>
          rw [Nat.testBit_succ, Nat.testBit_succ, hhalf, h3]
          simp
      · intro i hi
        cases i with
        | zero => simp [Nat.testBit_zero, h]
        | succ i => rw [Nat.testBit_succ]; exact h4 i (by omega)
    · -- odd
      have hhalf : (v &&& (v - 1)) / 2 = v / 2 := by
        rw [Nat.and_div_two]
        have : (v - 1) / 2 = v / 2 := by omega
        rw [this, Nat.and_self]
      have hlow : (v &&& (v - 1)) % 2 = 0 := by
        have := @Nat.and_mod_two_eq_one v (v - 1)
        omega
      refine ⟨0, ?_, ?_, ?_, ?_⟩
      · simp only [Nat.pow_zero]; omega
      · simp [Nat.testBit_zero, h]
      · intro i
        cases i with
        | zero => simp [Nat.testBit_zero, hlow]
        | succ i => rw [Nat.testBit_succ, Nat.testBit_succ, hhalf]; simp
      · intro i hi; omega

/-- One iteration on a non-zero word removes the lowest set bit `k`; `v - (v & (v-1))` is `2^k`. -/
theorem kernighan (v : UInt64) (hv : v ≠ 0) :
    ∃ k, k < 64 ∧ v - (v &&& (v - 1)) = UInt64.ofNat (2 ^ k) ∧ bit v k = true ∧
      (∀ i, bit (v &&& (v - 1)) i = (bit v i && decide (i ≠ k))) ∧
      (∀ i, i < k → bit v i = false) := by
  have hne : v.toNat ≠ 0 := by
    intro h; apply hv; rw [← UInt64.toNat_inj]; simpa using h
  have hsub : (v - 1).toNat = v.toNat - 1 := by
    rw [UInt64.toNat_sub_of_le]
    · simp
    · rw [UInt64.le_iff_toNat_le]; simp; omega
  obtain ⟨k, h1, h2, h3, h4⟩ := lowbit v.toNat hne
  have hk : k < 64 := by
    rcases Nat.lt_or_ge k 64 with h | h
    · exact h
    · have := bit_ge v k h
      unfold bit at this
      rw [h2] at this; cases this
  have hand : (v &&& (v - 1)).toNat = v.toNat &&& (v.toNat - 1) := by
    rw [UInt64.toNat_and, hsub]
  generalize hp : 2 ^ k = P at h1
  refine ⟨k, hk, ?_, h2, ?_, h4⟩
  · rw [← UInt64.toNat_inj, UInt64.toNat_sub_of_le]
    · rw [hand, UInt64.toNat_ofNat', Nat.mod_eq_of_lt (Nat.pow_lt_pow_right (by omega) hk), hp]
      omega
    · rw [UInt64.le_iff_toNat_le, hand]; omega
  · intro i
    unfold bit
    rw [hand]; exact h3 i

/-- Positions of set bits in increasing order. -/
def bitList (v : UInt64) : List Nat := (List.range 64).filter (bit v)

theorem filter_sorted_remove_first (l : List Nat) (hl : l.Pairwise (· < ·)) (p : Nat → Bool) (k : Nat)
    (hk : k ∈ l) (hp : p k = true) (hlow : ∀ i, i < k → p i = false) :
    l.filter p = k :: l.filter (fun i => p i && decide (i ≠ k)) := by
  induction l with
  | nil => simp at hk
  | cons a l ih =>
    rw [List.pairwise_cons] at hl
    by_cases hak : a = k
    · subst hak
      rw [List.filter_cons_of_pos hp, List.filter_cons_of_neg (by simp)]
      congr 1
      apply List.filter_congr
      intro x hx
      have := hl.1 x hx
      simp; intro _; omega
    · have hkl : k ∈ l := by
        rcases List.mem_cons.1 hk with h | h
        · exact absurd h.symm hak
        · exact h
      have hlt := hl.1 k hkl
      have hpa := hlow a hlt
      rw [List.filter_cons_of_neg (by simp [hpa]), List.filter_cons_of_neg (by simp [hpa])]
      exact ih hl.2 hkl

theorem bitList_step (v : UInt64) (k : Nat) (hk : k < 64) (h2 : bit v k = true)
    (h3 : ∀ i, bit (v &&& (v - 1)) i = (bit v i && decide (i ≠ k)))
    (h4 : ∀ i, i < k → bit v i = false) :
    bitList v = k :: bitList (v &&& (v - 1)) := by
  unfold bitList
  rw [filter_sorted_remove_first (List.range 64) List.pairwise_lt_range (bit v) k
    (List.mem_range.2 hk) h2 h4]
  congr 1
  apply List.filter_congr
  intro i _
  rw [h3]

@[simp] theorem bitList_zero : bitList 0 = [] := by
  unfold bitList; rw [List.filter_eq_nil_iff]; simp [bit]

theorem bitList_length_le (v : UInt64) : (bitList v).length ≤ 64 := by
  unfold bitList
  exact Nat.le_trans (List.length_filter_le _ _) (by simp)

theorem popLoop_eq (fuel : Nat) (v : UInt64) (c : Nat) (h : (bitList v).length ≤ fuel) :
    popLoop fuel v c = some (c + (bitList v).length) := by
  induction fuel generalizing v c with
  | zero =>
    unfold popLoop
    by_cases hv : v = 0
    · simp [hv]
    · obtain ⟨k, hk, h1, h2, h3, h4⟩ := kernighan v hv
      rw [bitList_step v k hk h2 h3 h4] at h
      simp at h
  | succ fuel ih =>
    unfold popLoop
    by_cases hv : v = 0
    · simp [hv]
    · obtain ⟨k, hk, h1, h2, h3, h4⟩ := kernighan v hv
      rw [if_neg hv]
      rw [bitList_step v k hk h2 h3 h4] at h ⊢
      rw [ih _ _ (by simpa using h)]
      simp; omega

theorem log2pow2n_pow (k : Nat) (hk : k < 64) : log2pow2n (UInt64.ofNat (2 ^ k)) = UInt8.ofNat k := by
  have : ∀ k, k < 64 → log2pow2n (UInt64.ofNat (2 ^ k)) = UInt8.ofNat k := by decide +kernel
  exact this k hk

theorem realBytes_eq (fuel : Nat) (v : UInt64) (o : UInt8) (h : (bitList v).length ≤ fuel) :
    realBytes fuel v o = some ((bitList v).map fun i => o + UInt8.ofNat i) := by
  induction fuel generalizing v with
  | zero =>
    unfold realBytes
    by_cases hv : v = 0
    · simp [hv]
    · obtain ⟨k, hk, h1, h2, h3, h4⟩ := kernighan v hv
      rw [bitList_step v k hk h2 h3 h4] at h
      simp at h
  | succ fuel ih =>
    unfold realBytes
    by_cases hv : v = 0
    · simp [hv]
    · obtain ⟨k, hk, h1, h2, h3, h4⟩ := kernighan v hv
      rw [if_neg hv]
      rw [bitList_step v k hk h2 h3 h4] at h ⊢
      simp only
      rw [ih _ (by simpa using h)]
      simp only
      rw [h1, log2pow2n_pow k hk]
      simp

/-- All bytes in increasing order. -/
def allBytes : List UInt8 := (List.range 256).map UInt8.ofNat

theorem allBytes_split : allBytes =
    ((List.range 64).map fun i => (0x00 : UInt8) + UInt8.ofNat i) ++
    ((List.range 64).map fun i => (0x40 : UInt8) + UInt8.ofNat i) ++
    ((List.range 64).map fun i => (0x80 : UInt8) + UInt8.ofNat i) ++
    ((List.range 64).map fun i => (0xC0 : UInt8) + UInt8.ofNat i) := by
  decide +kernel

theorem filter_word (s : ByteSet) (o : UInt8) (w : UInt64)
    (h : ∀ i, i < 64 → s.contains (o + UInt8.ofNat i) = bit w i) :
    ((List.range 64).map fun i => o + UInt8.ofNat i).filter s.contains =
      (bitList w).map fun i => o + UInt8.ofNat i := by
  unfold bitList
  rw [List.filter_map]
  congr 1
  apply List.filter_congr
  intro i hi
  exact h i (List.mem_range.1 hi)

theorem contains_offset (s : ByteSet) (k : Nat) (hk : k < 4) (i : Nat) (hi : i < 64) :
    s.contains (UInt8.ofNat (64 * k) + UInt8.ofNat i) = bit (s.word (UInt8.ofNat k)) i := by
  rw [contains_eq_bit]
  have e : (UInt8.ofNat (64 * k) + UInt8.ofNat i).toNat = 64 * k + i := by
    rw [UInt8.toNat_add, UInt8.toNat_ofNat', UInt8.toNat_ofNat']; omega
  have h1 : (UInt8.ofNat (64 * k) + UInt8.ofNat i) / 64 = UInt8.ofNat k := by
    rw [← UInt8.toNat_inj, UInt8.toNat_div, e, UInt8.toNat_ofNat']
    simp only [UInt8.reduceToNat]; omega
  rw [h1, e]
  congr 1
  omega

theorem filter_allBytes (s : ByteSet) : allBytes.filter s.contains =
    ((bitList s.d0).map fun i => (0x00 : UInt8) + UInt8.ofNat i) ++
    ((bitList s.d1).map fun i => (0x40 : UInt8) + UInt8.ofNat i) ++
    ((bitList s.d2).map fun i => (0x80 : UInt8) + UInt8.ofNat i) ++
    ((bitList s.d3).map fun i => (0xC0 : UInt8) + UInt8.ofNat i) := by
  rw [allBytes_split]
  simp only [List.filter_append]
  rw [filter_word s 0x00 s.d0 (fun i hi => contains_offset s 0 (by omega) i hi),
    filter_word s 0x40 s.d1 (fun i hi => contains_offset s 1 (by omega) i hi),
    filter_word s 0x80 s.d2 (fun i hi => contains_offset s 2 (by omega) i hi),
    filter_word s 0xC0 s.d3 (fun i hi => contains_offset s 3 (by omega) i hi)]

theorem bytes_eq (s : ByteSet) : s.bytes = some (allBytes.filter s.contains) := by
  unfold bytes
  rw [realBytes_eq _ _ _ (bitList_length_le _), realBytes_eq _ _ _ (bitList_length_le _),
    realBytes_eq _ _ _ (bitList_length_le _), realBytes_eq _ _ _ (bitList_length_le _),
    filter_allBytes]
  simp

theorem len_eq (s : ByteSet) : s.len = some (allBytes.filter s.contains).length := by
  unfold len popCount
  rw [popLoop_eq _ _ _ (bitList_length_le _), popLoop_eq _ _ _ (bitList_length_le _),
    popLoop_eq _ _ _ (bitList_length_le _), popLoop_eq _ _ _ (bitList_length_le _),
    filter_allBytes]
  simp [Nat.add_assoc]

theorem mem_allBytes (b : UInt8) : b ∈ allBytes := by
  unfold allBytes
  rw [List.mem_map]
  exact ⟨b.toNat, List.mem_range.2 (UInt8.toNat_lt b), UInt8.ofNat_toNat⟩

theorem allBytes_sorted : allBytes.Pairwise (· < ·) := by
  unfold allBytes
  rw [List.pairwise_map]
  apply List.Pairwise.imp_of_mem _ List.pairwise_lt_range
  intro a b ha hb hab
  rw [List.mem_range] at ha hb
  rw [UInt8.lt_iff_toNat_lt, UInt8.toNat_ofNat', UInt8.toNat_ofNat']
  omega

theorem mem_bytes {s : ByteSet} {l : List UInt8} (h : s.bytes = some l) (b : UInt8) :
    b ∈ l ↔ s.contains b = true := by
  rw [bytes_eq, Option.some.injEq] at h
  rw [← h, List.mem_filter]
  simp [mem_allBytes]

theorem bytes_sorted {s : ByteSet} {l : List UInt8} (h : s.bytes = some l) : l.Pairwise (· < ·) := by
  rw [bytes_eq, Option.some.injEq] at h
  rw [← h]
  exact allBytes_sorted.filter _

end ByteSet
end LL1
