import Verif.Proofs.ByteSet

/-!
# Properties C01–C05: `byteset` behaves as a set of bytes
-/

namespace LL1

open ByteSet

/-! ## Specification vocabulary -/

/-- A mutating call on a `ByteSet`. -/
inductive SetOp where
  | add (b : UInt8)
  | remove (b : UInt8)

/-- The byte a call names. -/
def SetOp.arg : SetOp → UInt8
  | .add b => b
  | .remove b => b

/-- Executing a call. -/
def SetOp.exec (s : ByteSet) : SetOp → ByteSet
  | .add b => s.add b
  | .remove b => s.remove b

/-- "the last operation that named `x` was an Add, or `x` was given to `New` and never named since". -/
def LastWasAdd (init : List UInt8) (ops : List SetOp) (x : UInt8) : Prop :=
  (∃ before after, ops = before ++ SetOp.add x :: after ∧ ∀ o ∈ after, o.arg ≠ x) ∨
  (x ∈ init ∧ ∀ o ∈ ops, o.arg ≠ x)

/-- Upper-case hexadecimal digits. -/
def hexDigits : List UInt8 := b!"0123456789ABCDEF"

/-- Two-digit upper-case hexadecimal code of a byte. -/
def hex2 (b : UInt8) : Str := [hexDigits[b.toNat / 16]?.getD 0, hexDigits[b.toNat % 16]?.getD 0]

/-- `[AA BB CC]` (no brackets-only special case needed: the empty listing is `[]`). -/
def hexListing (bs : List UInt8) : Str := [91] ++ List.intercalate [32] (bs.map hex2) ++ [93]

/-! ## C01 -/

/-- **C01.** After any history of `Add`/`Remove` on `New(init...)`, `Contains(x)` is true exactly
when the last operation naming `x` was an `Add`. -/
theorem C01_membership_history (init : List UInt8) (ops : List SetOp) (x : UInt8) :
    (ops.foldl SetOp.exec (ByteSet.new init)).contains x = true ↔ LastWasAdd init ops x := by
  suffices h : ∀ (rops : List SetOp),
      (rops.reverse.foldl SetOp.exec (ByteSet.new init)).contains x = true ↔
        LastWasAdd init rops.reverse x by
    have := h ops.reverse
    rwa [List.reverse_reverse] at this
  intro rops
  induction rops with
  | nil =>
    simp only [List.reverse_nil, List.foldl_nil, contains_new, LastWasAdd]
    simp
  | cons o rops ih =>
    rw [List.reverse_cons, List.foldl_append, List.foldl_cons, List.foldl_nil]
    generalize hs : List.foldl SetOp.exec (ByteSet.new init) rops.reverse = s at ih ⊢
    by_cases hx : o.arg = x
    · cases o with
      | add b =>
        simp only [SetOp.arg] at hx; subst hx
        simp only [SetOp.exec, contains_add, decide_true, Bool.true_or, true_iff]
        exact Or.inl ⟨rops.reverse, [], by simp, by simp⟩
      | remove b =>
        simp only [SetOp.arg] at hx; subst hx
        simp only [SetOp.exec, contains_remove, decide_true, Bool.not_true, Bool.false_and,
          Bool.false_eq_true, false_iff]
        rintro (⟨before, after, h1, h2⟩ | ⟨_, h2⟩)
        · rcases List.eq_nil_or_concat after with h | ⟨after', z, h⟩
          · subst h
            have := (List.append_inj' h1 rfl).2
            simp at this
          · subst h
            rw [List.concat_eq_append, ← List.cons_append, ← List.append_assoc] at h1
            have := (List.append_inj' h1 rfl).2
            simp only [List.cons.injEq, and_true] at this
            subst this
            exact h2 (SetOp.remove b) (by simp) rfl
        · exact h2 (.remove b) (by simp) rfl
    · have hc : (o.exec s).contains x = s.contains x := by
        cases o with
        | add b =>
          have : x ≠ b := fun h => hx h.symm
          simp [SetOp.exec, contains_add, this]
        | remove b =>
          have : x ≠ b := fun h => hx h.symm
          simp [SetOp.exec, contains_remove, this]
      have hexec : SetOp.exec s o = o.exec s := rfl
      rw [hexec, hc, ih]
      constructor
      · rintro (⟨before, after, h1, h2⟩ | ⟨h1, h2⟩)
        · refine Or.inl ⟨before, after ++ [o], by simp [h1], ?_⟩
          intro p hp
          rcases List.mem_append.1 hp with h | h
          · exact h2 p h
          · simp at h; subst h; exact hx
        · refine Or.inr ⟨h1, ?_⟩
          intro p hp
          rcases List.mem_append.1 hp with h | h
          · exact h2 p h
          · simp at h; subst h; exact hx
      · rintro (⟨before, after, h1, h2⟩ | ⟨h1, h2⟩)
        · rcases List.eq_nil_or_concat after with h | ⟨after', z, h⟩
          · subst h
            have := (List.append_inj' h1 rfl).2
            simp only [List.cons.injEq, and_true] at this
            subst this
            exact absurd rfl hx
          · subst h
            rw [List.concat_eq_append, ← List.cons_append, ← List.append_assoc] at h1
            have hh := List.append_inj' h1 rfl
            exact Or.inl ⟨before, after', hh.1, fun p hp => h2 p (by simp [hp])⟩
        · exact Or.inr ⟨h1, fun p hp => h2 p (by simp at hp; simp [hp])⟩

/-- Non-trivial instance: 200 was added last, 7 was removed last. -/
example : LastWasAdd [7] [.remove 200, .add 200, .remove 7] 200 ∧
    ¬ LastWasAdd [7] [.remove 200, .add 200, .remove 7] 7 := by
  refine ⟨(C01_membership_history _ _ _).1 (by decide +kernel), fun h => ?_⟩
  exact absurd ((C01_membership_history _ _ _).2 h) (by decide +kernel)

/-! ## C02 -/

/-- **C02.** `Union` is set union. -/
theorem C02_union (s t : ByteSet) (x : UInt8) :
    (s.union t).contains x = true ↔ s.contains x = true ∨ t.contains x = true := by
  rw [contains_union]; simp

/-- **C02.** `Equal` decides equality of membership (and then the values are identical). -/
theorem C02_equal (s t : ByteSet) :
    s.equal t = true ↔ ∀ x, (s.contains x = true ↔ t.contains x = true) := by
  rw [equal_iff]
  exact forall_congr' fun x => by rw [Bool.eq_iff_iff]

/-- **C02.** `IsSubSet` decides inclusion. -/
theorem C02_isSubSet (s t : ByteSet) :
    s.isSubSet t = true ↔ ∀ x, s.contains x = true → t.contains x = true :=
  isSubSet_iff s t

/-- **C02.** `IsSuperSet` decides reverse inclusion. -/
theorem C02_isSuperSet (s t : ByteSet) :
    s.isSuperSet t = true ↔ ∀ x, t.contains x = true → s.contains x = true :=
  isSuperSet_iff s t

example : (ByteSet.new [3, 65, 255]).isSubSet (ByteSet.new [255, 4, 3, 65]) = true ∧
    (ByteSet.new [3, 65, 255]).isSuperSet (ByteSet.new [255, 4, 3, 65]) = false ∧
    (ByteSet.new [3, 65]).equal (ByteSet.new [65, 3, 3]) = true := by decide +kernel

/-! ## C03 -/

/-- **C03.** `Len` terminates on every set and counts the members. -/
theorem C03_len (s : ByteSet) :
    s.len = some (((List.range 256).map UInt8.ofNat).countP fun b => s.contains b) := by
  rw [len_eq, List.countP_eq_length_filter]; rfl

example : (ByteSet.new [0, 63, 64, 255, 255]).len = some 4 := by decide +kernel

/-! ## C04 -/

/-- **C04.** `Bytes` terminates; its result is strictly increasing, lists exactly the members, has
`Len` elements, and rebuilding a set from it gives an equal set. -/
theorem C04_bytes (s : ByteSet) :
    ∃ l, s.bytes = some l ∧ l.Pairwise (· < ·) ∧ (∀ x, x ∈ l ↔ s.contains x = true) ∧
      s.len = some l.length ∧ (ByteSet.new l).equal s = true := by
  refine ⟨_, bytes_eq s, bytes_sorted (bytes_eq s), mem_bytes (bytes_eq s), len_eq s, ?_⟩
  rw [equal_iff]
  intro b
  rw [contains_new, Bool.eq_iff_iff, List.contains_iff_mem]
  exact mem_bytes (bytes_eq s) b

theorem bitList_zero : bitList 0 = [] := by decide +kernel

theorem popLoop_short (fuel : Nat) (v : UInt64) (c : Nat) (h : fuel < (bitList v).length) : popLoop fuel v c = none := by
  induction fuel generalizing v c with
  | zero =>
    unfold popLoop
    rw [if_neg]; rintro rfl; rw [bitList_zero] at h; simp at h
  | succ fuel ih =>
    have hv : v ≠ 0 := by rintro rfl; rw [bitList_zero] at h; simp at h
    unfold popLoop
    rw [if_neg hv]
    obtain ⟨k, hk, h1, h2, h3, h4⟩ := kernighan v hv
    rw [bitList_step v k hk h2 h3 h4] at h
    exact ih _ _ (by simpa using h)

theorem realBytes_short (fuel : Nat) (v : UInt64) (o : UInt8) (h : fuel < (bitList v).length) : realBytes fuel v o = none := by
  induction fuel generalizing v with
  | zero =>
    unfold realBytes
    rw [if_neg]; rintro rfl; rw [bitList_zero] at h; simp at h
  | succ fuel ih =>
    have hv : v ≠ 0 := by rintro rfl; rw [bitList_zero] at h; simp at h
    unfold realBytes
    rw [if_neg hv]
    obtain ⟨k, hk, h1, h2, h3, h4⟩ := kernighan v hv
    rw [bitList_step v k hk h2 h3 h4] at h
    simp only
    rw [ih _ (by simpa using h)]

/-- **C03, C04.** The cost promised at the head of byteset.go: the loops of `Len`, and those of `Bytes` and `String`, go
round exactly once per member.  (A loop returns with `fuel` rounds allowed exactly if it needs no more than that.) -/
theorem C04_rounds (s : ByteSet) :
    ∃ a b c d, s.len = some (a + b + c + d) ∧ ∀ fuel,
      (popLoop fuel s.d0 0 ≠ none ↔ a ≤ fuel) ∧ (popLoop fuel s.d1 0 ≠ none ↔ b ≤ fuel) ∧
      (popLoop fuel s.d2 0 ≠ none ↔ c ≤ fuel) ∧ (popLoop fuel s.d3 0 ≠ none ↔ d ≤ fuel) ∧
      (realBytes fuel s.d0 0x00 ≠ none ↔ a ≤ fuel) ∧ (realBytes fuel s.d1 0x40 ≠ none ↔ b ≤ fuel) ∧
      (realBytes fuel s.d2 0x80 ≠ none ↔ c ≤ fuel) ∧ (realBytes fuel s.d3 0xC0 ≠ none ↔ d ≤ fuel) := by
  have hpop : ∀ fuel v, popLoop fuel v 0 ≠ none ↔ (bitList v).length ≤ fuel := by
    intro fuel v
    by_cases h : (bitList v).length ≤ fuel
    · simp [popLoop_eq fuel v 0 h, h]
    · simp [popLoop_short fuel v 0 (by omega), h]
  have hreal : ∀ fuel v o, realBytes fuel v o ≠ none ↔ (bitList v).length ≤ fuel := by
    intro fuel v o
    by_cases h : (bitList v).length ≤ fuel
    · simp [realBytes_eq fuel v o h, h]
    · simp [realBytes_short fuel v o (by omega), h]
  refine ⟨_, _, _, _, ?_, fun fuel => ⟨hpop _ _, hpop _ _, hpop _ _, hpop _ _, hreal _ _ _, hreal _ _ _, hreal _ _ _, hreal _ _ _⟩⟩
  rw [len_eq, filter_allBytes]
  simp [Nat.add_assoc]

example : (ByteSet.new [200, 7, 64, 0, 255]).bytes = some [0, 7, 64, 200, 255] := by decide +kernel

/-! ## C05 -/

theorem fmtByte_eq (b : UInt8) : fmtByte b = hex2 b ++ [32] :=
  forall_byte (p := fun b => fmtByte b = hex2 b ++ [32]) (by decide +kernel) b

theorem flatten_fmtByte (b : UInt8) (bs : List UInt8) :
    ((b :: bs).map fmtByte).flatten = List.intercalate [32] ((b :: bs).map hex2) ++ [32] := by
  induction bs generalizing b with
  | nil => simp [fmtByte_eq, List.intercalate]
  | cons c bs ih =>
    rw [List.map_cons, List.flatten_cons, ih, fmtByte_eq]
    simp [List.intercalate, List.append_assoc]

theorem set_last (l : Str) (x y : UInt8) : (l ++ [x]).set ((l ++ [x]).length - 1) y = l ++ [y] := by
  induction l with
  | nil => rfl
  | cons a l ih =>
    simp only [List.cons_append, List.length_cons, Nat.add_sub_cancel] at ih ⊢
    have : (l ++ [x]).length = ((l ++ [x]).length - 1) + 1 := by simp
    rw [this, List.set_cons_succ, ih]

/-- **C05.** `String()` is the bracketed hexadecimal listing of `Bytes()`. -/
theorem C05_string (s : ByteSet) : ∃ l, s.bytes = some l ∧ s.toStr = some (hexListing l) := by
  refine ⟨_, bytes_eq s, ?_⟩
  unfold toStr
  rw [bytes_eq]
  generalize List.filter s.contains allBytes = l
  cases l with
  | nil => rfl
  | cons b bs =>
    simp only
    rw [flatten_fmtByte]
    simp only [List.length_append, List.length_singleton, Nat.add_eq_zero_iff, Nat.one_ne_zero,
      and_false, if_false]
    unfold hexListing
    rw [← List.cons_append, set_last]
    rfl

theorem hex2_inj : ∀ a b : UInt8, hex2 a = hex2 b → a = b := by
  have h : ∀ a : UInt8, ∀ x y, hex2 a = [x, y] →
      hexDigits.idxOf x * 16 + hexDigits.idxOf y = a.toNat := by
    intro a x y hxy
    have : ∀ a : UInt8, hexDigits.idxOf ((hex2 a).getD 0 0) * 16 + hexDigits.idxOf ((hex2 a).getD 1 0)
        = a.toNat :=
      forall_byte (p := fun a => hexDigits.idxOf ((hex2 a).getD 0 0) * 16 +
        hexDigits.idxOf ((hex2 a).getD 1 0) = a.toNat) (by decide +kernel)
    have := this a
    rw [hxy] at this
    simpa using this
  intro a b hab
  rw [← UInt8.toNat_inj, ← h a _ _ rfl, ← h b _ _ rfl]
  unfold hex2 at hab
  simp only [List.cons.injEq, and_true] at hab
  rw [hab.1, hab.2]

theorem flatten_hex_inj (l₁ l₂ : List UInt8)
    (h : (l₁.map fmtByte).flatten = (l₂.map fmtByte).flatten) : l₁ = l₂ := by
  induction l₁ generalizing l₂ with
  | nil =>
    cases l₂ with
    | nil => rfl
    | cons b l₂ => simp [fmtByte] at h
  | cons a l₁ ih =>
    cases l₂ with
    | nil => simp [fmtByte] at h
    | cons b l₂ =>
      simp only [List.map_cons, List.flatten_cons] at h
      have h' := List.append_inj h (by simp [fmtByte])
      rw [fmtByte_eq, fmtByte_eq] at h'
      rw [hex2_inj a b (List.append_inj' h'.1 rfl).1, ih _ h'.2]

theorem hexListing_inj (l₁ l₂ : List UInt8) (h : hexListing l₁ = hexListing l₂) : l₁ = l₂ := by
  unfold hexListing at h
  have h1 := (List.append_inj' h rfl).1
  have h2 := (List.append_inj h1 rfl).2
  cases l₁ with
  | nil =>
    cases l₂ with
    | nil => rfl
    | cons b l₂ =>
      have := flatten_fmtByte b l₂
      rw [← h2] at this
      simp [List.intercalate, fmtByte] at this
  | cons a l₁ =>
    cases l₂ with
    | nil =>
      have := flatten_fmtByte a l₁
      rw [h2] at this
      simp [List.intercalate, fmtByte] at this
    | cons b l₂ =>
      apply flatten_hex_inj
      rw [flatten_fmtByte, flatten_fmtByte, h2]

/-- **C05.** Two sets print the same iff they are `Equal`. -/
theorem C05_string_injective (s t : ByteSet) : s.toStr = t.toStr ↔ s.equal t = true := by
  constructor
  · intro h
    obtain ⟨l₁, a1, a2⟩ := C05_string s
    obtain ⟨l₂, b1, b2⟩ := C05_string t
    rw [a2, b2, Option.some.injEq] at h
    have := hexListing_inj _ _ h
    subst this
    rw [equal_iff]
    intro b
    rw [Bool.eq_iff_iff, ← mem_bytes a1, ← mem_bytes b1]
  · intro h
    rw [(equal_iff_eq s t).1 h]

example : (ByteSet.new [200, 7, 64]).toStr = some b!"[07 40 C8]" ∧
    (ByteSet.new []).toStr = some b!"[]" := by decide +kernel

end LL1
