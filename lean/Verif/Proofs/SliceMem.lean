import Verif.Model.Memory

/-!
# Facts about slices in memory
-/

namespace LL1
namespace Mem
variable {α : Type} {m : Mem α} {base : Nat} {s : SliceRef}

/-- The slice lies in an allocated array above `base` whose size is the slice's capacity. -/
structure Fits (m : Mem α) (base : Nat) (s : SliceRef) : Prop where
  len_le : s.len ≤ s.cap
  alloc : 0 < s.cap → base ≤ s.arr ∧ s.arr < m.next ∧ (m.arrays s.arr).length = s.cap

theorem fits_empty (m : Mem α) (base : Nat) : m.Fits base SliceRef.empty :=
  ⟨Nat.le_refl _, fun h => absurd h (by simp [SliceRef.empty])⟩

theorem read_length (h : m.Fits base s) : (m.read s).length = s.len := by
  unfold read
  split
  · next h0 => have := h.len_le; simp; omega
  · next h0 =>
    have := (h.alloc (Nat.pos_of_ne_zero h0)).2.2
    have := h.len_le
    rw [List.length_take]; omega

theorem read_congr {m' : Mem α} (h : 0 < s.cap → m'.arrays s.arr = m.arrays s.arr) : m'.read s = m.read s := by
  unfold read
  split
  · rfl
  · next h0 => rw [h (Nat.pos_of_ne_zero h0)]

theorem fits_congr {m' : Mem α} (hf : m.Fits base s) (hn : m.next ≤ m'.next)
    (h : 0 < s.cap → m'.arrays s.arr = m.arrays s.arr) : m'.Fits base s := by
  refine ⟨hf.len_le, fun hc => ?_⟩
  obtain ⟨h1, h2, h3⟩ := hf.alloc hc
  exact ⟨h1, by omega, by rw [h hc]; exact h3⟩

/-- What `append` does. -/
structure Appended (m : Mem α) (s : SliceRef) (x : α) (base : Nat) (m' : Mem α) (s' : SliceRef) : Prop where
  fits : m'.Fits base s'
  read : m'.read s' = m.read s ++ [x]
  cap : 0 < s'.cap
  next : m.next ≤ m'.next
  place : (0 < s.cap ∧ s'.arr = s.arr) ∨ m.next ≤ s'.arr
  others : ∀ a, a < m.next → (0 < s.cap → a ≠ s.arr) → m'.arrays a = m.arrays a

theorem append_spec {grow : Nat → Nat → Nat} (hg : Roomy grow) (zero : α) (hf : m.Fits base s) (hb : base ≤ m.next) (x : α) :
    Appended m s x base (m.append grow zero s x).1 (m.append grow zero s x).2 := by
  have hlen := read_length hf
  unfold append
  by_cases hroom : s.len < s.cap
  · rw [if_pos hroom]
    have hcap : 0 < s.cap := by omega
    obtain ⟨h1, h2, h3⟩ := hf.alloc hcap
    have hc0 : s.cap ≠ 0 := by omega
    refine ⟨⟨by simp only; omega, fun _ => ⟨h1, h2, ?_⟩⟩, ?_, hcap, Nat.le_refl _, .inl ⟨hcap, rfl⟩, ?_⟩
    · simp only [write, if_true, List.length_set]; exact h3
    · simp only [read, write, hc0, if_false, if_true]
      rw [List.take_set, ← List.take_append_getElem (i := s.len) (by rw [h3]; omega)]
      rw [List.set_append_right _ _ (by simp [h3]; omega)]
      simp [List.length_take, h3, Nat.min_eq_left hf.len_le]
    · intro a _ ha
      have := ha hcap
      simp [write, this]
  · rw [if_neg hroom]
    have hgr := hg m.next (s.len + 1)
    have hc0 : grow m.next (s.len + 1) ≠ 0 := by omega
    refine ⟨⟨hgr, fun _ => ⟨hb, Nat.lt_succ_self _, ?_⟩⟩, ?_, Nat.pos_of_ne_zero hc0, Nat.le_succ _, .inr (Nat.le_refl _), ?_⟩
    · simp only [write, if_true, List.length_append, List.length_cons, List.length_replicate, hlen]
      omega
    · show ite _ _ _ = _
      rw [if_neg hc0]
      simp only [write, if_true]
      rw [List.take_append, List.take_of_length_le (by omega), hlen]
      congr 1
      rw [show s.len + 1 - s.len = 1 by omega]
      rfl
    · intro a ha _
      have : a ≠ m.next := by omega
      simp [write, this]

/-- What shortening a slice by one does. -/
theorem read_pop {l : List α} {x : α} (hf : m.Fits base s) (h : m.read s = l ++ [x]) :
    s.len ≠ 0 ∧ (m.read s)[s.len - 1]? = some x ∧ m.read { s with len := s.len - 1 } = l ∧
    m.Fits base { s with len := s.len - 1 } := by
  have hlen := read_length hf
  rw [h, List.length_append, List.length_singleton] at hlen
  refine ⟨by omega, ?_, ?_, ⟨by have := hf.len_le; simp only; omega, hf.alloc⟩⟩
  · rw [h, show s.len - 1 = l.length by omega]; simp
  · have hc : s.cap ≠ 0 := by have := hf.len_le; omega
    unfold read at h ⊢
    simp only [hc, if_false] at h ⊢
    have : List.take (s.len - 1) (List.take s.len (m.arrays s.arr)) = List.take (s.len - 1) (m.arrays s.arr) := by
      rw [List.take_take, Nat.min_eq_left (by omega)]
    rw [← this, h, show s.len - 1 = l.length by omega]
    simp

theorem read_nil (hf : m.Fits base s) (h : m.read s = []) : s.len = 0 := by
  have := read_length hf
  rw [h] at this
  simpa using this.symm

end Mem
end LL1
