import Verif.Spec.AnyReader
import Verif.Props.Live

/-!
# The buffer of `io.ReadAll` and the text
-/

namespace LL1.AnyReader

variable {σ : Type}

theorem length_overwrite (old new : Str) : (overwrite old new).length = old.length := by
  unfold overwrite
  simp only [List.length_append, List.length_take, List.length_drop]
  omega

theorem overwrite_same (old new : Str) (h : new.length = old.length) : overwrite old new = new := by
  unfold overwrite
  rw [← h, List.take_length, h, List.drop_length, List.append_nil]

theorem Buf.length_put (b : Buf) (mem : Str) (h : b.low ≤ b.arr.length) : (b.put mem).length = b.arr.length := by
  unfold Buf.put Buf.reach
  rw [List.length_append, length_overwrite, List.length_take, List.length_drop]
  omega

theorem Buf.take_put (b : Buf) (mem : Str) (h : b.low ≤ b.arr.length) {k : Nat} (hk : k ≤ b.low) :
    (b.put mem).take k = b.arr.take k := by
  unfold Buf.put
  rw [List.take_append_of_le_length (by rw [List.length_take]; omega), List.take_take, Nat.min_eq_left hk]

theorem Buf.put_reach (b : Buf) : b.put b.reach = b.arr := by
  unfold Buf.put
  rw [overwrite_same _ _ rfl, Buf.reach, List.take_append_drop]

/-- At a call the slice handed to the reader is not empty. -/
structure Buf.Ok (b : Buf) : Prop where
  low : b.low ≤ b.len
  cap : b.len < b.arr.length

theorem Buf.ok_init : Buf.init.Ok := ⟨Nat.le_refl _, by unfold Buf.init; rw [List.length_replicate]; decide⟩

theorem Buf.Ok.off {b : Buf} (h : b.Ok) : b.len - b.low < b.reach.length := by
  have := h.low; have := h.cap
  unfold Buf.reach
  rw [List.length_drop]
  omega

theorem Buf.Ok.put_grown {b : Buf} (h : b.Ok) (grow : Nat → Nat) (hg : ∀ n, n < grow n) (mem : Str) :
    (Buf.grown ⟨b.put mem, b.arr.length, b.low⟩ grow).Ok := by
  have h1 := h.low; have h2 := h.cap
  have h3 := hg b.arr.length
  refine ⟨Nat.le_refl _, ?_⟩
  simp only [Buf.grown, List.length_append, List.length_replicate, Buf.length_put b mem (by omega)]
  omega

theorem Buf.Ok.put {b : Buf} (h : b.Ok) (mem : Str) {len : Nat} (hl : len < b.arr.length) :
    (Buf.mk (b.put mem) len (min b.low len)).Ok := by
  have h1 := h.low; have h2 := h.cap
  refine ⟨Nat.min_le_right _ _, ?_⟩
  simpa [Buf.length_put b mem (by omega)] using hl

theorem called_ok {r : AnyReader σ} {grow : Nat → Nat} (hg : ∀ n, n < grow n) {s s1 : σ} {b : Buf}
    (h : Called r grow s b s1) : b.Ok := by
  induction h with
  | first => exact Buf.ok_init
  | next _ _ h0 h1 ih => exact ih.put _ (by omega)
  | full _ _ _ ih => exact ih.put_grown grow hg _

/-- The text after a call. -/
theorem Buf.Ok.take_put_len {b : Buf} (h : b.Ok) {mem : Str} {n : Int} (hm : mem.length = b.reach.length)
    (hw : mem.take (b.len - b.low) = b.reach.take (b.len - b.low)) (h0 : 0 ≤ (b.len : Int) + n) :
    (b.put mem).take ((b.len : Int) + n).toNat = after (b.arr.take b.len) mem (b.len - b.low) n := by
  have h1 := h.low; have h2 := h.cap
  have hput : b.put mem = b.arr.take b.low ++ mem := by
    unfold Buf.put; rw [overwrite_same _ _ hm]
  have hlow : (b.arr.take b.low).length = b.low := by rw [List.length_take]; omega
  have htake : (b.put mem).take b.len = b.arr.take b.len := by
    have e : b.len = (b.arr.take b.low).length + (b.len - b.low) := by omega
    have e' : b.arr.take b.len = b.arr.take b.low ++ (b.arr.drop b.low).take (b.len - b.low) := by
      rw [← List.take_add]; congr 1; omega
    rw [hput]
    conv_lhs => rw [e]
    rw [List.take_length_add_append, hw, Buf.reach, e']
  have hdrop : (b.put mem).drop b.len = mem.drop (b.len - b.low) := by
    have e : b.len = (b.arr.take b.low).length + (b.len - b.low) := by omega
    rw [hput]
    conv_lhs => rw [e]
    rw [List.drop_length_add_append]
  unfold after
  split
  · rename_i hn
    have e : ((b.len : Int) + n).toNat = b.len + n.toNat := by omega
    rw [e, List.take_add, htake, hdrop]
  · rename_i hn
    have e : (b.arr.take b.len).length = b.len := by rw [List.length_take]; omega
    rw [e, ← htake, List.take_take]
    congr 1
    omega

theorem readAll_makes {maps : σ → Parser} {r : AnyReader σ} {q : Parser} (grow : Nat → Nat) (hg : ∀ n, n < grow n)
    {s : σ} {t u : Str} {fin : Option Str} (h : Makes maps r q s t u fin) :
    ∀ b : Buf, b.Ok → b.arr.take b.len = t → ∃ fuel b' s', readAllFuel r grow fuel b s = some (.done b' fin s') ∧
      b'.arr.take b'.len = u ∧ b'.low ≤ b'.arr.length ∧ maps s' = q := by
  induction h with
  | intro s t u fin ret stop more ih =>
    intro b hb ht
    have h1 := hb.low; have h2 := hb.cap
    obtain ⟨mem, n, e, s', hr, hm, hw, hn0, hn1⟩ := ret b.reach (b.len - b.low) hb.off
    have htl : t.length = b.len := by rw [← ht, List.length_take]; omega
    have hreach : b.reach.length = b.arr.length - b.low := by unfold Buf.reach; rw [List.length_drop]
    rw [htl] at hn0
    have hput := Buf.length_put b mem (by omega)
    have hle : (b.len : Int) + n ≤ b.arr.length := by omega
    have htext := hb.take_put_len hm hw hn0
    rw [ht] at htext
    cases e with
    | some e =>
      obtain ⟨hu, hf, hq⟩ := stop _ _ _ _ _ _ hb.off hr
      refine ⟨1, ⟨b.put mem, ((b.len : Int) + n).toNat, min b.low ((b.len : Int) + n).toNat⟩, s', ?_, ?_, ?_, hq⟩
      · rw [readAllFuel, hr]
        simp only
        rw [if_neg (by rw [hput]; omega)]
        cases e <;> simp [hf, ReadErr.msg]
      · rw [hu, ← htext]
      · simp only [hput]; omega
    | none =>
      by_cases hfull : (b.len : Int) + n = b.arr.length
      · obtain ⟨fuel, b', s'', hra, h'⟩ := ih _ _ _ _ _ hb.off hr (Buf.grown ⟨b.put mem, b.arr.length, b.low⟩ grow)
          (hb.put_grown grow hg mem) (by
            rw [← htext, hfull]
            simp only [Buf.grown, Int.toNat_natCast]
            rw [List.take_append_of_le_length (by omega)])
        refine ⟨fuel + 1, b', s'', ?_, h'⟩
        rw [readAllFuel, hr]
        simp only
        rw [if_neg (by rw [hput]; omega), if_pos (by rw [hput]; omega), ← hra]
        congr 1
        simp only [Buf.grown, hfull, Int.toNat_natCast]
      · obtain ⟨fuel, b', s'', hra, h'⟩ := ih _ _ _ _ _ hb.off hr
          ⟨b.put mem, ((b.len : Int) + n).toNat, min b.low ((b.len : Int) + n).toNat⟩
          (hb.put mem (by omega)) htext
        refine ⟨fuel + 1, b', s'', ?_, h'⟩
        rw [readAllFuel, hr]
        simp only
        rw [if_neg (by rw [hput]; omega), if_neg (by rw [hput]; omega), ← hra]

theorem readAll_mono (r : AnyReader σ) (grow : Nat → Nat) (fuel : Nat) (b : Buf) (s : σ) (x : ReadAllEnd σ)
    (h : readAllFuel r grow fuel b s = some x) (k : Nat) : readAllFuel r grow (fuel + k) b s = some x := by
  induction fuel generalizing b s with
  | zero => cases h
  | succ f ih =>
    rw [Nat.succ_add, readAllFuel]
    rw [readAllFuel] at h
    split at h
    · exact h
    · rename_i mem n e s' hr
      simp only at h ⊢
      split at h
      · rename_i hc; rw [if_pos hc]; exact h
      · rename_i hc
        rw [if_neg hc]
        split at h
        · exact h
        · exact h
        · exact ih _ _ h

theorem readAll_det (r : AnyReader σ) (grow : Nat → Nat) {f g : Nat} {b : Buf} {s : σ} {x y : ReadAllEnd σ}
    (h : readAllFuel r grow f b s = some x) (h' : readAllFuel r grow g b s = some y) : x = y := by
  have h1 := readAll_mono r grow f b s x h g
  have h2 := readAll_mono r grow g b s y h' f
  rw [Nat.add_comm, h1] at h2
  exact Option.some.inj h2

/-- How a call of `io.ReadAll` in progress ends. -/
theorem readAll_called {r : AnyReader σ} {grow : Nat → Nat} {s : σ} (fuel : Nat) {b : Buf} {s1 : σ}
    (h : Called r grow s b s1) (hg : ∀ n, n < grow n) {x : ReadAllEnd σ} (hx : readAllFuel r grow fuel b s1 = some x) :
    ∃ b1 s2, Called r grow s b1 s2 ∧
      ((∃ v, r s2 b1.reach (b1.len - b1.low) = .panics v ∧ x = .readPanic v) ∨
       (∃ mem n e s3, r s2 b1.reach (b1.len - b1.low) = .returns mem n e s3 ∧
          ((b1.len : Int) + n < 0 ∨ (b1.len : Int) + n > b1.arr.length) ∧ x = .boundsPanic) ∨
       (∃ mem n e s3, r s2 b1.reach (b1.len - b1.low) = .returns mem n (some e) s3 ∧
          0 ≤ (b1.len : Int) + n ∧ (b1.len : Int) + n ≤ b1.arr.length ∧
          x = .done ⟨b1.put mem, ((b1.len : Int) + n).toNat, min b1.low ((b1.len : Int) + n).toNat⟩ e.msg s3)) := by
  induction fuel generalizing b s1 with
  | zero => cases hx
  | succ f ih =>
    have hb := called_ok hg h
    have h1 := hb.low; have h2 := hb.cap
    rw [readAllFuel] at hx
    split at hx
    · rename_i v hr
      exact ⟨b, s1, h, .inl ⟨v, hr, by cases hx; rfl⟩⟩
    · rename_i mem n e s' hr
      have hput := Buf.length_put b mem (by omega)
      simp only [hput] at hx
      split at hx
      · rename_i hc
        exact ⟨b, s1, h, .inr (.inl ⟨mem, n, e, s', hr, hc, by cases hx; rfl⟩)⟩
      · rename_i hc
        split at hx
        · exact ⟨b, s1, h, .inr (.inr ⟨mem, n, _, s', hr, by omega, by omega, by cases hx; rfl⟩)⟩
        · exact ⟨b, s1, h, .inr (.inr ⟨mem, n, _, s', hr, by omega, by omega, by cases hx; rfl⟩)⟩
        · by_cases hfull : (b.len : Int) + n = b.arr.length
          · rw [if_pos (by omega)] at hx
            refine ih (.full h hr hfull) ?_
            rw [← hx]
            congr 1
            simp only [Buf.grown, hfull, Int.toNat_natCast]
          · rw [if_neg (by omega)] at hx
            exact ih (.next h hr (by omega) (by omega)) hx

/-- Every call `io.ReadAll` makes is made by running it. -/
theorem readAll_from_called {r : AnyReader σ} {grow : Nat → Nat} (hg : ∀ n, n < grow n) {s : σ} {b : Buf} {s1 : σ}
    (h : Called r grow s b s1) :
    ∃ k, ∀ fuel, readAllFuel r grow (fuel + k) Buf.init s = readAllFuel r grow fuel b s1 := by
  induction h with
  | first => exact ⟨0, fun _ => rfl⟩
  | @next b s1 s2 mem n hc hr h0 h1 ih =>
    obtain ⟨k, ih⟩ := ih
    have hb := called_ok hg hc
    have hput := Buf.length_put b mem (by have := hb.low; have := hb.cap; omega)
    refine ⟨k + 1, fun fuel => ?_⟩
    rw [← Nat.add_assoc, Nat.add_right_comm, ih, readAllFuel, hr]
    simp only [hput]
    rw [if_neg (by omega), if_neg (by omega)]
  | @full b s1 s2 mem n hc hr h0 ih =>
    obtain ⟨k, ih⟩ := ih
    have hb := called_ok hg hc
    have hput := Buf.length_put b mem (by have := hb.low; have := hb.cap; omega)
    refine ⟨k + 1, fun fuel => ?_⟩
    rw [← Nat.add_assoc, Nat.add_right_comm, ih, readAllFuel, hr]
    simp only [hput]
    rw [if_neg (by omega), if_pos (by omega)]
    congr 1
    simp only [Buf.grown, h0, Int.toNat_natCast]

end LL1.AnyReader
