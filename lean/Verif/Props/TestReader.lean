import Verif.Model.TestReader

/-!
# C66: what `ReaderContentMustBeEqual` decides
-/

namespace LL1
namespace TestTools

/-- What the buffer shows after each successful read of a text, block by block. -/
def shown (n : Nat) : Nat → Str → Str → List Str
  | 0, _, _ => []
  | fuel + 1, buff, text =>
    if text = [] then [] else
      let now := text.take n ++ buff.drop (text.take n).length
      now :: shown n fuel now (text.drop n)

theorem readInto_content_nil (buff : Str) : readInto contentReader [] buff = (buff, some .eof, []) := by
  simp [readInto, contentReader]

theorem readInto_content {a : Str} (h : a ≠ []) (buff : Str) :
    readInto contentReader a buff =
      (a.take buff.length ++ buff.drop (a.take buff.length).length, none, a.drop buff.length) := by
  simp [readInto, contentReader, h]

theorem overlay_length {buff : Str} {n : Nat} (hb : buff.length = n) (a : Str) :
    (a.take n ++ buff.drop (a.take n).length).length = n := by
  simp only [List.length_append, List.length_take, List.length_drop]; omega

/-- The verdict, from any buffers of the same positive length. -/
theorem compare_content {n : Nat} (hn : 0 < n) (fuel : Nat) (a b x y : Str) (hx : x.length = n) (hy : y.length = n)
    (hfa : a.length < fuel) (hfb : b.length < fuel) :
    compareReaders contentReader contentReader fuel a b x y = some (decide (shown n fuel x a = shown n fuel y b)) := by
  induction fuel generalizing a b x y with
  | zero => omega
  | succ fuel ih =>
    unfold compareReaders shown
    by_cases ha : a = []
    · subst ha
      rw [readInto_content_nil]
      by_cases hb : b = []
      · subst hb; rw [readInto_content_nil]; simp
      · rw [readInto_content hb]
        simp [hb]
    · rw [readInto_content ha]
      by_cases hb : b = []
      · subst hb; rw [readInto_content_nil]; simp [ha]
      · rw [readInto_content hb]
        simp only [hx, hy, ne_eq, not_true_eq_false, or_self, if_false, ha, hb]
        by_cases he : a.take n ++ x.drop (a.take n).length = b.take n ++ y.drop (b.take n).length
        · have hpa : 0 < a.length := List.length_pos_iff.2 ha
          have hpb : 0 < b.length := List.length_pos_iff.2 hb
          simp only [he, not_true_eq_false, if_false]
          have hl := overlay_length hy b
          rw [ih _ _ _ _ hl hl (by rw [List.length_drop]; omega) (by rw [List.length_drop]; omega)]
          simp
        · rw [if_pos he]
          simp only [List.cons.injEq, he, false_and, decide_false]

theorem shown_nil (n f : Nat) (x : Str) : shown n f x [] = [] := by cases f <;> simp [shown]

/-- **C66.** On two buffers or files the helper always comes to a verdict: it passes iff the two buffers show the same
after each read, and as many reads succeed on both. -/
theorem C66_verdict (a b : Str) (fuel : Nat) (h : a.length + b.length < fuel) :
    readerContentMustBeEqual contentReader contentReader fuel a b =
      some (decide (shown 4096 fuel (List.replicate 4096 0) a = shown 4096 fuel (List.replicate 4096 0) b)) :=
  compare_content (by decide) fuel a b _ _ List.length_replicate List.length_replicate (by omega) (by omega)

/-- **C66.** Equal contents pass. -/
theorem C66_equal_passes (a : Str) (fuel : Nat) (h : a.length + a.length < fuel) :
    readerContentMustBeEqual contentReader contentReader fuel a a = some true := by
  rw [C66_verdict a a fuel h, decide_eq_true rfl]

theorem shown_prefix {n : Nat} (hn : 0 < n) (fuel : Nat) (a b x y : Str) (hx : x.length = n) (hy : y.length = n)
    (hfa : a.length < fuel) (hfb : b.length < fuel) (hl : a.length ≤ b.length)
    (h : shown n fuel x a = shown n fuel y b) : a <+: b ∧ (a.length + n - 1) / n = (b.length + n - 1) / n := by
  induction fuel generalizing a b x y with
  | zero => omega
  | succ fuel ih =>
    unfold shown at h
    by_cases ha : a = []
    · subst ha
      by_cases hb : b = []
      · subst hb; exact ⟨List.prefix_rfl, rfl⟩
      · simp [hb] at h
    · have hpa : 0 < a.length := List.length_pos_iff.2 ha
      have hb : b ≠ [] := List.length_pos_iff.1 (by omega)
      simp only [ha, hb, if_false, List.cons.injEq] at h
      obtain ⟨h1, h2⟩ := h
      have hxa := overlay_length hx a
      have hyb := overlay_length hy b
      obtain ⟨⟨c, hc⟩, hk⟩ := ih _ _ _ _ hxa hyb (by rw [List.length_drop]; omega) (by rw [List.length_drop]; omega)
        (by simp only [List.length_drop]; omega) h2
      have hta : (a.take n) <+: (b.take n) := by
        have hlt : (a.take n).length ≤ (b.take n).length := by simp only [List.length_take]; omega
        have p1 : a.take n <+: b.take n ++ y.drop (b.take n).length := by rw [← h1]; exact List.prefix_append _ _
        exact List.prefix_of_prefix_length_le p1 (List.prefix_append _ _) hlt
      have hlen : ∀ m, 0 < m → (m + n - 1) / n = (m - n + n - 1) / n + 1 := by
        intro m hm
        by_cases hmn : n ≤ m
        · have e1 : m + n - 1 = (m - n + n - 1) + n := by omega
          rw [e1, Nat.add_div_right _ hn]
        · have e1 : m - n = 0 := by omega
          rw [e1]
          have e2 : (0 + n - 1) / n = 0 := Nat.div_eq_of_lt (by omega)
          have e3 : m + n - 1 = (m - 1) + n := by omega
          rw [e2, e3, Nat.add_div_right _ hn, Nat.div_eq_of_lt (by omega)]
      constructor
      · by_cases hdone : a.length ≤ n
        · rw [List.take_of_length_le hdone] at hta
          exact hta.trans (List.take_prefix _ _)
        · have : a.take n = b.take n := by
            refine hta.eq_of_length ?_
            simp only [List.length_take]; omega
          refine ⟨c, ?_⟩
          rw [← List.take_append_drop n a, ← List.take_append_drop n b, this, List.append_assoc, hc]
      · rw [hlen a.length hpa, hlen b.length (by omega)]
        simp only [List.length_drop] at hk
        omega

/-- **C66.** If the helper passes, one content is a beginning of the other, and both take equally many blocks of 4096
bytes.  In particular contents of equal length pass only if they are equal. -/
theorem C66_pass (a b : Str) (fuel : Nat) (hf : a.length + b.length < fuel)
    (h : readerContentMustBeEqual contentReader contentReader fuel a b = some true) :
    (a <+: b ∨ b <+: a) ∧ (a.length + 4095) / 4096 = (b.length + 4095) / 4096 ∧ (a.length = b.length → a = b) := by
  rw [C66_verdict a b fuel hf] at h
  have he : shown 4096 fuel (List.replicate 4096 0) a = shown 4096 fuel (List.replicate 4096 0) b :=
    of_decide_eq_true (Option.some.inj h)
  rcases Nat.le_total a.length b.length with hl | hl
  · obtain ⟨h1, h2⟩ := shown_prefix (by decide) fuel a b _ _ List.length_replicate List.length_replicate
      (by omega) (by omega) hl he
    exact ⟨.inl h1, h2, fun e => h1.eq_of_length e⟩
  · obtain ⟨h1, h2⟩ := shown_prefix (by decide) fuel b a _ _ List.length_replicate List.length_replicate
      (by omega) (by omega) hl he.symm
    exact ⟨.inr h1, h2.symm, fun e => (h1.eq_of_length e.symm).symm⟩

theorem shown_nul (n : Nat) (a : Str) (k fuel : Nat) (ha : a ≠ []) (hk : a.length + k ≤ n) :
    shown n fuel (List.replicate n 0) a = shown n fuel (List.replicate n 0) (a ++ List.replicate k 0) := by
  cases fuel with
  | zero => rfl
  | succ fuel =>
    have hb : a ++ List.replicate k (0 : UInt8) ≠ [] := by simp [ha]
    have h1 : a.take n = a := List.take_of_length_le (by omega)
    have h2 : (a ++ List.replicate k (0 : UInt8)).take n = a ++ List.replicate k 0 :=
      List.take_of_length_le (by simp; omega)
    have d1 : a.drop n = [] := List.drop_of_length_le (by omega)
    have d2 : (a ++ List.replicate k (0 : UInt8)).drop n = [] := List.drop_of_length_le (by simp; omega)
    have e : k + (n - (a.length + k)) = n - a.length := by omega
    simp only [shown, ha, hb, if_false, h1, h2, d1, d2, shown_nil, List.drop_replicate, List.length_append,
      List.length_replicate, List.append_assoc, List.replicate_append_replicate, e]

/-- **C66.** The helper can pass although the contents differ: a text and the same text with NUL bytes behind it, as long
as both fit into one block. -/
theorem C66_false_pass_nul (a : Str) (k fuel : Nat) (ha : a ≠ []) (hk : a.length + k ≤ 4096)
    (hf : a.length + (a.length + k) < fuel) :
    readerContentMustBeEqual contentReader contentReader fuel a (a ++ List.replicate k 0) = some true := by
  rw [C66_verdict _ _ _ (by rw [List.length_append, List.length_replicate]; exact hf),
    decide_eq_true (shown_nul 4096 a k fuel ha hk)]

theorem shown_stale (n m fuel : Nat) (hn : 0 < n) (h1 : 1 ≤ m) (h2 : m ≤ n) (z : Str) (hz : z.length = n) (c : UInt8) :
    shown n (fuel + 2) z (List.replicate (n + m) c) = [List.replicate n c, List.replicate n c] := by
  have e1 : List.replicate (n + m) c ≠ [] := by
    rw [ne_eq, List.replicate_eq_nil_iff]; omega
  have e2 : List.replicate m c ≠ [] := by
    rw [ne_eq, List.replicate_eq_nil_iff]; omega
  have t1 : min n (n + m) = n := by omega
  have t2 : min n m = m := by omega
  have t3 : n + m - n = m := by omega
  have t4 : m - n = 0 := by omega
  have t5 : m + (n - m) = n := by omega
  have tz : z.drop n = [] := List.drop_of_length_le (by omega)
  simp only [shown, e1, if_false, List.take_replicate, List.drop_replicate, t1, t3, List.length_replicate, e2, t2,
    t4, List.replicate_zero, List.append_nil, List.replicate_append_replicate, t5, shown_nil, tz]

/-- **C66.** Nor need the difference be NUL bytes: from the second block on, the helper compares what the previous block
left in the buffers.  For every byte `c`, any two of the texts consisting of 4097, 4098, …, 8192 times `c` pass. -/
theorem C66_false_pass_stale (c : UInt8) (k l fuel : Nat) (hk : 1 ≤ k) (hk' : k ≤ 4096) (hl : 1 ≤ l) (hl' : l ≤ 4096)
    (hf : 4096 + k + (4096 + l) < fuel) :
    readerContentMustBeEqual contentReader contentReader fuel (List.replicate (4096 + k) c)
      (List.replicate (4096 + l) c) = some true := by
  rw [C66_verdict _ _ _ (by rw [List.length_replicate, List.length_replicate]; exact hf)]
  obtain ⟨f, rfl⟩ : ∃ f, fuel = f + 2 := ⟨fuel - 2, by omega⟩
  rw [decide_eq_true]
  rw [shown_stale 4096 k f (by decide) hk hk' _ List.length_replicate c,
    shown_stale 4096 l f (by decide) hl hl' _ List.length_replicate c]

/-- Different contents of the usual kind are told apart. -/
example : readerContentMustBeEqual contentReader contentReader 10 b!"ab" b!"ac" = some false := by decide +kernel

end TestTools
end LL1
