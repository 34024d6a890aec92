import Verif.Model.ByteSetShared
import Verif.Proofs.ByteSet

/-!
# C101: one `ByteSet` used by several goroutines
-/

namespace LL1

open ByteSet

/-! ## Specification -/

/-- The set after the calls of one goroutine that is alone. -/
def alone (init : ByteSet) (calls : List SetCall) : ByteSet :=
  calls.foldl (fun s c => match c with | .add v => s.add v | .remove v => s.remove v | .copy => s) init

/-- The call adds or removes a byte of block `i` (bytes `64 i` to `64 i + 63`). -/
def SetCall.In (c : SetCall) (i : UInt8) : Prop := ∃ v : UInt8, (c = .add v ∨ c = .remove v) ∧ v / 64 = i

/-- All goroutines are through with their calls. -/
def SharedSet.Over (m : SharedSet) : Prop := ∀ g, (m.threads g).todo = []

/-- Two goroutines can both access word `i` next, one of them to write it: a data race. -/
def SharedSet.Race (m : SharedSet) (i : UInt8) : Prop :=
  ∃ g h, g ≠ h ∧ (∃ s t, (m.threads g).Next m.set (.store i) s t) ∧
    ∃ a s t, (m.threads h).Next m.set a s t ∧ (a = .load i ∨ a = .store i)

/-! ## Proofs -/

theorem SetCall.target_iff (c : SetCall) (i : UInt8) : c.target = some i ↔ c.In i := by
  cases c <;> simp [SetCall.target, SetCall.In]

theorem SetCall.target_lt {c : SetCall} {i : UInt8} (h : c.target = some i) : i < 4 := by
  obtain ⟨v, _, rfl⟩ := (c.target_iff i).1 h
  exact div64_lt v

theorem alone_concat (init : ByteSet) (calls : List SetCall) (c : SetCall) :
    alone init (calls ++ [c]) = alone (alone init calls) [c] := by simp [alone]

theorem setWord_word (s : ByteSet) (i : UInt8) : s.setWord i (s.word i) = s := by
  unfold setWord word
  by_cases h0 : i = 0 <;> by_cases h1 : i = 1 <;> by_cases h2 : i = 2 <;> simp [h0, h1, h2]

theorem alone_one {c : SetCall} {i : UInt8} (h : c.target = some i) (s : ByteSet) :
    alone s [c] = s.setWord i (c.apply (s.word i)) := by
  cases c <;> simp only [SetCall.target, Option.some.injEq, reduceCtorEq] at h <;> subst h <;> rfl

theorem word_alone_other {c : SetCall} {i : UInt8} (hi : i < 4) (h : c.target ≠ some i) (s : ByteSet) :
    (alone s [c]).word i = s.word i := by
  cases hc : c.target with
  | none => cases c <;> simp_all [SetCall.target, alone]
  | some j =>
    rw [alone_one hc, word_setWord s j i _ (SetCall.target_lt hc) hi, if_neg]
    rintro rfl; exact h hc

theorem word_alone {i : UInt8} (hi : i < 4) {calls : List SetCall} (h : ∀ c ∈ calls, c.target ≠ some i) (s : ByteSet) :
    (alone s calls).word i = s.word i := by
  induction calls generalizing s with
  | nil => rfl
  | cons c calls ih =>
    have e : alone s (c :: calls) = alone (alone s [c]) calls := by simp [alone]
    rw [e, ih (fun c' h' => h c' (List.mem_cons_of_mem _ h')), word_alone_other hi (h c List.mem_cons_self)]

theorem contains_of_word {s t : ByteSet} {x : UInt8} (h : s.word (x / 64) = t.word (x / 64)) : s.contains x = t.contains x := by
  rw [contains_eq_bit, contains_eq_bit, h]

/-- A goroutine has loaded a word only in the middle of an `Add` or a `Remove`. -/
def SharedSet.Busy (m : SharedSet) : Prop :=
  ∀ g w, (m.threads g).loaded = some w → ∃ c rest j, (m.threads g).todo = c :: rest ∧ c.target = some j

theorem SharedSet.Busy.step {m m' : SharedSet} {h : Nat} (hb : m.Busy) (hs : m.Step h m') : m'.Busy := by
  cases hs with
  | @mk a s' t' hn =>
    intro g w
    by_cases hg : g = h
    · subst hg
      simp only [if_true]
      cases hn with
      | load ht hc hl => exact fun _ => ⟨_, _, _, ht, hc⟩
      | store ht hc hl => intro h; simp at h
      | copyWord ht hi hp => exact fun h => hb g w h
      | copied ht h0 h1 h2 h3 =>
        intro h
        obtain ⟨c, r, j, h1, h2⟩ := hb g w h
        rw [ht] at h1
        simp only [List.cons.injEq] at h1
        rw [← h1.1] at h2
        simp [SetCall.target] at h2
    · simpa [hg] using hb g w

theorem SharedSet.Reaches.busy {init : ByteSet} {progs : Nat → List SetCall} {m : SharedSet}
    (h : (SharedSet.start init progs).Reaches m) : m.Busy := by
  induction h with
  | refl => intro g w h; simp [SharedSet.start] at h
  | step _ hs ih => exact ih.step hs

/-- What the goroutines know about word `i`, that only goroutine `g` writes. -/
structure OwnInv (init : ByteSet) (progs : Nat → List SetCall) (g : Nat) (i : UInt8) (done : List SetCall) (m : SharedSet) : Prop where
  own : progs g = done ++ (m.threads g).todo
  others : ∀ h, h ≠ g → ∀ c ∈ (m.threads h).todo, c.target ≠ some i
  word : m.set.word i = (alone init done).word i
  loaded : ∀ w c rest, (m.threads g).loaded = some w → (m.threads g).todo = c :: rest → c.target = some i → w = m.set.word i
  part : ∀ h w, (m.threads h).part i = some w → ∃ k, k ≤ done.length ∧ w = (alone init (done.take k)).word i
  copies : ∀ h, ∀ T ∈ (m.threads h).copies, ∃ k, k ≤ done.length ∧ T.word i = (alone init (done.take k)).word i

theorem take_concat_le {α : Type} {l : List α} {c : α} {k : Nat} (h : k ≤ l.length) : (l ++ [c]).take k = l.take k := by
  rw [List.take_append_of_le_length h]

theorem word_eq_of_lt {a b c d : UInt64} {i : UInt8} (hi : i < 4) {p : UInt8 → Option UInt64} (h0 : p 0 = some a)
    (h1 : p 1 = some b) (h2 : p 2 = some c) (h3 : p 3 = some d) : p i = some ((ByteSet.mk a b c d).word i) := by
  have h4 : ∀ k : UInt8, k < 4 → k = 0 ∨ k = 1 ∨ k = 2 ∨ k = 3 := by
    intro k; exact forall_byte (p := fun k => k < 4 → k = 0 ∨ k = 1 ∨ k = 2 ∨ k = 3) (by decide +kernel) k
  rcases h4 i hi with rfl | rfl | rfl | rfl <;> simp [ByteSet.word, *]

theorem OwnInv.step {init : ByteSet} {progs : Nat → List SetCall} {g h : Nat} {i : UInt8} (hi : i < 4) {done : List SetCall}
    {m m' : SharedSet} (hb : m.Busy) (hinv : OwnInv init progs g i done m) (hs : m.Step h m') : ∃ done', OwnInv init progs g i done' m' := by
  obtain ⟨ho, hot, hw, hl, hp, hc⟩ := hinv
  cases hs with
  | @mk a s' t' hn =>
    cases hn with
    | @load c rest j ht hcj hln =>
      refine ⟨done, ?_, ?_, hw, ?_, ?_, ?_⟩
      · by_cases hg : g = h
        · subst hg; simpa using ho
        · simpa [hg] using ho
      · intro h' hh'
        by_cases hg : h' = h
        · subst hg; simpa using hot h' hh'
        · simpa [hg] using hot h' hh'
      · intro w c' rest'
        by_cases hg : g = h
        · subst hg
          simp only [if_true, Option.some.injEq]
          intro h1 h2 h3
          rw [ht] at h2
          simp only [List.cons.injEq] at h2
          rw [← h2.1, hcj] at h3
          simp only [Option.some.injEq] at h3
          rw [← h1, h3]
        · simpa [hg] using hl w c' rest'
      · intro h' w
        by_cases hg : h' = h
        · subst hg; simpa using hp h' w
        · simpa [hg] using hp h' w
      · intro h'
        by_cases hg : h' = h
        · subst hg; simpa using hc h'
        · simpa [hg] using hc h'
    | @store c rest j w ht hcj hln =>
      by_cases hg : h = g
      · subst hg
        refine ⟨done ++ [c], ?_, ?_, ?_, ?_, ?_, ?_⟩
        · simp only [if_true, List.append_assoc, List.singleton_append]; rw [ho, ht]
        · intro h' hh'
          simpa [hh'] using hot h' hh'
        · simp only
          rw [alone_concat, word_setWord _ j i _ (SetCall.target_lt hcj) hi]
          split
          · next e =>
            subst e
            rw [alone_one hcj, word_setWord _ i i _ hi hi, if_pos rfl, hl w c rest hln ht hcj, hw]
          · next e =>
            rw [word_alone_other hi (by rw [hcj]; simp only [ne_eq, Option.some.injEq]; exact fun e' => e e'.symm), hw]
        · simp
        · intro h' w' hw'
          have : (m.threads h').part i = some w' := by
            by_cases hg : h' = h
            · subst hg; simpa using hw'
            · simpa [hg] using hw'
          obtain ⟨k, hk, hk'⟩ := hp h' w' this
          exact ⟨k, by simp; omega, by rw [take_concat_le hk]; exact hk'⟩
        · intro h' T hT
          have : T ∈ (m.threads h').copies := by
            by_cases hg : h' = h
            · subst hg; simpa using hT
            · simpa [hg] using hT
          obtain ⟨k, hk, hk'⟩ := hc h' T this
          exact ⟨k, by simp; omega, by rw [take_concat_le hk]; exact hk'⟩
      · have hji : j ≠ i := by
          rintro rfl
          exact hot h hg c (by rw [ht]; simp) hcj
        have hword : (m.set.setWord j (c.apply w)).word i = m.set.word i := by
          rw [word_setWord _ j i _ (SetCall.target_lt hcj) hi, if_neg (fun e => hji e.symm)]
        have hg' : g ≠ h := fun e => hg e.symm
        refine ⟨done, ?_, ?_, ?_, ?_, ?_, ?_⟩
        · simpa [hg'] using ho
        · intro h' hh'
          by_cases hg : h' = h
          · subst hg
            simp only [if_true]
            intro c' hc'
            exact hot h' hh' c' (by rw [ht]; exact List.mem_cons_of_mem _ hc')
          · simpa [hg] using hot h' hh'
        · simp only; rw [hword, hw]
        · intro w' c' rest'
          simp only [hg', if_false]
          rw [hword]
          exact hl w' c' rest'
        · intro h' w'
          by_cases hg : h' = h
          · subst hg; simpa using hp h' w'
          · simpa [hg] using hp h' w'
        · intro h'
          by_cases hg : h' = h
          · subst hg; simpa using hc h'
          · simpa [hg] using hc h'
    | @copyWord rest j ht hj hpj =>
      refine ⟨done, ?_, ?_, hw, ?_, ?_, ?_⟩
      · by_cases hg : g = h
        · subst hg; simpa using ho
        · simpa [hg] using ho
      · intro h' hh'
        by_cases hg : h' = h
        · subst hg; simpa using hot h' hh'
        · simpa [hg] using hot h' hh'
      · intro w c rest'
        by_cases hg : g = h
        · subst hg; simpa using hl w c rest'
        · simpa [hg] using hl w c rest'
      · intro h' w
        by_cases hg : h' = h
        · subst hg
          simp only [if_true]
          split
          · next e =>
            intro hw'
            simp only [Option.some.injEq] at hw'
            subst e
            exact ⟨done.length, Nat.le_refl _, by rw [← hw', hw, List.take_length]⟩
          · exact hp h' w
        · simpa [hg] using hp h' w
      · intro h'
        by_cases hg : h' = h
        · subst hg; simpa using hc h'
        · simpa [hg] using hc h'
    | @copied rest a b c d ht h0 h1 h2 h3 =>
      have hdone : (∃ done', progs g = done' ++ (if g = h then rest else (m.threads g).todo) ∧
          (∀ k, k ≤ done.length → k ≤ done'.length ∧ done'.take k = done.take k) ∧ (alone init done').word i = (alone init done).word i) := by
        by_cases hg : g = h
        · subst hg
          refine ⟨done ++ [.copy], by simp [ho, ht], ?_, ?_⟩
          · intro k hk; exact ⟨by simp; omega, take_concat_le hk⟩
          · rw [alone_concat, word_alone_other hi (by simp [SetCall.target])]
        · exact ⟨done, by simpa [hg] using ho, fun k hk => ⟨hk, rfl⟩, rfl⟩
      obtain ⟨done', hd1, hd2, hd3⟩ := hdone
      refine ⟨done', ?_, ?_, ?_, ?_, ?_, ?_⟩
      · rw [hd1]
        by_cases hg : g = h
        · subst hg; simp
        · simp [hg]
      · intro h' hh'
        by_cases hg : h' = h
        · subst hg
          simp only [if_true]
          intro c' hc'
          exact hot h' hh' c' (by rw [ht]; exact List.mem_cons_of_mem _ hc')
        · simpa [hg] using hot h' hh'
      · simp only; rw [hw, hd3]
      · intro w c' rest'
        by_cases hg : g = h
        · subst hg
          simp only [if_true]
          intro h1 _ _
          obtain ⟨c₁, r₁, j, e1, e2⟩ := hb g w h1
          rw [ht] at e1
          simp only [List.cons.injEq] at e1
          rw [← e1.1] at e2
          simp [SetCall.target] at e2
        · simpa [hg] using hl w c' rest'
      · intro h' w
        by_cases hg : h' = h
        · subst hg; simp
        · simp only [hg, if_false]
          intro hw'
          obtain ⟨k, hk, hk'⟩ := hp h' w hw'
          exact ⟨k, (hd2 k hk).1, by rw [(hd2 k hk).2]; exact hk'⟩
      · intro h' T hT
        have : T ∈ (m.threads h').copies ∨ (h' = h ∧ T = ⟨a, b, c, d⟩) := by
          by_cases hg : h' = h
          · subst hg; simpa using hT
          · left; simpa [hg] using hT
        rcases this with hT | ⟨rfl, rfl⟩
        · obtain ⟨k, hk, hk'⟩ := hc h' T hT
          exact ⟨k, (hd2 k hk).1, by rw [(hd2 k hk).2]; exact hk'⟩
        · obtain ⟨k, hk, hk'⟩ := hp h' _ (word_eq_of_lt hi h0 h1 h2 h3)
          exact ⟨k, (hd2 k hk).1, by rw [(hd2 k hk).2]; exact hk'⟩

theorem SharedSet.Reaches.owned {init : ByteSet} {progs : Nat → List SetCall} {m : SharedSet}
    (h : (SharedSet.start init progs).Reaches m) {g : Nat} {i : UInt8} (hi : i < 4)
    (hown : ∀ h, h ≠ g → ∀ c ∈ progs h, ¬ c.In i) : ∃ done, OwnInv init progs g i done m := by
  induction h with
  | refl =>
    refine ⟨[], rfl, ?_, rfl, ?_, ?_, ?_⟩
    · intro h hh c hc; rw [ne_eq, SetCall.target_iff]; exact hown h hh c hc
    · intro w c rest h; simp [SharedSet.start] at h
    · intro h w hw; simp [SharedSet.start] at hw
    · intro h T hT; simp [SharedSet.start] at hT
  | step hr hs ih =>
    obtain ⟨done, ih⟩ := ih
    exact ih.step hi hr.busy hs

/-- **C101.** A block of 64 bytes that only one goroutine changes: at every moment the variable shows, in this block, what
the calls that goroutine has finished give; and every copy any goroutine has taken shows, in this block, what some number
of these calls gave.  The other goroutines may do whatever they like in the other blocks. -/
theorem C101_owner (init : ByteSet) (progs : Nat → List SetCall) (m : SharedSet)
    (hr : (SharedSet.start init progs).Reaches m) (g : Nat) (i : UInt8) (hi : i < 4)
    (hown : ∀ h, h ≠ g → ∀ c ∈ progs h, ¬ c.In i) :
    ∃ finished, progs g = finished ++ (m.threads g).todo ∧
      (∀ x, x / 64 = i → m.set.contains x = (alone init finished).contains x) ∧
      ∀ h, ∀ T ∈ (m.threads h).copies, ∃ k, k ≤ finished.length ∧
        ∀ x, x / 64 = i → T.contains x = (alone init (finished.take k)).contains x := by
  obtain ⟨done, ho, _, hw, _, _, hc⟩ := hr.owned hi hown
  refine ⟨done, ho, ?_, ?_⟩
  · rintro x rfl; exact contains_of_word hw
  · intro h T hT
    obtain ⟨k, hk, hk'⟩ := hc h T hT
    refine ⟨k, hk, ?_⟩
    rintro x rfl; exact contains_of_word hk'

/-- **C101.** If no two goroutines change bytes of the same block, nothing is ever lost: when all are through, every
block is what the goroutine that changed it would have made of it alone, and the blocks nobody changed are as before. -/
theorem C101_separate (init : ByteSet) (progs : Nat → List SetCall) (m : SharedSet)
    (hr : (SharedSet.start init progs).Reaches m) (hover : m.Over)
    (hsep : ∀ g h i c d, g ≠ h → c ∈ progs g → d ∈ progs h → c.In i → ¬ d.In i) (x : UInt8) :
    (∀ g c, c ∈ progs g → c.In (x / 64) → m.set.contains x = (alone init (progs g)).contains x) ∧
    ((∀ g, ∀ c ∈ progs g, ¬ c.In (x / 64)) → m.set.contains x = init.contains x) := by
  constructor
  · intro g c hc hcx
    obtain ⟨f, h1, h2, _⟩ := C101_owner init progs m hr g (x / 64) (div64_lt x)
      (fun h hh d hd => hsep g h _ c d (Ne.symm hh) hc hd hcx)
    rw [hover g, List.append_nil] at h1
    rw [h1]; exact h2 x rfl
  · intro hno
    obtain ⟨f, h1, h2, _⟩ := C101_owner init progs m hr 0 (x / 64) (div64_lt x) (fun h _ d hd => hno h d hd)
    rw [h2 x rfl]
    have hf : ∀ c ∈ f, c.target ≠ some (x / 64) := fun c hc => by
      rw [ne_eq, SetCall.target_iff]; exact hno 0 c (by rw [h1]; exact List.mem_append_left _ hc)
    exact contains_of_word (word_alone (div64_lt x) hf init)

/-- Every copy and every loaded word agree with `b` on whether `x` is in, and nobody is going to change that. -/
structure KeepInv (x : UInt8) (b : Bool) (m : SharedSet) : Prop where
  set : m.set.contains x = b
  loaded : ∀ g w c rest, (m.threads g).loaded = some w → (m.threads g).todo = c :: rest → c.target = some (x / 64) →
    bit w (x.toNat % 64) = b
  part : ∀ g w, (m.threads g).part (x / 64) = some w → bit w (x.toNat % 64) = b
  copies : ∀ g, ∀ T ∈ (m.threads g).copies, T.contains x = b
  todo : ∀ g, ∀ c ∈ (m.threads g).todo, c ≠ if b = true then SetCall.remove x else .add x

theorem bit_apply {c : SetCall} {x : UInt8} {b : Bool} {w : UInt64} (hc : c.target = some (x / 64))
    (hne : c ≠ if b = true then SetCall.remove x else .add x) (hw : bit w (x.toNat % 64) = b) :
    bit (c.apply w) (x.toNat % 64) = b := by
  cases c with
  | copy => exact hw
  | add v =>
    simp only [SetCall.apply, bit_or, bit_mask, hw]
    cases b with
    | true => rfl
    | false =>
      simp only [Bool.false_or, decide_eq_false_iff_not]
      simp only [SetCall.target, Option.some.injEq] at hc
      intro e
      apply hne
      simp only [Bool.false_eq_true, if_false, SetCall.add.injEq]
      rw [byte_eq_iff]
      refine ⟨hc, ?_⟩
      rw [← UInt8.toNat_inj]; simpa using e.symm
  | remove v =>
    simp only [SetCall.apply, bit_and, hw, bit_not _ _ (Nat.mod_lt _ (by decide)), bit_mask]
    cases b with
    | false => rfl
    | true =>
      simp only [Bool.true_and, Bool.not_eq_true', decide_eq_false_iff_not]
      simp only [SetCall.target, Option.some.injEq] at hc
      intro e
      apply hne
      simp only [if_true, SetCall.remove.injEq]
      rw [byte_eq_iff]
      refine ⟨hc, ?_⟩
      rw [← UInt8.toNat_inj]; simpa using e.symm

theorem KeepInv.step {x : UInt8} {b : Bool} {m m' : SharedSet} {h : Nat} (hb : m.Busy) (hinv : KeepInv x b m) (hs : m.Step h m') :
    KeepInv x b m' := by
  obtain ⟨hs0, hl, hp, hc, htd⟩ := hinv
  have hx := div64_lt x
  cases hs with
  | @mk a s' t' hn =>
    have key : s'.contains x = b ∧
        (∀ w c rest, t'.loaded = some w → t'.todo = c :: rest → c.target = some (x / 64) → bit w (x.toNat % 64) = b) ∧
        (∀ w, t'.part (x / 64) = some w → bit w (x.toNat % 64) = b) ∧
        (∀ T ∈ t'.copies, T.contains x = b) ∧
        (∀ c ∈ t'.todo, c ≠ if b = true then SetCall.remove x else .add x) := by
      cases hn with
      | @load c rest j ht hcj hln =>
        refine ⟨hs0, ?_, hp h, hc h, htd h⟩
        intro w c' rest' h1 h2 h3
        simp only [Option.some.injEq] at h1
        simp only at h2
        rw [ht] at h2
        simp only [List.cons.injEq] at h2
        rw [← h2.1, hcj] at h3
        simp only [Option.some.injEq] at h3
        rw [← h1, h3, ← contains_eq_bit]; exact hs0
      | @store c rest j w ht hcj hln =>
        refine ⟨?_, by simp, hp h, hc h, fun c' hc' => htd h c' (by rw [ht]; exact List.mem_cons_of_mem _ hc')⟩
        rw [contains_eq_bit, word_setWord _ j (x / 64) _ (SetCall.target_lt hcj) hx]
        split
        · next e =>
          subst e
          exact bit_apply hcj (htd h c (by rw [ht]; simp)) (hl h w c rest hln ht hcj)
        · rw [← contains_eq_bit]; exact hs0
      | @copyWord rest j ht hj hpj =>
        refine ⟨hs0, hl h, ?_, hc h, htd h⟩
        intro w
        simp only
        split
        · next e =>
          intro hw
          simp only [Option.some.injEq] at hw
          rw [← hw, ← e, ← contains_eq_bit]; exact hs0
        · exact hp h w
      | @copied rest a b' c d ht h0 h1 h2 h3 =>
        refine ⟨hs0, ?_, by simp, ?_, fun c' hc' => htd h c' (by rw [ht]; exact List.mem_cons_of_mem _ hc')⟩
        · intro w c' rest' h1 _ _
          obtain ⟨c₁, r₁, j, e1, e2⟩ := hb h w h1
          rw [ht] at e1
          simp only [List.cons.injEq] at e1
          rw [← e1.1] at e2
          simp [SetCall.target] at e2
        · intro T hT
          simp only [List.mem_append, List.mem_cons, List.not_mem_nil, or_false] at hT
          rcases hT with hT | rfl
          · exact hc h T hT
          · rw [contains_eq_bit]
            exact hp h _ (word_eq_of_lt hx h0 h1 h2 h3)
    obtain ⟨k0, k1, k2, k3, k4⟩ := key
    refine ⟨k0, ?_, ?_, ?_, ?_⟩ <;> intro g <;> by_cases hg : g = h
    · subst hg; simpa using k1
    · simpa [hg] using hl g
    · subst hg; simpa using k2
    · simpa [hg] using hp g
    · subst hg; simpa using k3
    · simpa [hg] using hc g
    · subst hg; simpa using k4
    · simpa [hg] using htd g

/-- **C101.** Whatever the schedule, and however many goroutines change the set at once: a byte that was in and that no
goroutine removes is in the set at every moment, and in every copy; a byte that was out and that no goroutine adds never is. -/
theorem C101_bounds (init : ByteSet) (progs : Nat → List SetCall) (m : SharedSet)
    (hr : (SharedSet.start init progs).Reaches m) (x : UInt8) :
    (init.contains x = true → (∀ g, .remove x ∉ progs g) →
      m.set.contains x = true ∧ ∀ g, ∀ T ∈ (m.threads g).copies, T.contains x = true) ∧
    (init.contains x = false → (∀ g, .add x ∉ progs g) →
      m.set.contains x = false ∧ ∀ g, ∀ T ∈ (m.threads g).copies, T.contains x = false) := by
  have key : ∀ b, init.contains x = b → (∀ g, (if b = true then SetCall.remove x else .add x) ∉ progs g) → KeepInv x b m := by
    intro b hb hno
    induction hr with
    | refl =>
      refine ⟨hb, by simp [SharedSet.start], by simp [SharedSet.start], by simp [SharedSet.start], ?_⟩
      intro g c hc e
      exact hno g (by rw [← e]; exact hc)
    | step hr hs ih => exact ih.step hr.busy hs
  constructor
  · intro h1 h2
    have := key true h1 h2
    exact ⟨this.set, this.copies⟩
  · intro h1 h2
    have := key false h1 h2
    exact ⟨this.set, this.copies⟩

theorem SharedSet.Reaches.trans {m m' m'' : SharedSet} (h : m.Reaches m') (h' : m'.Reaches m'') : m.Reaches m'' := by
  induction h' with
  | refl => exact h
  | step _ hs ih => exact ih.step hs

/-- The goroutine is between two calls. -/
structure SetThread.Idle (t : SetThread) : Prop where
  loaded : t.loaded = none
  part : ∀ i, t.part i = none

theorem run_one {m : SharedSet} {g : Nat} {c : SetCall} {rest : List SetCall} (hid : (m.threads g).Idle)
    (ht : (m.threads g).todo = c :: rest) :
    ∃ m', m.Reaches m' ∧ (m'.threads g).Idle ∧ (m'.threads g).todo = rest ∧ (∀ h, h ≠ g → m'.threads h = m.threads h) ∧
      m'.set = alone m.set [c] := by
  obtain ⟨hl, hp⟩ := hid
  cases hc : c.target with
  | some i =>
    refine ⟨_, .step (.step .refl (.mk (g := g) (.load ht hc hl)))
      (.mk (g := g) (.store (c := c) (rest := rest) (i := i) (w := m.set.word i) (by simpa using ht) hc (by simp))), ?_, ?_, ?_, ?_⟩
    · exact ⟨by simp, by simpa using hp⟩
    · simp
    · intro h hh; simp [hh]
    · exact (alone_one hc m.set).symm
  | none =>
    have hcc : c = .copy := by cases c <;> simp [SetCall.target] at hc ⊢
    subst hcc
    refine ⟨_, .step (.step (.step (.step (.step .refl
      (.mk (g := g) (.copyWord (i := 0) ht (by decide) (hp 0))))
      (.mk (g := g) (.copyWord (i := 1) (by simpa using ht) (by decide) (by simpa using hp 1))))
      (.mk (g := g) (.copyWord (i := 2) (by simpa using ht) (by decide) (by simpa using hp 2))))
      (.mk (g := g) (.copyWord (i := 3) (by simpa using ht) (by decide) (by simpa using hp 3))))
      (.mk (g := g) (.copied (rest := rest) (a := m.set.word 0) (b := m.set.word 1) (c := m.set.word 2) (d := m.set.word 3)
        (by simpa using ht) (by simp) (by simp) (by simp) (by simp))), ?_, ?_, ?_, ?_⟩
    · exact ⟨by simpa using hl, by simp⟩
    · simp
    · intro h hh; simp [hh]
    · simp [alone]

theorem run_calls {m : SharedSet} {g : Nat} {pre rest : List SetCall} (hid : (m.threads g).Idle)
    (ht : (m.threads g).todo = pre ++ rest) :
    ∃ m', m.Reaches m' ∧ (m'.threads g).Idle ∧ (m'.threads g).todo = rest ∧ (∀ h, h ≠ g → m'.threads h = m.threads h) ∧
      m'.set = alone m.set pre := by
  induction pre generalizing m with
  | nil => exact ⟨m, .refl, hid, ht, fun _ _ => rfl, rfl⟩
  | cons c pre ih =>
    obtain ⟨m1, h1, h2, h3, h4, h5⟩ := run_one hid ht
    obtain ⟨m2, k1, k2, k3, k4, k5⟩ := ih h2 h3
    refine ⟨m2, h1.trans k1, k2, k3, fun h hh => (k4 h hh).trans (h4 h hh), ?_⟩
    rw [k5, h5]; simp [alone]

theorem start_idle (init : ByteSet) (progs : Nat → List SetCall) (g : Nat) : ((SharedSet.start init progs).threads g).Idle :=
  ⟨rfl, fun _ => rfl⟩

/-- **C101.** Two goroutines that change the same block can lose a call: for any two calls there is a schedule after which
the set is as if the first had never been made. -/
theorem C101_lost (init : ByteSet) (c d : SetCall) (i : UInt8) (hc : c.In i) (hd : d.In i) :
    ∃ m, (SharedSet.start init (fun g => if g = 0 then [c] else if g = 1 then [d] else [])).Reaches m ∧ m.Over ∧
      m.set = alone init [d] := by
  rw [← SetCall.target_iff] at hc hd
  refine ⟨_, .step (.step (.step (.step .refl
    (.mk (g := 1) (.load (c := d) (rest := []) (i := i) (by simp [SharedSet.start]) hd (by simp [SharedSet.start]))))
    (.mk (g := 0) (.load (c := c) (rest := []) (i := i) (by simp [SharedSet.start]) hc (by simp [SharedSet.start]))))
    (.mk (g := 0) (.store (c := c) (rest := []) (i := i) (w := init.word i) (by simp [SharedSet.start]) hc
      (by simp [SharedSet.start]))))
    (.mk (g := 1) (.store (c := d) (rest := []) (i := i) (w := init.word i) (by simp [SharedSet.start]) hd
      (by simp [SharedSet.start]))), ?_, ?_⟩
  · intro g
    by_cases h1 : g = 1
    · simp [h1]
    · by_cases h0 : g = 0
      · simp [h0]
      · simp [h0, h1, SharedSet.start]
  · rw [alone_one hd]
    show ByteSet.setWord (ByteSet.setWord init i _) i _ = _
    generalize c.apply (init.word i) = u
    generalize d.apply (init.word i) = v
    unfold setWord
    by_cases h0 : i = 0 <;> by_cases h1 : i = 1 <;> by_cases h2 : i = 2 <;> simp [h0, h1, h2]

theorem todo_suffix {init : ByteSet} {progs : Nat → List SetCall} {m : SharedSet}
    (h : (SharedSet.start init progs).Reaches m) (g : Nat) : ∃ pre, progs g = pre ++ (m.threads g).todo := by
  induction h with
  | refl => exact ⟨[], rfl⟩
  | @step m' m'' h' _ hs ih =>
    obtain ⟨pre, ih⟩ := ih
    cases hs with
    | mk hn =>
      by_cases hg : g = h'
      · subst hg
        simp only [if_true]
        cases hn with
        | load ht hc hl => exact ⟨pre, ih⟩
        | @store c rest _ _ ht hc hl => exact ⟨pre ++ [c], by rw [ih, ht]; simp⟩
        | copyWord ht hi hp => exact ⟨pre, ih⟩
        | @copied rest _ _ _ _ ht _ _ _ _ => exact ⟨pre ++ [.copy], by rw [ih, ht]; simp⟩
      · simpa [hg] using ⟨pre, ih⟩

/-- **C101.** Exactly when goroutines using one `ByteSet` variable can race on the words of a block: one of them adds or
removes a byte of the block, and another one does so too or calls any method that reads. -/
theorem C101_race (init : ByteSet) (progs : Nat → List SetCall) (i : UInt8) :
    (∃ m, (SharedSet.start init progs).Reaches m ∧ m.Race i) ↔
    i < 4 ∧ ∃ g h, g ≠ h ∧ (∃ c ∈ progs g, c.In i) ∧ ∃ d ∈ progs h, d.In i ∨ d = .copy := by
  constructor
  · rintro ⟨m, hr, g, h, hgh, ⟨s, t, h1⟩, a, s', t', h2, ha⟩
    obtain ⟨p1, e1⟩ := todo_suffix hr g
    obtain ⟨p2, e2⟩ := todo_suffix hr h
    cases h1 with
    | @store c rest _ w ht hc hl =>
      refine ⟨SetCall.target_lt hc, g, h, hgh, ⟨c, by rw [e1, ht]; simp, (c.target_iff i).1 hc⟩, ?_⟩
      cases h2 with
      | @load d rest' j ht' hd hl' =>
        simp only [SetAccess.load.injEq, reduceCtorEq, or_false] at ha
        subst ha
        exact ⟨d, by rw [e2, ht']; simp, .inl ((d.target_iff j).1 hd)⟩
      | @store d rest' j _ ht' hd hl' =>
        simp only [SetAccess.store.injEq, reduceCtorEq, false_or] at ha
        subst ha
        exact ⟨d, by rw [e2, ht']; simp, .inl ((d.target_iff j).1 hd)⟩
      | copyWord ht' hi hp => exact ⟨.copy, by rw [e2, ht']; simp, .inr rfl⟩
      | copied ht' _ _ _ _ => simp at ha
  · rintro ⟨hi, g, h, hgh, ⟨c, hc, hci⟩, d, hd, hdi⟩
    obtain ⟨p1, r1, e1⟩ := List.append_of_mem hc
    obtain ⟨p2, r2, e2⟩ := List.append_of_mem hd
    rw [← SetCall.target_iff] at hci hdi
    obtain ⟨m1, a1, a2, a3, a4, _⟩ := run_calls (m := SharedSet.start init progs) (g := h) (start_idle init progs h) e2
    have hid : (m1.threads g).Idle := by rw [a4 g hgh]; exact start_idle init progs g
    have htd : (m1.threads g).todo = p1 ++ c :: r1 := by rw [a4 g hgh]; exact e1
    obtain ⟨m2, b1, b2, b3, b4, _⟩ := run_calls hid htd
    have hh : m2.threads h = m1.threads h := b4 h (Ne.symm hgh)
    refine ⟨_, (a1.trans b1).step (.mk (g := g) (.load b3 hci b2.loaded)), g, h, hgh, ?_, ?_⟩
    · exact ⟨_, _, .store (c := c) (rest := r1) (w := m2.set.word i) (by simpa using b3) hci (by simp)⟩
    · rcases hdi with hdi | rfl
      · exact ⟨.load i, _, _, .load (c := d) (rest := r2) (by simp [Ne.symm hgh, hh, a3]) hdi (by simp [Ne.symm hgh, hh, a2.loaded]), .inl rfl⟩
      · exact ⟨.load i, _, _, .copyWord (rest := r2) (i := i) (by simp [Ne.symm hgh, hh, a3]) hi (by simp [Ne.symm hgh, hh, a2.part]), .inl rfl⟩

/-- **C101.** A copy is no snapshot: taken while another goroutine adds 1 and then 100, it can show 100 without 1, which
the variable never did. -/
theorem C101_torn :
    let progs : Nat → List SetCall := fun g => if g = 0 then [.add 1, .add 100] else if g = 1 then [.copy] else []
    (∃ m, (SharedSet.start ByteSet.empty progs).Reaches m ∧ m.Over ∧
      ∃ T ∈ (m.threads 1).copies, T.contains 100 = true ∧ T.contains 1 = false) ∧
    ∀ m, (SharedSet.start ByteSet.empty progs).Reaches m → m.set.contains 100 = true → m.set.contains 1 = true := by
  intro progs
  constructor
  · have h1 := SharedSet.Step.mk (m := SharedSet.start ByteSet.empty progs) (g := 1)
      (.copyWord (rest := []) (i := 0) rfl (by decide) rfl)
    obtain ⟨m2, a1, a2, a3, a4, a5⟩ := run_calls (g := 0) (pre := [.add 1, .add 100]) (rest := [])
      (m := ⟨ByteSet.empty, fun h => if h = 1 then
        { (SharedSet.start ByteSet.empty progs).threads 1 with part := fun j => if j = 0 then some (ByteSet.empty.word 0) else none }
        else (SharedSet.start ByteSet.empty progs).threads h⟩) ⟨rfl, fun _ => rfl⟩ rfl
    have ht := a4 1 (by decide)
    simp only [if_true] at ht
    refine ⟨_, .step (.step (.step (.step ((SharedSet.Reaches.step .refl h1).trans a1)
      (.mk (g := 1) (.copyWord (rest := []) (i := 1) (by rw [ht]; rfl) (by decide) (by rw [ht]; rfl))))
      (.mk (g := 1) (.copyWord (rest := []) (i := 2) (by simp [ht]; rfl) (by decide) (by simp [ht]))))
      (.mk (g := 1) (.copyWord (rest := []) (i := 3) (by simp [ht]; rfl) (by decide) (by simp [ht]))))
      (.mk (g := 1) (.copied (rest := []) (a := 0) (b := m2.set.word 1) (c := m2.set.word 2) (d := m2.set.word 3)
        (by simp [ht]; rfl) (by simp [ht]; rfl) (by simp) (by simp) (by simp))), ?_, ?_⟩
    · intro g
      by_cases h1 : g = 1
      · simp [h1]
      · by_cases h0 : g = 0
        · simp [h0, a3]
        · simp [h1, a4 g h0, SharedSet.start, progs, h0]
    · refine ⟨⟨0, m2.set.word 1, m2.set.word 2, m2.set.word 3⟩, by simp, ?_, ?_⟩
      · rw [a5]; decide +kernel
      · rw [a5]; decide +kernel
  · intro m hr h100
    have hown : ∀ (i : UInt8) h, h ≠ 0 → ∀ c ∈ progs h, ¬ c.In i := by
      intro i h hh c hc
      by_cases h1 : h = 1
      · simp only [progs, h1, Nat.one_ne_zero, if_false, if_true, List.mem_cons, List.not_mem_nil, or_false] at hc
        subst hc
        simp [SetCall.In]
      · simp [progs, hh, h1] at hc
    obtain ⟨f, e1, e2, _⟩ := C101_owner _ progs m hr 0 0 (by decide) (hown 0)
    obtain ⟨f', e1', e2', _⟩ := C101_owner _ progs m hr 0 1 (by decide) (hown 1)
    have hf : f' = f := List.append_cancel_right (e1'.symm.trans e1)
    subst hf
    rw [e2' 100 (by decide)] at h100
    rw [e2 1 (by decide)]
    have hlen : f'.length ≤ 2 := by
      have := congrArg List.length e1
      simp [progs] at this; omega
    have hf : f' = (progs 0).take f'.length := by rw [e1]; simp
    rw [hf] at h100 ⊢
    generalize f'.length = n at *
    have hn : n = 0 ∨ n = 1 ∨ n = 2 := by omega
    rcases hn with rfl | rfl | rfl
    · revert h100; decide +kernel
    · decide +kernel
    · decide +kernel

theorem step_todo {m m' : SharedSet} {h : Nat} (hs : m.Step h m') (g : Nat) :
    ∃ pre, (m.threads g).todo = pre ++ (m'.threads g).todo := by
  cases hs with
  | mk hn =>
    by_cases hg : g = h
    · subst hg
      simp only [if_true]
      cases hn with
      | load ht hc hl => exact ⟨[], rfl⟩
      | @store c rest _ _ ht hc hl => exact ⟨[c], by rw [ht]; rfl⟩
      | copyWord ht hi hp => exact ⟨[], rfl⟩
      | @copied rest _ _ _ _ ht _ _ _ _ => exact ⟨[.copy], by rw [ht]; rfl⟩
    · exact ⟨[], by simp [hg]⟩

theorem OwnInv.extends {init : ByteSet} {progs : Nat → List SetCall} {g h : Nat} {i : UInt8} {done done' : List SetCall}
    {m m' : SharedSet} (h1 : OwnInv init progs g i done m) (h2 : OwnInv init progs g i done' m') (hs : m.Step h m') :
    done <+: done' := by
  obtain ⟨pre, e⟩ := step_todo hs g
  have := h1.own.symm.trans h2.own
  rw [e, ← List.append_assoc] at this
  exact ⟨pre, List.append_cancel_right this⟩

/-- Goroutine `h` is taking its copy number `n`, of which word `i` is fresh, or has taken it, and the copy is fresh. -/
def FreshCopy (init : ByteSet) (i : UInt8) (lo n : Nat) (done : List SetCall) (t : SetThread) : Prop :=
  (t.copies.length = n ∧ (∃ rest, t.todo = .copy :: rest) ∧
    ∀ w, t.part i = some w → ∃ k, lo ≤ k ∧ k ≤ done.length ∧ w = (alone init (done.take k)).word i) ∨
  (∃ T, t.copies[n]? = some T ∧ ∃ k, lo ≤ k ∧ k ≤ done.length ∧ T.word i = (alone init (done.take k)).word i)

theorem FreshCopy.mono {init : ByteSet} {i : UInt8} {lo n : Nat} {done done' : List SetCall} {t : SetThread}
    (h : FreshCopy init i lo n done t) (hp : done <+: done') : FreshCopy init i lo n done' t := by
  obtain ⟨pre, rfl⟩ := hp
  have key : ∀ w, (∃ k, lo ≤ k ∧ k ≤ done.length ∧ w = (alone init (done.take k)).word i) →
      ∃ k, lo ≤ k ∧ k ≤ (done ++ pre).length ∧ w = (alone init ((done ++ pre).take k)).word i := by
    rintro w ⟨k, h1, h2, h3⟩
    exact ⟨k, h1, by simp; omega, by rw [List.take_append_of_le_length h2]; exact h3⟩
  rcases h with ⟨h1, h2, h3⟩ | ⟨T, h1, h2⟩
  · exact .inl ⟨h1, h2, fun w hw => key w (h3 w hw)⟩
  · exact .inr ⟨T, h1, key _ h2⟩

theorem FreshCopy.step {init : ByteSet} {progs : Nat → List SetCall} {g h h' : Nat} {i : UInt8} (hi : i < 4) {lo n : Nat}
    {done : List SetCall} {m m' : SharedSet} (hinv : OwnInv init progs g i done m) (hlo : lo ≤ done.length)
    (hf : FreshCopy init i lo n done (m.threads h)) (hs : m.Step h' m') : FreshCopy init i lo n done (m'.threads h) := by
  cases hs with
  | @mk a s' t' hn =>
    by_cases hg : h = h'
    · subst hg
      simp only [if_true]
      rcases hf with ⟨h1, ⟨rest, h2⟩, h3⟩ | ⟨T, h1, h2⟩
      · cases hn with
        | @load c r j ht hcj hln =>
          rw [h2] at ht; simp only [List.cons.injEq] at ht; rw [← ht.1] at hcj; simp [SetCall.target] at hcj
        | @store c r j w ht hcj hln =>
          rw [h2] at ht; simp only [List.cons.injEq] at ht; rw [← ht.1] at hcj; simp [SetCall.target] at hcj
        | @copyWord r j ht hj hpj =>
          refine .inl ⟨h1, ⟨rest, h2⟩, ?_⟩
          intro w
          simp only
          split
          · next e =>
            intro hw
            simp only [Option.some.injEq] at hw
            subst e
            exact ⟨done.length, hlo, Nat.le_refl _, by rw [← hw, hinv.word, List.take_length]⟩
          · exact h3 w
        | @copied r a b c d ht k0 k1 k2 k3 =>
          refine .inr ⟨⟨a, b, c, d⟩, ?_, h3 _ (word_eq_of_lt hi k0 k1 k2 k3)⟩
          simp [← h1]
      · refine .inr ⟨T, ?_, h2⟩
        have hlen : n < (m.threads h).copies.length := (List.getElem?_eq_some_iff.1 h1).1
        cases hn with
        | load ht hc hl => exact h1
        | store ht hc hl => exact h1
        | copyWord ht hi hp => exact h1
        | copied ht _ _ _ _ => simp only; rw [List.getElem?_append_left hlen]; exact h1
    · simpa [hg] using hf

/-- **C101.** Copies are not stale: what a goroutine `h` copies when it stands before a call of a reading method shows, in
a block only `g` changes, at least all calls that `g` had finished by then.  In particular a goroutine sees its own calls. -/
theorem C101_fresh (init : ByteSet) (progs : Nat → List SetCall) (m m' : SharedSet)
    (hr : (SharedSet.start init progs).Reaches m) (g h : Nat) (i : UInt8) (hi : i < 4)
    (hown : ∀ h, h ≠ g → ∀ c ∈ progs h, ¬ c.In i) (rest : List SetCall) (hat : (m.threads h).todo = .copy :: rest)
    (hnew : (m.threads h).part = fun _ => none) (hr' : m.Reaches m') (T : ByteSet)
    (hT : (m'.threads h).copies[(m.threads h).copies.length]? = some T) :
    ∃ finished finished', progs g = finished ++ (m.threads g).todo ∧ progs g = finished' ++ (m'.threads g).todo ∧
      ∃ k, finished.length ≤ k ∧ k ≤ finished'.length ∧
        ∀ x, x / 64 = i → T.contains x = (alone init (progs g |>.take k)).contains x := by
  obtain ⟨done, hd⟩ := hr.owned hi hown
  have key : ∃ done', OwnInv init progs g i done' m' ∧ done <+: done' ∧
      FreshCopy init i done.length (m.threads h).copies.length done' (m'.threads h) := by
    clear hT
    induction hr' with
    | refl => exact ⟨done, hd, List.prefix_refl _, .inl ⟨rfl, ⟨rest, hat⟩, by rw [hnew]; simp⟩⟩
    | step hrr hs ih =>
      obtain ⟨d, h1, h2, h3⟩ := ih
      obtain ⟨d', h4⟩ := h1.step hi ((hr.trans hrr).busy) hs
      have hpre := h1.extends h4 hs
      exact ⟨d', h4, h2.trans hpre, (h3.step hi h1 h2.length_le hs).mono hpre⟩
  obtain ⟨done', h1, h2, h3⟩ := key
  refine ⟨done, done', hd.own, h1.own, ?_⟩
  rcases h3 with ⟨h4, _⟩ | ⟨T', h4, k, h5, h6, h7⟩
  · rw [← h4] at hT; simp at hT
  · rw [hT] at h4
    simp only [Option.some.injEq] at h4
    subst h4
    refine ⟨k, h5, h6, ?_⟩
    rintro x rfl
    rw [h1.own, List.take_append_of_le_length h6]
    exact contains_of_word h7

/-- `C101_separate` and `C101_owner` apply: one goroutine works on letters, the other on bytes from 128. -/
example : ∃ m, (SharedSet.start (ByteSet.new [32, 97]) (fun g => if g = 0 then [.add 98, .remove 97, .copy] else
    if g = 1 then [.add 200, .remove 150] else [])).Reaches m ∧ m.Over ∧ m.set = ByteSet.new [32, 98, 200] := by
  obtain ⟨m1, a1, a2, a3, a4, a5⟩ := run_calls (g := 0) (rest := []) (m := SharedSet.start (ByteSet.new [32, 97])
    (fun g => if g = 0 then [.add 98, .remove 97, .copy] else if g = 1 then [.add 200, .remove 150] else []))
    (pre := [.add 98, .remove 97, .copy]) (start_idle _ _ 0) rfl
  obtain ⟨m2, b1, b2, b3, b4, b5⟩ := run_calls (g := 1) (rest := []) (m := m1) (pre := [.add 200, .remove 150])
    (by rw [a4 1 (by decide)]; exact start_idle _ _ 1) (by rw [a4 1 (by decide)]; rfl)
  refine ⟨m2, a1.trans b1, ?_, ?_⟩
  · intro g
    by_cases h1 : g = 1
    · rw [h1]; exact b3
    · rw [b4 g h1]
      by_cases h0 : g = 0
      · rw [h0]; exact a3
      · rw [a4 g h0]; simp [SharedSet.start, h0, h1]
  · rw [b5, a5]; decide +kernel

end LL1
