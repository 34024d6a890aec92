import Verif.Model.Reader
import Verif.Props.Parser

/-!
# C63: `Parse` on an `io.Reader`, whatever its chunks
-/

namespace LL1

/-- The message of a final error (`none` for EOF, which `io.ReadAll` does not report). -/
def ReadErr.msg : ReadErr → Option Str
  | .eof => none
  | .other m => some m

/-- The reader in state `s` delivers `text` and then ends with `fin`: whatever (positive) number of bytes it is asked
for, it returns at most that many bytes, together with the final error or not; if not, it goes on to deliver the rest.
It may return any number of bytes at a time, also none, and may return the last bytes with or before the error.
(Inductive: it ends after finitely many calls.) -/
inductive Delivers {σ : Type} (r : Reader σ) : σ → Str → Option Str → Prop where
  | intro (s : σ) (text : Str) (fin : Option Str) (rest : Nat → Str)
      (fits : ∀ n, 0 < n → (r s n).1.length ≤ n)
      (stop : ∀ n e, 0 < n → (r s n).2.1 = some e → text = (r s n).1 ∧ fin = e.msg)
      (split : ∀ n, 0 < n → (r s n).2.1 = none → text = (r s n).1 ++ rest n)
      (more : ∀ n, 0 < n → (r s n).2.1 = none → Delivers r (r s n).2.2 (rest n) fin) :
      Delivers r s text fin

variable {σ : Type}

theorem readAll_done (r : Reader σ) (grow : Nat → Nat) (hg : ∀ n, n < grow n) (s : σ) (text : Str) (fin : Option Str)
    (h : Delivers r s text fin) : ∀ (b : Str) (cap : Nat), b.length < cap →
    ∃ fuel s', readAllFuel r grow fuel b cap s = some (.done (b ++ text) fin s') := by
  induction h with
  | intro s text fin rest fits stop split _ ih =>
    intro b cap hcap
    have hn : 0 < cap - b.length := by omega
    generalize hR : r s (cap - b.length) = R
    obtain ⟨bs, e, s'⟩ := R
    have hfit := fits _ hn
    rw [hR] at hfit
    have hnot : ¬ bs.length > cap - b.length := Nat.not_lt.2 hfit
    cases e with
    | some e =>
      obtain ⟨ht, hf⟩ := stop _ e hn (by rw [hR])
      rw [hR] at ht
      refine ⟨1, s', ?_⟩
      unfold readAllFuel
      simp only [hR, if_neg hnot]
      cases e with
      | eof => simp [ht, hf, ReadErr.msg]
      | other m => simp [ht, hf, ReadErr.msg]
    | none =>
      have ht := split _ hn (by rw [hR])
      have hih := ih _ hn (by rw [hR])
      rw [hR] at ht hih
      obtain ⟨fuel, s'', hf⟩ := hih (b ++ bs) (if (b ++ bs).length = cap then grow cap else cap) (by
        split
        · next e => rw [e]; exact hg cap
        · next e => simp only [List.length_append] at e ⊢; omega)
      refine ⟨fuel + 1, s'', ?_⟩
      unfold readAllFuel
      simp only [hR, if_neg hnot]
      rw [hf, ht, List.append_assoc]

theorem readAll_mono (r : Reader σ) (grow : Nat → Nat) (fuel : Nat) (b : Str) (cap : Nat) (s : σ) (x : ReadAllEnd σ)
    (h : readAllFuel r grow fuel b cap s = some x) (k : Nat) : readAllFuel r grow (fuel + k) b cap s = some x := by
  induction fuel generalizing b cap s with
  | zero => simp [readAllFuel] at h
  | succ fuel ih =>
    rw [Nat.add_right_comm]
    unfold readAllFuel at h ⊢
    revert h
    generalize r s (cap - b.length) = R
    obtain ⟨bs, e, s'⟩ := R
    simp only
    split
    · exact id
    · cases e with
      | some e => cases e <;> exact id
      | none => exact ih _ _ _

theorem readAll_det (r : Reader σ) (grow : Nat → Nat) {f g : Nat} {b : Str} {cap : Nat} {s : σ} {x y : ReadAllEnd σ}
    (h : readAllFuel r grow f b cap s = some x) (h' : readAllFuel r grow g b cap s = some y) : x = y := by
  have h1 := readAll_mono r grow f b cap s x h g
  have h2 := readAll_mono r grow g b cap s y h' f
  rw [Nat.add_comm, h1] at h2
  exact Option.some.inj h2

/-- **C63.** A reader that delivers `text` and EOF: `Parse` on it ends exactly as on the string `text`, however the bytes
are cut into pieces and however `io.ReadAll` grows its buffer. -/
theorem C63_reader_as_string (p : Parser) (r : Reader σ) (grow : Nat → Nat) (hg : ∀ n, n < grow n) (s : σ) (text : Str)
    (h : Delivers r s text none) (o : Outcome) :
    (∃ s', p.ReaderReturns r grow s (.done o s')) ↔ p.Returns (.string text) o := by
  unfold Parser.ReaderReturns Parser.Returns Parser.parseReaderFuel Parser.parseFuel readSource
  by_cases hl : p.table.length = 0
  · simp only [if_pos hl, Option.some.injEq, ReaderOutcome.done.injEq]
    exact ⟨fun ⟨_, f, e, _⟩ => ⟨f, e⟩, fun ⟨f, e⟩ => ⟨s, f, e, rfl⟩⟩
  · simp only [if_neg hl]
    cases hz : p.table.get 0 with
    | none =>
      simp only [Option.some.injEq, ReaderOutcome.done.injEq]
      exact ⟨fun ⟨_, f, e, _⟩ => ⟨f, e⟩, fun ⟨f, e⟩ => ⟨s, f, e, rfl⟩⟩
    | some row =>
      simp only
      obtain ⟨fuel, s', hr⟩ := readAll_done r grow hg s text none h [] 512 (by decide)
      rw [List.nil_append] at hr
      constructor
      · rintro ⟨s'', f, hf⟩
        cases hra : readAllFuel r grow f [] 512 s with
        | none => rw [hra] at hf; simp at hf
        | some x =>
          have hx := readAll_det r grow hra hr
          subst hx
          rw [hra] at hf
          simp only at hf
          cases hrun : runFuel p.table p.names text f initState with
          | none => rw [hrun] at hf; simp at hf
          | some o' =>
            rw [hrun] at hf
            simp only [Option.some.injEq, ReaderOutcome.done.injEq] at hf
            exact ⟨f, by rw [hrun, hf.1]⟩
      · rintro ⟨f, hf⟩
        refine ⟨s', fuel + f, ?_⟩
        rw [readAll_mono r grow fuel [] 512 s _ hr f]
        simp only
        rw [runFuel_mono_le hf (Nat.le_add_left f fuel)]

/-- **C63.** A reader that fails, after any number of bytes: with a usable table `Parse` returns exactly the reader's
error, and nothing of what was read counts. -/
theorem C63_reader_fails (p : Parser) (he : p.table.HasEntry) (r : Reader σ) (grow : Nat → Nat) (hg : ∀ n, n < grow n)
    (s : σ) (text : Str) (m : Str) (h : Delivers r s text (some m)) (o : ReaderOutcome σ) :
    p.ReaderReturns r grow s o → ∃ s', o = .done (.err (.reader m)) s' := by
  rintro ⟨f, hf⟩
  unfold Parser.parseReaderFuel at hf
  obtain ⟨row, hrow⟩ := he
  have hl : ¬ p.table.length = 0 := by
    intro hl
    rw [List.length_eq_zero_iff.1 hl] at hrow
    simp at hrow
  rw [if_neg hl, hrow] at hf
  simp only at hf
  obtain ⟨fuel, s', hr⟩ := readAll_done r grow hg s text (some m) h [] 512 (by decide)
  cases hra : readAllFuel r grow f [] 512 s with
  | none => rw [hra] at hf; simp at hf
  | some x =>
    have hx := readAll_det r grow hra hr
    subst hx
    rw [hra] at hf
    simp only [Option.some.injEq] at hf
    exact ⟨s', hf.symm⟩

/-- … and it does return. -/
theorem C63_reader_fails_returns (p : Parser) (he : p.table.HasEntry) (r : Reader σ) (grow : Nat → Nat)
    (hg : ∀ n, n < grow n) (s : σ) (text : Str) (m : Str) (h : Delivers r s text (some m)) :
    ∃ s', p.ReaderReturns r grow s (.done (.err (.reader m)) s') := by
  obtain ⟨row, hrow⟩ := he
  have hl : ¬ p.table.length = 0 := by
    intro hl
    rw [List.length_eq_zero_iff.1 hl] at hrow
    simp at hrow
  obtain ⟨fuel, s', hr⟩ := readAll_done r grow hg s text (some m) h [] 512 (by decide)
  refine ⟨s', fuel, ?_⟩
  unfold Parser.parseReaderFuel
  rw [if_neg hl, hrow, hr]

/-- **C63.** With an unusable table (empty, or without row 0) `Parse` returns an error without touching the reader,
whatever the reader is. -/
theorem C63_reader_untouched (p : Parser) (he : ¬ p.table.HasEntry) (r : Reader σ) (grow : Nat → Nat) (s : σ)
    (o : ReaderOutcome σ) (h : p.ReaderReturns r grow s o) : ∃ e, o = .done (.err e) s := by
  obtain ⟨f, hf⟩ := h
  unfold Parser.parseReaderFuel at hf
  by_cases hl : p.table.length = 0
  · rw [if_pos hl] at hf
    exact ⟨_, (Option.some.inj hf).symm⟩
  · rw [if_neg hl] at hf
    cases hz : p.table.get 0 with
    | some row => exact (he ⟨row, hz⟩).elim
    | none =>
      rw [hz] at hf
      exact ⟨_, (Option.some.inj hf).symm⟩

/-- **C63.** `Parse` needs the whole input first: on a reader that never ends it never returns, even if the bytes read
so far can not be the beginning of any sentence. -/
theorem C63_endless (p : Parser) (he : p.table.HasEntry) (r : Reader σ) (grow : Nat → Nat)
    (hn : ∀ s n, (r s n).1.length ≤ n ∧ (r s n).2.1 = none) (s : σ) (o : ReaderOutcome σ) :
    ¬ p.ReaderReturns r grow s o := by
  have hra : ∀ f b cap s, readAllFuel r grow f b cap s = none := by
    intro f
    induction f with
    | zero => intro b cap s; rfl
    | succ f ih =>
      intro b cap s
      unfold readAllFuel
      obtain ⟨h1, h2⟩ := hn s (cap - b.length)
      revert h1 h2
      generalize r s (cap - b.length) = R
      obtain ⟨bs, e, s'⟩ := R
      intro h1 h2
      simp only at h1 h2
      subst h2
      simp only [if_neg (Nat.not_lt.2 h1)]
      exact ih _ _ _
  rintro ⟨f, hf⟩
  unfold Parser.parseReaderFuel at hf
  obtain ⟨row, hrow⟩ := he
  have hl : ¬ p.table.length = 0 := by
    intro hl
    rw [List.length_eq_zero_iff.1 hl] at hrow
    simp at hrow
  rw [if_neg hl, hrow, hra] at hf
  simp at hf

/-! ## A reader over arbitrary chunks -/

/-- A reader over a list of chunks: each call returns (at most) the rest of the first chunk; at the end EOF, again and
again.  Chunks may be empty (a call that returns nothing and no error). -/
def chunkReader : Reader (List Str) := fun chunks n =>
  match chunks with
  | [] => ([], some .eof, [])
  | c :: cs => if c.length ≤ n then (c, none, cs) else (c.take n, none, c.drop n :: cs)

/-- Its state after `Parse` is exhausted, so a second `Parse` on the same reader sees the empty text. -/
theorem chunkReader_exhausted (grow : Nat → Nat) (f : Nat) (b : Str) (cap : Nat) (chunks : List Str) (x : Str)
    (e : Option Str) (s : List Str) (h : readAllFuel chunkReader grow f b cap chunks = some (.done x e s)) : s = [] := by
  induction f generalizing b cap chunks with
  | zero => simp [readAllFuel] at h
  | succ f ih =>
    unfold readAllFuel chunkReader at h
    cases chunks with
    | nil =>
      simp only [List.length_nil, gt_iff_lt, Nat.not_lt_zero, if_false, Option.some.injEq,
        ReadAllEnd.done.injEq] at h
      exact h.2.2.symm
    | cons c cs =>
      simp only at h
      by_cases hc : c.length ≤ cap - b.length
      · simp only [if_pos hc, gt_iff_lt, Nat.not_lt.2 hc, if_false] at h
        exact ih _ _ _ h
      · simp only [if_neg hc] at h
        split at h
        · simp at h
        · exact ih _ _ _ h

theorem chunkReader_delivers (chunks : List Str) : Delivers chunkReader chunks chunks.flatten none := by
  have aux : ∀ k (chunks : List Str), chunks.length + chunks.flatten.length ≤ k →
      Delivers chunkReader chunks chunks.flatten none := by
    intro k
    induction k with
    | zero =>
      intro chunks hk
      have : chunks = [] := List.length_eq_zero_iff.1 (by omega)
      subst this
      refine .intro _ _ _ (fun _ => []) ?_ ?_ ?_ ?_ <;> simp [chunkReader, ReadErr.msg]
    | succ k ih =>
      intro chunks hk
      cases chunks with
      | nil => refine .intro _ _ _ (fun _ => []) ?_ ?_ ?_ ?_ <;> simp [chunkReader, ReadErr.msg]
      | cons c cs =>
        simp only [List.length_cons, List.flatten_cons, List.length_append] at hk
        refine .intro _ _ _ (fun n => (c.drop n) ++ cs.flatten) ?_ ?_ ?_ ?_
        · intro n _
          unfold chunkReader
          simp only
          split <;> simp_all; omega
        · intro n e _ h
          unfold chunkReader at h
          simp only at h
          split at h <;> simp at h
        · intro n _ _
          unfold chunkReader
          simp only
          split
          · next hc => simp [List.drop_of_length_le hc]
          · simp [← List.append_assoc, List.take_append_drop]
        · intro n hn _
          unfold chunkReader
          simp only
          split
          · next hc =>
            simp only [List.drop_of_length_le hc, List.nil_append]
            exact ih cs (by omega)
          · next hc =>
            have := ih (c.drop n :: cs) (by
              simp only [List.length_cons, List.flatten_cons, List.length_append, List.length_drop]; omega)
            exact this
  exact aux _ chunks (Nat.le_refl _)

/-- **C63.** So: however a text is cut into chunks, `Parse` on the reader ends as on the text; and (having read it all)
a second `Parse` on the same reader ends as on the empty text. -/
theorem C63_chunks (p : Parser) (grow : Nat → Nat) (hg : ∀ n, n < grow n) (chunks : List Str) (o : Outcome) :
    ((∃ s', p.ReaderReturns chunkReader grow chunks (.done o s')) ↔ p.Returns (.string chunks.flatten) o) ∧
    ∀ s' (p' : Parser), p.table.HasEntry → p.ReaderReturns chunkReader grow chunks (.done o s') → ∀ o',
      (∃ s'', p'.ReaderReturns chunkReader grow s' (.done o' s'')) ↔ p'.Returns (.string []) o' := by
  refine ⟨C63_reader_as_string p _ grow hg _ _ (chunkReader_delivers chunks) o, ?_⟩
  rintro s' p' ⟨row, hrow⟩ ⟨f, hf⟩ o'
  have hs : s' = [] := by
    unfold Parser.parseReaderFuel at hf
    have hl : ¬ p.table.length = 0 := by
      intro hl
      rw [List.length_eq_zero_iff.1 hl] at hrow
      simp at hrow
    rw [if_neg hl, hrow] at hf
    simp only at hf
    cases hra : readAllFuel chunkReader grow f [] 512 chunks with
    | none => rw [hra] at hf; simp at hf
    | some x =>
      rw [hra] at hf
      cases x with
      | panic => simp at hf
      | done b e s =>
        have := chunkReader_exhausted grow f [] 512 chunks b e s hra
        subst this
        cases e with
        | some m =>
          simp only [Option.some.injEq, ReaderOutcome.done.injEq] at hf
          exact hf.2.symm
        | none =>
          simp only at hf
          cases hrun : runFuel p.table p.names b f initState with
          | none => rw [hrun] at hf; simp at hf
          | some o'' =>
            rw [hrun] at hf
            simp only [Option.some.injEq, ReaderOutcome.done.injEq] at hf
            exact hf.2.symm
  subst hs
  exact C63_reader_as_string p' _ grow hg _ _ (chunkReader_delivers []) o'

/-- A concrete run: the chunks "a", "" and "b" through a buffer of 512 bytes, for a table with the rule 0 → "ab". -/
example : ∃ s', (Parser.mk [(0, [(97, [.terminal b!"ab"])])] (some [])).ReaderReturns chunkReader (fun n => 2 * n + 1)
    [b!"a", [], b!"b"] (.done (.ok (.mk 0 0 2 [.mk (-1) 0 2 []]) [(-2, b!"_nothing"), (-1, b!"_literal")]) s') :=
  ⟨[], 20, by rfl⟩

/-- The hypotheses of `C63_endless` hold for a reader that returns one byte at a time for ever. -/
example : let r : Reader Unit := fun _ n => (if n = 0 then [] else [97], none, ())
    ∀ s n, (r s n).1.length ≤ n ∧ (r s n).2.1 = none := by
  intro r s n
  refine ⟨?_, rfl⟩
  show (if n = 0 then ([] : Str) else [97]).length ≤ n
  split <;> simp; omega

/-- The reader in state `s` sooner or later reports more bytes than it was asked for, after finitely many calls that
keep the rules and report no error. -/
inductive Overruns {σ : Type} (r : Reader σ) : σ → Prop where
  | now (s : σ) (over : ∀ n, 0 < n → n < (r s n).1.length) : Overruns r s
  | later (s : σ) (fits : ∀ n, 0 < n → (r s n).1.length ≤ n ∧ (r s n).2.1 = none)
      (more : ∀ n, 0 < n → Overruns r (r s n).2.2) : Overruns r s

theorem readAll_overrun (r : Reader σ) (grow : Nat → Nat) (hg : ∀ n, n < grow n) (s : σ) (h : Overruns r s) :
    ∀ (b : Str) (cap : Nat), b.length < cap → ∃ fuel, readAllFuel r grow fuel b cap s = some .panic := by
  induction h with
  | now s over =>
    intro b cap hcap
    refine ⟨1, ?_⟩
    have ho := over (cap - b.length) (by omega)
    unfold readAllFuel
    simp only
    rw [if_pos ho]
  | later s fits _ ih =>
    intro b cap hcap
    have hn : 0 < cap - b.length := by omega
    obtain ⟨hfit, he⟩ := fits _ hn
    have hih := ih _ hn
    generalize hR : r s (cap - b.length) = R at hfit he hih
    obtain ⟨bs, e, s'⟩ := R
    subst he
    have hnot : ¬ bs.length > cap - b.length := Nat.not_lt.2 hfit
    obtain ⟨fuel, hf⟩ := hih (b ++ bs) (if (b ++ bs).length = cap then grow cap else cap) (by
      split
      · next e => rw [e]; exact hg cap
      · next e => simp only [List.length_append] at e hfit ⊢; omega)
    refine ⟨fuel + 1, ?_⟩
    unfold readAllFuel
    simp only [hR, if_neg hnot]
    exact hf

/-- **C63.** A reader that reports more bytes than it was asked for, at any point: `Parse` panics, and that is the only
way it ends. -/
theorem C63_reader_overrun (p : Parser) (he : p.table.HasEntry) (r : Reader σ) (grow : Nat → Nat)
    (hg : ∀ n, n < grow n) (s : σ) (h : Overruns r s) (o : ReaderOutcome σ) :
    p.ReaderReturns r grow s o ↔ o = .readPanic := by
  obtain ⟨row, hrow⟩ := he
  have hl : ¬ p.table.length = 0 := by
    intro hl
    rw [List.length_eq_zero_iff.1 hl] at hrow
    simp at hrow
  obtain ⟨fuel, hr⟩ := readAll_overrun r grow hg s h [] 512 (by decide)
  unfold Parser.ReaderReturns Parser.parseReaderFuel
  simp only [if_neg hl, hrow]
  constructor
  · rintro ⟨f, hf⟩
    cases hra : readAllFuel r grow f [] 512 s with
    | none => rw [hra] at hf; simp at hf
    | some x =>
      rw [hra] at hf
      cases readAll_det r grow hra hr
      exact (Option.some.inj hf).symm
  · rintro rfl
    exact ⟨fuel, by rw [hr]⟩

/-- A reader that hands out two bytes and then reports one byte too many. -/
example : Overruns (fun (s : Bool) n => if s then ([97, 98].take n, none, false) else (List.replicate (n + 1) 0, none, true))
    true := by
  refine .later _ (fun n hn => ⟨?_, rfl⟩) fun n hn => .now _ fun n hn => ?_
  · simp [List.length_take]; omega
  · simp

end LL1
