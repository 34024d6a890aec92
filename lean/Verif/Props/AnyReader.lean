import Verif.Proofs.AnyReader

/-!
# C96: `Parse` on an `io.Reader` that may do anything
-/

namespace LL1.AnyReader

variable {σ : Type} {maps : σ → Parser} {r : AnyReader σ} {late : Nat → Str → Str} {grow : Nat → Nat} {s : σ}

/-- The bytes the parser sees at its `k`-th read. -/
def seen (late : Nat → Str → Str) (b : Buf) (k : Nat) : Str := (b.put (late k b.reach)).take b.len

theorem ends_iff (he : (maps s).table.HasEntry) {x : AnyOutcome σ} :
    Ends maps r late grow s x ↔ ∃ f y, readAllFuel r grow f Buf.init s = some y ∧
      ((∃ v, y = .readPanic v ∧ x = .readPanic v) ∨ (y = .boundsPanic ∧ x = .boundsPanic) ∨
       (∃ b m s', y = .done b (some m) s' ∧ x = .done (.err (.reader m)) s') ∨
       (∃ b s' o f', y = .done b none s' ∧ x = .done o s' ∧
          Live.runFuel (maps s').table (maps s').names (seen late b) f' 0 initState = some o)) := by
  obtain ⟨row, hrow⟩ := id he
  unfold Ends parseFuel
  simp only [if_neg (hasEntry_length he), hrow]
  constructor
  · rintro ⟨f, h⟩
    cases hra : readAllFuel r grow f Buf.init s with
    | none => rw [hra] at h; simp at h
    | some y =>
      rw [hra] at h
      refine ⟨f, y, hra, ?_⟩
      cases y with
      | readPanic v => simp only [Option.some.injEq] at h; exact .inl ⟨v, rfl, h.symm⟩
      | boundsPanic => simp only [Option.some.injEq] at h; exact .inr (.inl ⟨rfl, h.symm⟩)
      | done b e s' =>
        cases e with
        | some m => simp only [Option.some.injEq] at h; exact .inr (.inr (.inl ⟨b, m, s', rfl, h.symm⟩))
        | none =>
          simp only at h
          split at h
          · cases h
          · rename_i o ho
            cases h
            exact .inr (.inr (.inr ⟨b, s', o, f, rfl, rfl, ho⟩))
  · rintro ⟨f, y, hra, ⟨v, rfl, rfl⟩ | ⟨rfl, rfl⟩ | ⟨b, m, s', rfl, rfl⟩ | ⟨b, s', o, f', rfl, rfl, ho⟩⟩
    · exact ⟨f, by rw [hra]⟩
    · exact ⟨f, by rw [hra]⟩
    · exact ⟨f, by rw [hra]⟩
    · refine ⟨f + f', ?_⟩
      rw [readAll_mono r grow f _ _ _ hra f']
      simp only
      have := Live.runFuel_mono ho f
      rw [Nat.add_comm] at this
      unfold seen at this
      rw [this]

/-- **C96.** Without a usable table the reader is never called. -/
theorem C96_untouched (he : ¬ (maps s).table.HasEntry) (x : AnyOutcome σ) :
    Ends maps r late grow s x ↔ x = .done (.err (if (maps s).table = [] then .emptyTable else .noEntry)) s := by
  unfold Ends parseFuel
  by_cases hl : (maps s).table = []
  · have : (maps s).table.length = 0 := by rw [hl]; rfl
    simp only [if_pos this, if_pos hl, Option.some.injEq, exists_const]
    exact eq_comm
  · have hl' : ¬ (maps s).table.length = 0 := fun h => hl (List.length_eq_zero_iff.1 h)
    cases hz : (maps s).table.get 0 with
    | some row => exact (he ⟨row, hz⟩).elim
    | none =>
      simp only [if_neg hl', if_neg hl, Option.some.injEq, exists_const]
      exact eq_comm

theorem seen_quiet (b : Buf) : seen quiet b = fun _ => b.arr.take b.len := by
  funext k
  unfold seen quiet
  rw [Buf.put_reach]

theorem live_returns {p : Parser} (he : p.table.HasEntry) {mem : Nat → Str} {o : Outcome} :
    Live.Returns p mem o ↔ ∃ f, Live.runFuel p.table p.names mem f 0 initState = some o := by
  obtain ⟨row, hrow⟩ := id he
  unfold Live.Returns Live.parseFuel
  simp only [if_neg (hasEntry_length he), hrow]

theorem live_quiet {p : Parser} (he : p.table.HasEntry) (u : Str) (o : Outcome) :
    (∃ f, Live.runFuel p.table p.names (fun _ => u) f 0 initState = some o) ↔ p.Returns (.string u) o := by
  rw [← live_returns he]
  unfold Live.Returns Parser.Returns
  refine exists_congr fun f => ?_
  rw [C95_unchanged]
  rfl

/-- **C96.** A reader that makes the text `u` (adding bytes, taking bytes back, using its slices as scratch space, changing
the parser's maps): `Parse` ends exactly as `Parse(u)` does with the maps as they are after reading, and in no other way. -/
theorem C96_text (he : (maps s).table.HasEntry) (hg : ∀ n, n < grow n) {q : Parser} (hq : q.table.HasEntry) {u : Str}
    (h : Makes maps r q s [] u none) :
    (∀ o, (∃ s', Ends maps r quiet grow s (.done o s')) ↔ q.Returns (.string u) o) ∧
    ∀ x, Ends maps r quiet grow s x → ∃ o s', x = .done o s' := by
  obtain ⟨f, b, s', hra, hu, hlow, hm⟩ := readAll_makes grow hg h Buf.init Buf.ok_init rfl
  refine ⟨fun o => ?_, fun x hx => ?_⟩
  · rw [← live_quiet hq]
    constructor
    · rintro ⟨s1, h1⟩
      obtain ⟨f1, y, hy, hc⟩ := (ends_iff he).1 h1
      cases readAll_det r grow hra hy
      rcases hc with ⟨_, h, _⟩ | ⟨h, _⟩ | ⟨_, _, _, h, _⟩ | ⟨_, _, o', f', h, h', ho⟩
      · cases h
      · cases h
      · cases h
      · cases h
        cases h'
        rw [seen_quiet, hu, hm] at ho
        exact ⟨f', ho⟩
    · rintro ⟨f', ho⟩
      refine ⟨s', (ends_iff he).2 ⟨f, _, hra, .inr (.inr (.inr ⟨b, s', o, f', rfl, rfl, ?_⟩))⟩⟩
      rw [seen_quiet, hu, hm]
      exact ho
  · obtain ⟨f1, y, hy, hc⟩ := (ends_iff he).1 hx
    cases readAll_det r grow hra hy
    rcases hc with ⟨_, h, _⟩ | ⟨h, _⟩ | ⟨_, _, _, h, _⟩ | ⟨_, _, o', f', h, h', ho⟩
    · cases h
    · cases h
    · cases h
    · exact ⟨_, _, h'⟩

/-- **C96.** The checks of the table come before the reader is called: if reading removes row 0, or all rows, `Parse` does
not report an empty table or a missing entry but that there are no rules for row 0. -/
theorem C96_table_lost (he : (maps s).table.HasEntry) (hg : ∀ n, n < grow n) {q : Parser} (hq : ¬ q.table.HasEntry)
    {u : Str} (h : Makes maps r q s [] u none) :
    (∃ s', Ends maps r quiet grow s (.done (.err (.noRulesFor (rowName q.names 0))) s')) ∧
    ∀ x, Ends maps r quiet grow s x → ∃ s', x = .done (.err (.noRulesFor (rowName q.names 0))) s' := by
  obtain ⟨f, b, s', hra, hu, hlow, hm⟩ := readAll_makes grow hg h Buf.init Buf.ok_init rfl
  have hget : q.table.get 0 = none := by
    cases hz : q.table.get 0 with
    | none => rfl
    | some row => exact (hq ⟨row, hz⟩).elim
  have hrun : ∀ f mem, Live.runFuel q.table q.names mem (f + 1) 0 initState =
      some (.err (.noRulesFor (rowName q.names 0))) := by
    intro f mem
    simp only [Live.runFuel, Live.step, initState, Live.processNonTerminal, Live.processTableNonTerminal, hget]
    simp only [nodeTypeName, rowName]
    cases q.names with
    | none => rfl
    | some m => simp only [Option.getD]; cases GoMap.get m 0 <;> rfl
  refine ⟨⟨s', (ends_iff he).2 ⟨f, _, hra, .inr (.inr (.inr ⟨b, s', _, 1, rfl, rfl, ?_⟩))⟩⟩, fun x hx => ?_⟩
  · rw [hm]; exact hrun 0 _
  · obtain ⟨f1, y, hy, hc⟩ := (ends_iff he).1 hx
    cases readAll_det r grow hra hy
    rcases hc with ⟨_, h, _⟩ | ⟨h, _⟩ | ⟨_, _, _, h, _⟩ | ⟨_, _, o', f', h, h', ho⟩
    · cases h
    · cases h
    · cases h
    · cases h
      rw [hm] at ho
      cases f' with
      | zero => cases ho
      | succ f' =>
        rw [hrun] at ho
        cases ho
        exact ⟨_, h'⟩

/-- **C96.** A reader that ends with an error of its own: `Parse` returns that error, whatever was read and whatever became
of the maps. -/
theorem C96_error (he : (maps s).table.HasEntry) (hg : ∀ n, n < grow n) {q : Parser} {u m : Str}
    (h : Makes maps r q s [] u (some m)) :
    (∃ s', Ends maps r late grow s (.done (.err (.reader m)) s')) ∧
    ∀ x, Ends maps r late grow s x → ∃ s', x = .done (.err (.reader m)) s' := by
  obtain ⟨f, b, s', hra, hu, hlow, hm⟩ := readAll_makes grow hg h Buf.init Buf.ok_init rfl
  refine ⟨⟨s', (ends_iff he).2 ⟨f, _, hra, .inr (.inr (.inl ⟨b, m, s', rfl, rfl⟩))⟩⟩, fun x hx => ?_⟩
  obtain ⟨f1, y, hy, hc⟩ := (ends_iff he).1 hx
  cases readAll_det r grow hra hy
  rcases hc with ⟨_, h, _⟩ | ⟨h, _⟩ | ⟨_, _, _, h, h'⟩ | ⟨_, _, o', f', h, h', ho⟩
  · cases h
  · cases h
  · cases h; exact ⟨_, h'⟩
  · cases h

/-- **C96.** Re-entrancy: a reader that calls `Parse` of the same parser, any number of times on any sources, before it has
made the text `u` — the outer call ends like `Parse(u)` would have without that. -/
theorem C96_reentrant (he : (maps s).table.HasEntry) (hpub : (maps s).table.Public) (hg : ∀ n, n < grow n) {q : Parser}
    (hq : History (maps s) q) {u : Str} (h : Makes maps r q s [] u none) :
    (∀ o s', Ends maps r quiet grow s (.done o s') → ∃ o', (maps s).Returns (.string u) o' ∧ Outcome.Same o o') ∧
    (∀ o, (maps s).Returns (.string u) o → ∃ o' s', Ends maps r quiet grow s (.done o' s') ∧ Outcome.Same o o') := by
  have ht : q.table = (maps s).table := (hq.equiv hpub).1
  have hqe : q.table.HasEntry := ht ▸ he
  obtain ⟨h1, h2, _⟩ := C16_reusable (maps s) q hpub hq (.string u)
  have htext := (C96_text he hg hqe h).1
  constructor
  · intro o s' ho
    exact h1 o ((htext o).1 ⟨s', ho⟩)
  · intro o ho
    obtain ⟨o', ho', hs⟩ := h2 o ho
    obtain ⟨s', h'⟩ := (htext o').2 ho'
    exact ⟨o', s', h', hs⟩

/-- **C96.** The slice a call of `Read` is handed is never empty. -/
theorem C96_room (hg : ∀ n, n < grow n) {b : Buf} {s1 : σ} (h : Called r grow s b s1) :
    b.len - b.low < b.reach.length := (called_ok hg h).off

/-- **C96.** Exactly when `Parse` panics because of its reader: the reader's own panics pass through; and a count below
minus the number of bytes read so far, or above the length of the slice, is an index out of range. -/
theorem C96_panics_iff (hg : ∀ n, n < grow n) :
    (∀ v, Ends maps r late grow s (.readPanic v) ↔ (maps s).table.HasEntry ∧
      ∃ b s1, Called r grow s b s1 ∧ r s1 b.reach (b.len - b.low) = .panics v) ∧
    (Ends maps r late grow s .boundsPanic ↔ (maps s).table.HasEntry ∧
      ∃ b s1 mem n e s2, Called r grow s b s1 ∧ r s1 b.reach (b.len - b.low) = .returns mem n e s2 ∧
        (n < -(b.len : Int) ∨ ((b.reach.length - (b.len - b.low) : Nat) : Int) < n)) := by
  have hroom : ∀ b : Buf, b.Ok → b.reach.length - (b.len - b.low) = b.arr.length - b.len := by
    intro b hb
    have := hb.low; have := hb.cap
    unfold Buf.reach
    rw [List.length_drop]
    omega
  constructor
  · intro v
    constructor
    · intro h
      by_cases he : (maps s).table.HasEntry
      · refine ⟨he, ?_⟩
        obtain ⟨f, y, hy, hc⟩ := (ends_iff he).1 h
        rcases hc with ⟨v', rfl, h'⟩ | ⟨_, h'⟩ | ⟨_, _, _, _, h'⟩ | ⟨_, _, _, _, _, h', _⟩
        · cases h'
          obtain ⟨b, s1, hcall, ⟨v', hr, hv⟩ | ⟨_, _, _, _, _, _, hv⟩ | ⟨_, _, _, _, _, _, _, hv⟩⟩ :=
            readAll_called f .first hg hy
          · cases hv; exact ⟨b, s1, hcall, hr⟩
          · cases hv
          · cases hv
        · cases h'
        · cases h'
        · cases h'
      · cases (C96_untouched he _).1 h
    · rintro ⟨he, b, s1, hcall, hr⟩
      obtain ⟨k, hk⟩ := readAll_from_called hg hcall
      refine (ends_iff he).2 ⟨1 + k, .readPanic v, ?_, .inl ⟨v, rfl, rfl⟩⟩
      rw [hk, readAllFuel, hr]
  · constructor
    · intro h
      by_cases he : (maps s).table.HasEntry
      · refine ⟨he, ?_⟩
        obtain ⟨f, y, hy, hc⟩ := (ends_iff he).1 h
        rcases hc with ⟨_, _, h'⟩ | ⟨rfl, _⟩ | ⟨_, _, _, _, h'⟩ | ⟨_, _, _, _, _, h', _⟩
        · cases h'
        · obtain ⟨b, s1, hcall, ⟨v', hr, hv⟩ | ⟨mem, n, e, s2, hr, hn, hv⟩ | ⟨_, _, _, _, _, _, _, hv⟩⟩ :=
            readAll_called f .first hg hy
          · cases hv
          · refine ⟨b, s1, mem, n, e, s2, hcall, hr, ?_⟩
            have hb := called_ok hg hcall
            rw [hroom b hb]
            have := hb.cap
            omega
          · cases hv
        · cases h'
        · cases h'
      · cases (C96_untouched he _).1 h
    · rintro ⟨he, b, s1, mem, n, e, s2, hcall, hr, hn⟩
      obtain ⟨k, hk⟩ := readAll_from_called hg hcall
      have hb := called_ok hg hcall
      rw [hroom b hb] at hn
      have h1 := hb.low; have h2 := hb.cap
      refine (ends_iff he).2 ⟨1 + k, .boundsPanic, ?_, .inr (.inl ⟨rfl, rfl⟩)⟩
      rw [hk, readAllFuel, hr]
      simp only [Buf.length_put b mem (by omega)]
      rw [if_pos (by omega)]

/-- What the parse loop does is an outcome of `Parse` or the complaint about row 0. -/
theorem run_not_panic {p : Parser} (hpub : p.table.Public) (hm : p.names ≠ none) {mem : Nat → Str} {f : Nat} {c : PPanic} :
    Live.runFuel p.table p.names mem f 0 initState ≠ some (.panic c) := by
  intro h
  by_cases he : p.table.HasEntry
  · exact (C95_safe p he hpub hm mem).1 c ((live_returns he).2 ⟨f, h⟩)
  · have hget : p.table.get 0 = none := by
      cases hz : p.table.get 0 with
      | none => rfl
      | some row => exact (he ⟨row, hz⟩).elim
    cases f with
    | zero => cases h
    | succ f =>
      simp [Live.runFuel, Live.step, initState, Live.processNonTerminal, Live.processTableNonTerminal, hget] at h

/-- **C96.** A reader whose counts are right can do what it likes with its slices, now and later, and with the maps (as long
as they hold only public operations, and names): `Parse` does not panic. -/
theorem C96_no_panic (hg : ∀ n, n < grow n) (hr : CountsRight r) (hpub : ∀ s, (maps s).table.Public)
    (hm : ∀ s, (maps s).names ≠ none) (x : AnyOutcome σ) (h : Ends maps r late grow s x) :
    (∃ t m s', x = .done (.ok t m) s') ∨ ∃ e s', x = .done (.err e) s' := by
  by_cases he : (maps s).table.HasEntry
  · have hp := C96_panics_iff (maps := maps) (r := r) (late := late) (grow := grow) (s := s) hg
    cases x with
    | readPanic v =>
      obtain ⟨_, b, s1, hcall, h1⟩ := (hp.1 v).1 h
      obtain ⟨_, _, _, _, h2, _⟩ := hr s1 _ _ (C96_room hg hcall)
      rw [h1] at h2
      cases h2
    | boundsPanic =>
      obtain ⟨_, b, s1, mem, n, e, s2, hcall, h1, h2⟩ := hp.2.1 h
      obtain ⟨_, _, _, _, h3, h4, h5⟩ := hr s1 _ _ (C96_room hg hcall)
      rw [h1] at h3
      cases h3
      omega
    | done o s' =>
      obtain ⟨f, y, hy, ⟨_, _, h'⟩ | ⟨_, h'⟩ | ⟨_, m, _, _, h'⟩ | ⟨b, s1, o', f', _, h', ho⟩⟩ := (ends_iff he).1 h
      · cases h'
      · cases h'
      · cases h'; exact .inr ⟨_, _, rfl⟩
      · cases h'
        cases o with
        | ok t m => exact .inl ⟨_, _, _, rfl⟩
        | err e => exact .inr ⟨_, _, rfl⟩
        | panic c => exact (run_not_panic (hpub s') (hm s') ho).elim
  · exact .inr ⟨_, _, (C96_untouched he x).1 h⟩

/-- If the counts are right, what lay below the reader's reach at some call is still there in the end. -/
theorem kept (hg : ∀ n, n < grow n) (hr : CountsRight r) {b : Buf} {s1 : σ} (hb : b.Ok) (f : Nat) {b' : Buf}
    {e : Option Str} {s' : σ} (h : readAllFuel r grow f b s1 = some (.done b' e s')) :
    b.low ≤ b'.low ∧ b'.low ≤ b'.len ∧ b'.len ≤ b'.arr.length ∧ b'.arr.take b.low = b.arr.take b.low := by
  induction f generalizing b s1 with
  | zero => cases h
  | succ f ih =>
    have h1 := hb.low; have h2 := hb.cap
    obtain ⟨mem, n, e', s2, hc, hn0, hn1⟩ := hr s1 _ _ hb.off
    have hreach : b.reach.length = b.arr.length - b.low := by unfold Buf.reach; rw [List.length_drop]
    have hput := Buf.length_put b mem (by omega)
    rw [readAllFuel, hc] at h
    simp only [hput] at h
    rw [if_neg (by omega)] at h
    have hmin : min b.low ((b.len : Int) + n).toNat = b.low := by omega
    rw [hmin] at h
    have htake := Buf.take_put b mem (by omega) (Nat.le_refl b.low)
    cases e' with
    | some e' =>
      cases e' <;> (cases h; exact ⟨Nat.le_refl _, by simp only; omega, by simp only [hput]; omega, htake⟩)
    | none =>
      simp only at h
      split at h
      · rename_i hfull
        have hok : (Buf.grown ⟨b.put mem, ((b.len : Int) + n).toNat, b.low⟩ grow).Ok := by
          have := hb.put_grown grow hg mem
          rw [hfull]
          exact this
        obtain ⟨i1, i2, i3, i4⟩ := ih hok h
        simp only [Buf.grown] at i1 i4
        refine ⟨by omega, i2, i3, ?_⟩
        have := congrArg (List.take b.low) i4
        rw [List.take_take, List.take_take, Nat.min_eq_left (by omega),
          List.take_append_of_le_length (by omega), htake] at this
        exact this
      · rename_i hfull
        have hok := hb.put mem (len := ((b.len : Int) + n).toNat) (by omega)
        rw [hmin] at hok
        obtain ⟨i1, i2, i3, i4⟩ := ih hok h
        simp only at i1 i4
        exact ⟨i1, i2, i3, i4.trans htake⟩

theorem derives_live {tbl : Table} {src : Str} {mem : Nat → Str} {ops : List ParserOp} {i j : Nat} {cs : List Node}
    (h : Derives tbl src ops i j cs) :
    (∀ k x, x ≤ j → byteAt (mem k) x = byteAt src x) → ∀ k, ∃ k', LiveDerives tbl mem ops k i k' j cs := by
  induction h with
  | nil i => exact fun _ k => ⟨k, .nil k i⟩
  | @lit s ops i j cs hl hd ih =>
    intro ha k
    have hle := hd.le
    obtain ⟨k', h'⟩ := ih ha (k + s.length)
    exact ⟨k', .lit (fun q hq => by rw [ha _ _ (by omega)]; exact hl q hq) h'⟩
  | @nt n body ops i j l cs ds hb hd hd' ih ih' =>
    intro ha k
    have h1 := hd.le; have h2 := hd'.le
    obtain ⟨k1, i1⟩ := ih (fun k x hx => ha k x (by omega)) (k + 1)
    obtain ⟨k2, i2⟩ := ih' ha k1
    exact ⟨k2, .nt (by rw [ha _ _ (by omega)]; exact hb) i1 i2⟩

theorem failsAt_live {tbl : Table} {names : Option Names} {src : Str} {mem : Nat → Str} {ops : List ParserOp} {i l : Nat}
    {e : PErr} (h : FailsAt tbl names src ops i l e) :
    i ≤ l ∧ ((∀ k x, x ≤ l → byteAt (mem k) x = byteAt src x) → ∀ k, LiveFails tbl names mem ops k i e) := by
  induction h with
  | @lit s ops i q c hl hs hne =>
    refine ⟨by omega, fun ha k => ?_⟩
    have hq : q < s.length := by
      rcases Nat.lt_or_ge q s.length with h | h
      · exact h
      · rw [List.getElem?_eq_none h] at hs; cases hs
    have := LiveFails.lit (tbl := tbl) (names := names) (mem := mem) (s := s) (ops := ops) (r := k) (i := i) (k := q) (c := c)
      (fun p hp => by
        have := hl p (by rw [List.length_take]; omega)
        rw [List.getElem?_take_of_lt hp] at this
        rw [ha _ _ (by omega)]
        exact this) hs (by rw [ha _ _ (by omega)]; exact hne)
    rw [ha _ _ (by omega)] at this
    exact this
  | afterLit hl hf ih =>
    refine ⟨by omega, fun ha k => .afterLit (fun q hq => ?_) (ih.2 ha _)⟩
    rw [ha _ _ (by omega)]
    exact hl q hq
  | noBody hb =>
    refine ⟨Nat.le_refl _, fun ha k => ?_⟩
    have h1 := ha (k + 1) _ (Nat.le_refl _)
    rw [← h1]
    exact .noBody (by rw [ha _ _ (Nat.le_refl _)]; exact hb)
  | inside hb hf ih =>
    exact ⟨ih.1, fun ha k => .inside (by rw [ha _ _ ih.1]; exact hb) (ih.2 ha _)⟩
  | afterNt hb hd hf ih =>
    have hle := hd.le
    refine ⟨by omega, fun ha k => ?_⟩
    obtain ⟨k', h'⟩ := derives_live hd (mem := mem) (fun k x hx => ha k x (by omega)) (k + 1)
    exact .afterNt (by rw [ha _ _ (by omega)]; exact hb) h' (ih.2 ha _)

theorem stuckAt_live {tbl : Table} {names : Option Names} {src : Str} {mem : Nat → Str} {l : Nat} {e : PErr}
    (h : StuckAt tbl names src l e) (ha : ∀ k x, x ≤ l → byteAt (mem k) x = byteAt src x) :
    LiveStuck tbl names mem e := by
  rcases h with hf | ⟨t, hd, hb, rfl⟩
  · exact .inl ((failsAt_live hf).2 ha 0)
  · obtain ⟨k', h'⟩ := derives_live hd (mem := mem) ha 0
    have h1 := ha k' _ (Nat.le_refl l)
    have h2 := ha (k' + 1) _ (Nat.le_refl l)
    exact .inr ⟨k', l, t, h', by rw [h1]; exact hb, by rw [h2]⟩

/-- **C96.** What is out of a reader's reach stays: bytes read before the buffer was last enlarged.  Suppose the counts are
right and the maps stay as they are, and at some call of `Read` the bytes below the reach of the reader are `w`.  If they make
the parser stuck, then `Parse` reports exactly that error (or an error of the reader), whatever the reader or others who have
its slices write, during this and later calls and while the parser runs. -/
theorem C96_early_error (he : (maps s).table.HasEntry) (hpub : (maps s).table.Public) (hm : (maps s).names ≠ none)
    (hg : ∀ n, n < grow n) (hr : CountsRight r)
    (hkeep : ∀ s reach off mem n e s', r s reach off = .returns mem n e s' → maps s' = maps s)
    {b : Buf} {s1 : σ} (hc : Called r grow s b s1) {l : Nat} {e : PErr}
    (hs : StuckAt (maps s).table (maps s).names (b.arr.take b.low) l e) (hl : l < b.low) (x : AnyOutcome σ)
    (hx : Ends maps r late grow s x) :
    (∃ s', x = .done (.err e) s') ∨ ∃ m s', x = .done (.err (.reader m)) s' := by
  obtain ⟨f, y, hy, hcase⟩ := (ends_iff he).1 hx
  obtain ⟨k, hk⟩ := readAll_from_called hg hc
  have hb := called_ok hg hc
  have hy' := readAll_mono r grow f _ _ _ hy k
  rw [hk] at hy'
  have hfinal : ∀ {s1 : σ} {b1 b' : Buf} {e' : Option Str} {s' : σ}, ∀ f, readAllFuel r grow f b1 s1 = some (.done b' e' s') →
      maps s' = maps s1 := by
    intro s1 b1 b' e' s' f
    induction f generalizing b1 s1 with
    | zero => intro h; cases h
    | succ f ih =>
      intro h
      rw [readAllFuel] at h
      split at h
      · cases h
      · rename_i mem n e2 s2 hc
        simp only at h
        split at h
        · cases h
        · split at h
          · cases h; exact hkeep _ _ _ _ _ _ _ hc
          · cases h; exact hkeep _ _ _ _ _ _ _ hc
          · exact (ih h).trans (hkeep _ _ _ _ _ _ _ hc)
  rcases hcase with ⟨v, rfl, _⟩ | ⟨rfl, _⟩ | ⟨_, m, s', rfl, h'⟩ | ⟨b', s', o, f', rfl, h', ho⟩
  · obtain ⟨b1, s2, hcall, ⟨v', h2, _⟩ | ⟨_, _, _, _, _, _, hv⟩ | ⟨_, _, _, _, _, _, _, hv⟩⟩ := readAll_called f .first hg hy
    · obtain ⟨_, _, _, _, h3, _⟩ := hr s2 _ _ (C96_room hg hcall)
      rw [h2] at h3; cases h3
    · cases hv
    · cases hv
  · have hp := (C96_panics_iff (maps := maps) (r := r) (late := late) (grow := grow) (s := s) hg).2.1
      ((ends_iff he).2 ⟨f, _, hy, .inr (.inl ⟨rfl, rfl⟩)⟩)
    obtain ⟨_, b1, s2, mem, n, e', s3, hcall, h1, h2⟩ := hp
    obtain ⟨_, _, _, _, h3, h4, h5⟩ := hr s2 _ _ (C96_room hg hcall)
    rw [h1] at h3
    cases h3
    omega
  · exact .inr ⟨m, s', h'⟩
  · obtain ⟨i1, i2, i3, i4⟩ := kept hg hr hb f hy'
    have hmaps := hfinal f hy
    have hb1 := hb.low; have hb2 := hb.cap
    have hst : LiveStuck (maps s).table (maps s).names (seen late b') e := by
      refine stuckAt_live hs (fun k x hx => ?_)
      have h1 : (seen late b' k).take b.low = b.arr.take b.low := by
        unfold seen
        rw [List.take_take, Nat.min_eq_left (by omega), Buf.take_put b' _ (by omega) i1, i4]
      have e1 : byteAt (seen late b' k) x = byteAt ((seen late b' k).take b.low) x := by
        unfold byteAt
        rw [List.getD_eq_getElem?_getD, List.getD_eq_getElem?_getD, List.getElem?_take_of_lt (by omega)]
      rw [e1, h1]
    rw [hmaps] at ho
    obtain ⟨m0, hm0⟩ := Option.ne_none_iff_exists'.1 hm
    have hret : Live.Returns (maps s) (seen late b') o := (live_returns he).2 ⟨f', ho⟩
    have hret' : Live.Returns (maps s) (seen late b') (.err e) :=
      (C95_exact (maps s) he hpub m0 hm0 _ _).2 (.inr ⟨e, hst, rfl⟩)
    obtain ⟨f1, h1⟩ := (live_returns he).1 hret
    obtain ⟨f2, h2⟩ := (live_returns he).1 hret'
    cases Live.runFuel_det h1 h2
    exact .inl ⟨s', h'⟩

/-! ## Readers that follow a script -/

/-- One thing a reader does to the text: add bytes, or take the last `k` back (by returning the count `-k`). -/
inductive Act where
  | add (c : Str)
  | back (k : Nat)

/-- The text a script makes of `t`. -/
def Act.text : Str → List Act → Str
  | t, [] => t
  | t, .add c :: as => Act.text (t ++ c) as
  | t, .back k :: as => Act.text (t.take (t.length - k)) as

/-- The script never takes back more than there is. -/
def Act.Sound : Str → List Act → Prop
  | _, [] => True
  | t, .add c :: as => Act.Sound (t ++ c) as
  | t, .back k :: as => k ≤ t.length ∧ Act.Sound (t.take (t.length - k)) as

/-- A reader that follows a script, then reports EOF.  It fills the unused rest of each slice with rubbish. -/
def scriptReader : AnyReader (List Act) := fun as reach off =>
  match as with
  | [] => .returns reach 0 (some .eof) []
  | .add c :: as =>
    if c.length ≤ reach.length - off then
      .returns (reach.take off ++ (c ++ List.replicate (reach.length - off - c.length) 255)) c.length none as
    else
      .returns (reach.take off ++ c.take (reach.length - off)) (reach.length - off : Nat) none
        (.add (c.drop (reach.length - off)) :: as)
  | .back k :: as => .returns reach (-k) none as

theorem take_length_append {a b : Str} {off : Nat} (h : a.length = off) : (a ++ b).take off = a := by
  rw [← h, List.take_left']
  rfl

theorem drop_length_append {a b : Str} {off : Nat} (h : a.length = off) : (a ++ b).drop off = b := by
  rw [← h, List.drop_left']
  rfl

theorem script_makes {p : Parser} (as : List Act) :
    ∀ (t : Str), Act.Sound t as → Makes (fun _ => p) scriptReader p as t (Act.text t as) none := by
  induction as with
  | nil =>
    intro t _
    refine .intro _ _ _ _ (fun reach off h => ⟨reach, 0, some .eof, [], rfl, rfl, rfl, by omega, by omega⟩) ?_ ?_
    · intro reach off mem n e s' h hr
      simp only [scriptReader, ReadRes.returns.injEq, Option.some.injEq] at hr
      obtain ⟨rfl, rfl, rfl, rfl⟩ := hr
      simp [after, Act.text, ReadErr.msg]
    · intro reach off mem n s' h hr
      simp [scriptReader] at hr
  | cons a as ih =>
    cases a with
    | back k =>
      rintro t ⟨hk, hs⟩
      refine .intro _ _ _ _ (fun reach off h => ⟨reach, -k, none, as, rfl, rfl, rfl, by omega, by omega⟩) ?_ ?_
      · intro reach off mem n e s' h hr
        simp [scriptReader] at hr
      · intro reach off mem n s' h hr
        simp only [scriptReader, ReadRes.returns.injEq, true_and] at hr
        obtain ⟨rfl, rfl, rfl⟩ := hr
        have e : after t reach off (-(k : Int)) = t.take (t.length - k) := by
          unfold after
          split
          · have : k = 0 := by omega
            subst this
            simp
          · congr 1; omega
        rw [e]
        exact ih _ hs
    | add c =>
      have key : ∀ (m : Nat) (c : Str), c.length < m → ∀ t, Act.Sound (t ++ c) as →
          Makes (fun _ => p) scriptReader p (.add c :: as) t (Act.text (t ++ c) as) none := by
        intro m
        induction m with
        | zero => intro c hc; omega
        | succ m ihm =>
          intro c hc t hs
          refine .intro _ _ _ _ (fun reach off h => ?_) ?_ ?_
          · by_cases hfit : c.length ≤ reach.length - off
            · refine ⟨reach.take off ++ (c ++ List.replicate (reach.length - off - c.length) 255), c.length, none, as, ?_, ?_, ?_,
                by omega, by omega⟩
              · simp only [scriptReader]; rw [if_pos hfit]
              · simp only [List.length_append, List.length_take, List.length_replicate]; omega
              · exact take_length_append (by rw [List.length_take]; omega)
            · refine ⟨reach.take off ++ c.take (reach.length - off), (reach.length - off : Nat), none,
                .add (c.drop (reach.length - off)) :: as, ?_, ?_, ?_, by omega, by omega⟩
              · simp only [scriptReader]; rw [if_neg hfit]
              · simp only [List.length_append, List.length_take]; omega
              · exact take_length_append (by rw [List.length_take]; omega)
          · intro reach off mem n e s' h hr
            simp only [scriptReader] at hr
            split at hr <;> cases hr
          · intro reach off mem n s' h hr
            simp only [scriptReader] at hr
            split at hr
            · rename_i hfit
              cases hr
              have : after t (reach.take off ++ (c ++ List.replicate (reach.length - off - c.length) 255)) off (c.length : Int) =
                  t ++ c := by
                unfold after
                rw [if_pos (by omega), drop_length_append (by rw [List.length_take]; omega), Int.toNat_natCast,
                  List.take_left']
                rfl
              rw [this]
              exact ih _ hs
            · rename_i hfit
              cases hr
              have : after t (reach.take off ++ c.take (reach.length - off)) off ((reach.length - off : Nat) : Int) =
                  t ++ c.take (reach.length - off) := by
                unfold after
                rw [if_pos (by omega), drop_length_append (by rw [List.length_take]; omega), Int.toNat_natCast,
                  List.take_take, Nat.min_self]
              rw [this]
              have hcat : t ++ c = (t ++ c.take (reach.length - off)) ++ c.drop (reach.length - off) := by
                rw [List.append_assoc, List.take_append_drop]
              rw [hcat]
              refine ihm _ (by rw [List.length_drop]; omega) _ ?_
              rw [← hcat]
              exact hs
      intro t hs
      exact key (c.length + 1) c (Nat.lt_succ_self _) t hs

/-- **C96.** Any script: `Parse` ends as on the text that is left when all the additions and retractions are done, though the
reader leaves rubbish behind in the buffer. -/
theorem C96_script (p : Parser) (hg : ∀ n, n < grow n) (as : List Act) (h : Act.Sound [] as) (o : Outcome) :
    (∃ s', Ends (fun _ => p) scriptReader quiet grow as (.done o s')) ↔ p.Returns (.string (Act.text [] as)) o := by
  by_cases he : p.table.HasEntry
  · exact (C96_text (maps := fun _ => p) he hg he (script_makes as [] h)).1 o
  · have h1 := fun x => C96_untouched (maps := fun _ : List Act => p) (r := scriptReader) (late := quiet) (grow := grow)
      (s := as) he x
    simp only [h1]
    have h2 : p.Returns (.string (Act.text [] as)) o ↔ o = .err (if p.table = [] then .emptyTable else .noEntry) := by
      unfold Parser.Returns Parser.parseFuel
      by_cases hl : p.table = []
      · have : p.table.length = 0 := by rw [hl]; rfl
        simp only [if_pos this, if_pos hl, Option.some.injEq, exists_const]
        exact eq_comm
      · have hl' : ¬ p.table.length = 0 := fun h => hl (List.length_eq_zero_iff.1 h)
        cases hz : p.table.get 0 with
        | some row => exact (he ⟨row, hz⟩).elim
        | none =>
          simp only [if_neg hl', if_neg hl, Option.some.injEq, exists_const]
          exact eq_comm
    rw [h2]
    constructor
    · rintro ⟨s', h⟩; cases h; rfl
    · rintro rfl; exact ⟨as, rfl⟩

/-- A sound script with a retraction: "ab", take 1 back, "b" again — the text is "ab". -/
example : Act.Sound [] [.add [97, 99], .back 1, .add [98]] ∧ Act.text [] [.add [97, 99], .back 1, .add [98]] = [97, 98] := by
  refine ⟨⟨by decide, trivial⟩, by decide⟩

/-- **C96.** Taking back more than there is, is an index out of range. -/
theorem C96_back_too_far (p : Parser) (he : p.table.HasEntry) (hg : ∀ n, n < grow n) (k : Nat) (hk : 0 < k) (as : List Act) :
    Ends (fun _ => p) scriptReader late grow (.back k :: as) .boundsPanic := by
  refine ((C96_panics_iff (maps := fun _ => p) hg).2).2 ⟨he, Buf.init, _, _, _, _, _, .first, rfl, .inl ?_⟩
  simp only [Buf.init]
  omega

/-- A reader that keeps its slices: it delivers `a`, and then, in the call that reports EOF, writes `b` over it. -/
def keeper : AnyReader Bool := fun first reach off =>
  if first then .returns (reach.set off 97) 1 none false
  else .returns (reach.set 0 98) 0 (some .eof) false

set_option maxRecDepth 10000 in
/-- **C96.** Counts that are right are not enough for the text: `keeper` delivers the one byte `a` in the only call that
delivers anything, but what is parsed is `b`. -/
theorem C96_kept_slice (p : Parser) (he : p.table.HasEntry) (grow : Nat → Nat) (o : Outcome) :
    CountsRight keeper ∧
    ((∃ s', Ends (fun _ => p) keeper quiet grow true (.done o s')) ↔ p.Returns (.string [98]) o) := by
  constructor
  · intro s reach off h
    cases s with
    | true => exact ⟨_, _, _, _, rfl, by omega, by omega⟩
    | false => exact ⟨_, _, _, _, rfl, by omega, by omega⟩
  · have hra : ∃ b, readAllFuel keeper grow 2 Buf.init true = some (.done b none false) ∧ b.arr.take b.len = [98] := by
      refine ⟨_, rfl, rfl⟩
    obtain ⟨b, hra, ht⟩ := hra
    rw [← live_quiet he]
    constructor
    · rintro ⟨s1, h1⟩
      obtain ⟨f1, y, hy, hc⟩ := (ends_iff (maps := fun _ => p) he).1 h1
      cases readAll_det keeper grow hra hy
      rcases hc with ⟨_, h, _⟩ | ⟨h, _⟩ | ⟨_, _, _, h, _⟩ | ⟨_, _, o', f', h, h', ho⟩
      · cases h
      · cases h
      · cases h
      · cases h
        cases h'
        rw [seen_quiet, ht] at ho
        exact ⟨f', ho⟩
    · rintro ⟨f', ho⟩
      refine ⟨false, (ends_iff (maps := fun _ => p) he).2 ⟨2, _, hra, .inr (.inr (.inr ⟨b, false, o, f', rfl, rfl, ?_⟩))⟩⟩
      rw [seen_quiet, ht]
      exact ho

/-! ## Cases that meet the hypotheses -/

/-- A reader that empties the parser's table and reports EOF (`C96_table_lost`). -/
example : Makes (fun fresh : Bool => if fresh then Parser.mk abTable (some []) else Parser.mk [] (some []))
    (fun _ reach _ => .returns reach 0 (some .eof) false) (Parser.mk [] (some [])) true [] [] none := by
  refine .intro _ _ _ _ (fun reach off h => ⟨_, _, _, _, rfl, rfl, rfl, by simp, by simp⟩) ?_ ?_
  · intro reach off mem n e s' h hr
    simp only [ReadRes.returns.injEq, Option.some.injEq] at hr
    obtain ⟨_, rfl, rfl, rfl⟩ := hr
    exact ⟨rfl, rfl, rfl⟩
  · intro reach off mem n s' h hr
    simp at hr

/-- A reader that parses `ab` with the same parser before it reports EOF (`C96_reentrant`). -/
example : ∃ q, History (Parser.mk abTable (some [])) q ∧ q ≠ Parser.mk abTable (some []) ∧
    Makes (fun fresh : Bool => if fresh then Parser.mk abTable (some []) else q)
      (fun _ reach _ => .returns reach 0 (some .eof) false) q true [] [] none := by
  have hret : (Parser.mk abTable (some [])).Returns (.string [97, 98])
      (.ok (.mk 0 0 2 [.mk (-1) 0 2 []]) (addBuiltinNames [])) := ⟨20, rfl⟩
  refine ⟨_, .call .start hret, ?_, .intro _ _ _ _ (fun reach off h => ⟨_, _, _, _, rfl, rfl, rfl, by simp, by simp⟩) ?_ ?_⟩
  · intro h
    have := congrArg Parser.names h
    simp [Parser.after, addBuiltinNames, GoMap.set] at this
  · intro reach off mem n e s' h hr
    simp only [ReadRes.returns.injEq, Option.some.injEq] at hr
    obtain ⟨_, rfl, rfl, rfl⟩ := hr
    exact ⟨rfl, rfl, rfl⟩
  · intro reach off mem n s' h hr
    simp at hr

/-- A reader that fills the buffer with `x`, and in the next call writes `y` over all it was ever handed. -/
def flood : AnyReader Bool := fun first reach off =>
  if first then .returns (List.replicate reach.length 120) (reach.length - off : Nat) none false
  else .returns (List.replicate reach.length 121) 0 (some .eof) false

/-- `flood` meets the hypotheses of `C96_early_error`: at its second call the first 512 bytes are out of its reach. -/
example (grow : Nat → Nat) : CountsRight flood ∧ ∃ b, Called flood grow true b false ∧ b.low = 512 ∧
    StuckAt abTable (some []) (b.arr.take b.low) 0 (.noRule 120 (.unknown 0)) := by
  refine ⟨fun s reach off h => ?_, Buf.grown ⟨Buf.init.put (List.replicate 512 120), 512, 0⟩ grow, ?_, rfl, ?_⟩
  · cases s with
    | true => exact ⟨_, _, _, _, rfl, by omega, by omega⟩
    | false => exact ⟨_, _, _, _, rfl, by omega, by omega⟩
  · have hl : Buf.init.reach.length = 512 := by
      simp only [Buf.reach, Buf.init, List.drop_zero, List.length_replicate]
    have hl' : Buf.init.arr.length = 512 := by
      simp only [Buf.init, List.length_replicate]
    have := Called.full (r := flood) (grow := grow) (s := true) (b := Buf.init) (mem := List.replicate 512 120) (n := 512)
      (s1 := true) (s2 := false) .first (by simp only [flood, if_true, hl]; rfl) (by rw [hl']; rfl)
    rw [hl'] at this
    exact this
  · have hb : byteAt ((Buf.grown ⟨Buf.init.put (List.replicate 512 120), 512, 0⟩ grow).arr.take 512) 0 = 120 := by
      have hp : (Buf.init.put (List.replicate 512 120)).length = 512 := by
        rw [Buf.length_put _ _ (Nat.zero_le _)]; simp only [Buf.init, List.length_replicate]
      simp only [Buf.grown]
      rw [List.take_append_of_le_length (by omega)]
      have : Buf.init.put (List.replicate 512 120) = List.replicate 512 120 := by
        unfold Buf.put
        rw [overwrite_same _ _ (by simp only [Buf.reach, Buf.init, List.drop_zero, List.length_replicate])]
        simp only [Buf.init, List.take_zero, List.nil_append]
      rw [this, List.take_of_length_le (by rw [List.length_replicate])]
      unfold byteAt
      rw [List.getD_eq_getElem?_getD, List.getElem?_replicate]
      rfl
    have := FailsAt.noBody (tbl := abTable) (names := some [])
      (src := (Buf.grown ⟨Buf.init.put (List.replicate 512 120), 512, 0⟩ grow).arr.take 512) (n := 0) (ops := []) (i := 0)
      (by rw [hb]; rfl)
    rw [hb] at this
    exact .inl this

end LL1.AnyReader
