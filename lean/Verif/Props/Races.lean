import Verif.Props.Concurrent

/-!
# C71: exactly when concurrent `Parse` calls race

Go calls it a data race when two goroutines access a map without synchronisation and one of them writes it.  `Parse`
contains no synchronisation, so two calls race exactly if some schedule brings them both to the brink of such accesses.
-/

namespace LL1

/-! ## Specification -/

/-- The next step of the goroutine writes the shared names map: there is a content it changes. -/
def Thread.Writes (table : Table) (th : Thread) : Prop := ∃ m, (tstep table (some m) th).1 ≠ some m

/-- The next step of the goroutine reads the shared names map: what it does depends on the content. -/
def Thread.Reads (table : Table) (th : Thread) : Prop :=
  ∃ m m', (tstep table (some m) th).2 ≠ (tstep table (some m') th).2

/-- Two goroutines are about to access the shared map, one of them to write it. -/
def System.Races (table : Table) (sys : System) : Prop :=
  ∃ (i j : Nat) (th th' : Thread), i ≠ j ∧ sys.threads[i]? = some th ∧ sys.threads[j]? = some th' ∧
    th.Writes table ∧ (th'.Writes table ∨ th'.Reads table)

/-- The error names a rule, so making its message looks it up. -/
def PErr.NamesRule : PErr → Prop
  | .noRulesFor _ => True
  | .noRule _ _ => True
  | _ => False

/-! ## Proofs -/

theorem writes_iff (table : Table) (th : Thread) : th.Writes table ↔
    (∃ n, th = .wroteLiteral n) ∨ ∃ text s rest n ps, th = .run text s ∧ s.opStack = .eos :: rest ∧ s.prodStack = n :: ps ∧
      peek text s.offset = 0 := by
  constructor
  · rintro ⟨m, h⟩
    cases th with
    | ready src => exact absurd rfl h
    | finished r => exact absurd rfl h
    | wroteLiteral n => exact .inl ⟨n, rfl⟩
    | run text s =>
      right
      rcases eos_or s with ⟨rest, heq⟩ | hneos
      · simp only [tstep, heq] at h
        split at h
        · exact absurd rfl h
        · rename_i hp
          split at h
          · exact absurd rfl h
          · rename_i n ps hps
            exact ⟨text, s, rest, n, ps, rfl, heq, hps, by simpa using hp⟩
      · rw [tstep_other hneos] at h; exact absurd rfl h
  · rintro (⟨n, rfl⟩ | ⟨text, s, rest, n, ps, rfl, h1, h2, h3⟩)
    · exact ⟨[], by simp [tstep, GoMap.set]⟩
    · exact ⟨[], by simp [tstep, h1, h2, h3, GoMap.set]⟩

theorem reads_iff (table : Table) (th : Thread) : th.Reads table ↔
    ∃ text s n rest, th = .run text s ∧ s.opStack = .nonTerminal n :: rest ∧ 0 ≤ n ∧
      (table.get n = none ∨ ∃ row, table.get n = some row ∧ GoMap.get row (peek text s.offset) = none) := by
  constructor
  · rintro ⟨m, m', h⟩
    cases th with
    | ready src => exact absurd rfl h
    | finished r => exact absurd rfl h
    | wroteLiteral n => exact absurd rfl h
    | run text s =>
      obtain ⟨off, ops, prods⟩ := s
      cases ops with
      | nil => exact absurd rfl h
      | cons op rest =>
        cases op with
        | eos =>
          exfalso
          apply h
          simp only [tstep]
          split
          · rfl
          · split <;> rfl
        | terminal v => exact absurd rfl h
        | function a b c => exact absurd rfl h
        | char c => exact absurd rfl h
        | nil => exact absurd rfl h
        | nonTerminal n =>
          refine ⟨text, _, n, rest, rfl, rfl, ?_⟩
          rw [tstep_other (by simp), tstep_other (by simp)] at h
          simp only [step, processNonTerminal] at h
          by_cases hn : n < 0
          · simp only [hn, if_true] at h; exact absurd rfl h
          · refine ⟨by omega, ?_⟩
            simp only [hn, if_false, processTableNonTerminal] at h
            cases hg : table.get n with
            | none => exact .inl rfl
            | some row =>
              rw [hg] at h
              simp only at h
              cases hr : GoMap.get row (peek text off) with
              | none => exact .inr ⟨row, rfl, hr⟩
              | some ops => rw [hr] at h; exact absurd rfl h
  · rintro ⟨text, ⟨off, ops, prods⟩, n, rest, rfl, h1, hn, h2⟩
    simp only at h1 h2
    subst h1
    have hn' : ¬ n < 0 := by omega
    refine ⟨[], [(n, b!"x")], ?_⟩
    rw [tstep_other (by simp), tstep_other (by simp)]
    simp only [step, processNonTerminal, hn', if_false, processTableNonTerminal]
    rcases h2 with h2 | ⟨row, h2, h3⟩
    · simp [h2, Thread.ofStep, nodeTypeName]
    · simp [h2, h3, Thread.ofStep, nodeTypeName]

/-- A call that returns from inside the loop is, some turns before, at the last loop iteration. -/
theorem alone_last {table : Table} {names : Option Names} {src : Source} {text : Str} {fuel k : Nat} {s : PState} {o : Outcome}
    (hk : aloneFor table names src k = (names, .run text s)) (h : runFuel table names text fuel s = some o) :
    ∃ j s', aloneFor table names src j = (names, .run text s') ∧ step table names text s' = .done o := by
  induction fuel generalizing k s with
  | zero => simp [runFuel] at h
  | succ f ih =>
    rw [runFuel] at h
    cases hst : step table names text s with
    | done o' => rw [hst] at h; cases h; exact ⟨k, s, hk, hst⟩
    | next s' =>
      rw [hst] at h
      refine ih (k := k + 1) ?_ h
      rcases eos_or s with ⟨rest, heq⟩ | hneos
      · simp [step, heq] at hst
      · rw [aloneFor, hk]
        simp only
        rw [tstep_other hneos, hst]; rfl

theorem returns_last {table : Table} {names : Option Names} {src : Source} {o : Outcome}
    (h : (Parser.mk table names).Returns src o) (ho : (∃ t m, o = .ok t m) ∨ ∃ e, o = .err e ∧ e.NamesRule) :
    ∃ k text s, aloneFor table names src k = (names, .run text s) ∧ step table names text s = .done o := by
  obtain ⟨fuel, h⟩ := h
  unfold Parser.parseFuel at h
  have bad : ∀ e, o = .err e → ¬ e.NamesRule → False := by
    rintro e rfl hn
    rcases ho with ⟨t, m, h⟩ | ⟨e', h, hn'⟩
    · cases h
    · cases h; exact hn hn'
  simp only at h
  split at h
  · cases h; exact (bad _ rfl id).elim
  · next h0 =>
    split at h
    · cases h; exact (bad _ rfl id).elim
    · next row hrow =>
      split at h
      · next e he =>
        cases h
        refine (bad _ rfl ?_).elim
        cases src <;> simp only [readSource] at he
        · cases he; exact id
        · cases he
        · cases he
        · rename_i b; cases b <;> cases he; exact id
        · rename_i c e'; cases e' <;> cases he; exact id
        · cases he; exact id
      · next text ht =>
        have h1 : aloneFor table names src 1 = (names, .run text initState) := by
          simp only [aloneFor, tstep, h0, if_false, hrow, ht]
        obtain ⟨j, s', h2, h3⟩ := alone_last h1 h
        exact ⟨j, text, s', h2, h3⟩

theorem step_ok_inv {table : Table} {names : Option Names} {text : Str} {s : PState} {t : Node} {m : Names}
    (h : step table names text s = .done (.ok t m)) :
    ∃ rest n ps, s.opStack = .eos :: rest ∧ s.prodStack = n :: ps ∧ peek text s.offset = 0 := by
  rcases eos_or s with ⟨rest, heq⟩ | hneos
  · simp only [step, heq, processEOS] at h
    split at h
    · cases h
    · rename_i hp
      split at h
      · cases h
      · rename_i n ps hps
        exact ⟨rest, n, ps, heq, hps, by simpa using hp⟩
  · exact (step_not_ok hneos h).elim

theorem step_names_inv {table : Table} {names : Option Names} {text : Str} {s : PState} {e : PErr}
    (h : step table names text s = .done (.err e)) (he : e.NamesRule) :
    ∃ n rest, s.opStack = .nonTerminal n :: rest ∧ 0 ≤ n ∧
      (table.get n = none ∨ ∃ row, table.get n = some row ∧ GoMap.get row (peek text s.offset) = none) := by
  obtain ⟨off, ops, prods⟩ := s
  cases ops with
  | nil => simp [step] at h
  | cons op rest =>
    cases op with
    | eos =>
      exfalso
      simp only [step, processEOS] at h
      split at h
      · cases h; exact he
      · split at h
        · cases h; exact he
        · split at h <;> cases h
    | terminal v => simp [step] at h
    | function a b c =>
      exfalso
      simp only [step, processFunction] at h
      split at h
      · cases h
      · split at h <;> cases h
    | char c =>
      exfalso
      simp only [step, processChar] at h
      split at h
      · cases h; exact he
      · cases h
    | nil => simp [step] at h
    | nonTerminal n =>
      refine ⟨n, rest, rfl, ?_⟩
      simp only [step, processNonTerminal] at h
      by_cases hn : n < 0
      · exfalso
        simp only [hn, if_true, processBuiltinNonTerminal] at h
        split at h
        · split at h
          · cases h
          · split at h
            · cases h
            · cases h; exact he
        · cases h; exact he
      · refine ⟨by omega, ?_⟩
        simp only [hn, if_false, processTableNonTerminal] at h
        cases hg : table.get n with
        | none => exact .inl rfl
        | some row =>
          rw [hg] at h
          simp only at h
          cases hr : GoMap.get row (peek text off) with
          | none => exact .inr ⟨row, rfl, hr⟩
          | some ops => rw [hr] at h; cases h

theorem alone_writes {table : Table} {m : Names} {src : Source} (k : Nat)
    (h : (aloneFor table (some m) src k).2.Writes table) : ∃ t m', (Parser.mk table (some m)).Returns src (.ok t m') := by
  rw [writes_iff] at h
  rcases aloneFor_run (table := table) (names := some m) (src := src) k with
    ⟨text, s, h2, _, _, h3⟩ | ⟨_, h2⟩ | ⟨m0, t, hm0, h2, h3⟩ | ⟨cur2, r2, _, h2, _⟩
  · rw [h2] at h
    rcases h with ⟨n, h⟩ | ⟨text', s', rest, n, ps, h, e1, e2, e3⟩
    · cases h
    · cases h
      exact ⟨n, addBuiltinNames m, h3 1 _ (by simp [runFuel, step, e1, processEOS, e2, e3])⟩
  · rw [h2] at h
    rcases h with ⟨n, h⟩ | ⟨text', s', rest, n, ps, h, _⟩ <;> cases h
  · exact ⟨t, _, h3⟩
  · rw [h2] at h
    rcases h with ⟨n, h⟩ | ⟨text', s', rest, n, ps, h, _⟩ <;> cases h

theorem alone_reads {table : Table} {names : Option Names} {src : Source} (k : Nat)
    (h : (aloneFor table names src k).2.Reads table) : ∃ e, (Parser.mk table names).Returns src (.err e) ∧ e.NamesRule := by
  rw [reads_iff] at h
  obtain ⟨text', s', n, rest, he, e1, e2, e3⟩ := h
  rcases aloneFor_run (table := table) (names := names) (src := src) k with
    ⟨text, s, h2, _, _, h3⟩ | ⟨_, h2⟩ | ⟨m0, t, hm0, h2, h3⟩ | ⟨cur2, r2, _, h2, _⟩
  · rw [h2] at he
    cases he
    have hn : ¬ n < 0 := by omega
    rcases e3 with e3 | ⟨row, e3, e4⟩
    · exact ⟨.noRulesFor (nodeTypeName names n), h3 1 _ (by
        simp only [runFuel, step, e1, processNonTerminal, hn, if_false, processTableNonTerminal, e3]), trivial⟩
    · exact ⟨.noRule (peek text' s'.offset) (nodeTypeName names n), h3 1 _ (by
        simp only [runFuel, step, e1, processNonTerminal, hn, if_false, processTableNonTerminal, e3, e4]), trivial⟩
  · rw [h2] at he; cases he
  · rw [h2] at he; cases he
  · rw [h2] at he; cases he

/-- **C71.** Goroutines calling `Parse` on one parser can race exactly if one of the calls succeeds and another one
succeeds too or fails with a message that names a rule. -/
theorem C71_race_iff (table : Table) (m : Names) (srcs : List Source) :
    (∃ schedule, ((System.start (some m) srcs).runSchedule table schedule).Races table) ↔
    ∃ (i j : Nat) (src src' : Source), i ≠ j ∧ srcs[i]? = some src ∧ srcs[j]? = some src' ∧
      (∃ t m', (Parser.mk table (some m)).Returns src (.ok t m')) ∧
      ((∃ t m', (Parser.mk table (some m)).Returns src' (.ok t m')) ∨
        ∃ e, (Parser.mk table (some m)).Returns src' (.err e) ∧ e.NamesRule) := by
  have hlen : ∀ schedule i th, ((System.start (some m) srcs).runSchedule table schedule).threads[i]? = some th →
      ∃ src, srcs[i]? = some src ∧ th = (aloneFor table (some m) src (turns schedule i)).2 := by
    intro schedule i th h
    cases hs : srcs[i]? with
    | some src =>
      have := (C17_interleaving table (some m) srcs schedule).1 i src hs
      rw [h] at this
      exact ⟨src, rfl, by simpa using this⟩
    | none =>
      exfalso
      have hl : ∀ (sched : List Nat) (sys : System), (sys.runSchedule table sched).threads.length = sys.threads.length := by
        intro sched
        induction sched with
        | nil => intro sys; rfl
        | cons a as ih =>
          intro sys
          have := ih (sys.step table a)
          simp only [System.runSchedule, List.foldl_cons] at this ⊢
          rw [this]
          unfold System.step
          split
          · rfl
          · simp
      have h1 := (List.getElem?_eq_some_iff.1 h).1
      rw [hl] at h1
      simp only [System.start, List.length_map] at h1
      rw [List.getElem?_eq_none_iff] at hs
      omega
  constructor
  · rintro ⟨schedule, i, j, th, th', hij, h1, h2, hw, ha⟩
    obtain ⟨src, hs, rfl⟩ := hlen schedule i th h1
    obtain ⟨src', hs', rfl⟩ := hlen schedule j th' h2
    refine ⟨i, j, src, src', hij, hs, hs', alone_writes _ hw, ?_⟩
    rcases ha with ha | ha
    · exact .inl (alone_writes _ ha)
    · exact .inr (alone_reads _ ha)
  · rintro ⟨i, j, src, src', hij, hs, hs', ⟨t, m', hok⟩, hacc⟩
    have hwr : ∀ src t m', (Parser.mk table (some m)).Returns src (.ok t m') →
        ∃ k, (aloneFor table (some m) src k).2.Writes table := by
      intro src t m' h
      obtain ⟨k, text, s, h1, h2⟩ := returns_last h (.inl ⟨t, m', rfl⟩)
      obtain ⟨rest, n, ps, e1, e2, e3⟩ := step_ok_inv h2
      exact ⟨k, (writes_iff _ _).2 (.inr ⟨text, s, rest, n, ps, by rw [h1], e1, e2, e3⟩)⟩
    obtain ⟨k, hk⟩ := hwr src t m' hok
    have hk' : ∃ k', (aloneFor table (some m) src' k').2.Writes table ∨ (aloneFor table (some m) src' k').2.Reads table := by
      rcases hacc with ⟨t', m'', h⟩ | ⟨e, h, he⟩
      · obtain ⟨k', h⟩ := hwr src' t' m'' h
        exact ⟨k', .inl h⟩
      · obtain ⟨k', text, s, h1, h2⟩ := returns_last h (.inr ⟨e, rfl, he⟩)
        obtain ⟨n, rest, e1, e2, e3⟩ := step_names_inv h2 he
        exact ⟨k', .inr ((reads_iff _ _).2 ⟨text, s, n, rest, by rw [h1], e1, e2, e3⟩)⟩
    obtain ⟨k', hk'⟩ := hk'
    let schedule := List.replicate k i ++ List.replicate k' j
    have t1 : turns schedule i = k := by
      simp [schedule, turns, List.count_append, List.count_replicate, hij.symm]
    have t2 : turns schedule j = k' := by
      simp [schedule, turns, List.count_append, List.count_replicate, hij]
    have a1 := (C17_interleaving table (some m) srcs schedule).1 i src hs
    have a2 := (C17_interleaving table (some m) srcs schedule).1 j src' hs'
    rw [t1] at a1
    rw [t2] at a2
    exact ⟨schedule, i, j, _, _, hij, a1, a2, hk, hk'⟩

/-- **C71.** In particular calls that all fail never race, whatever the schedule. -/
theorem C71_failing_calls_safe (table : Table) (m : Names) (srcs : List Source)
    (h : ∀ src ∈ srcs, ∀ t m', ¬ (Parser.mk table (some m)).Returns src (.ok t m')) (schedule : List Nat) :
    ¬ ((System.start (some m) srcs).runSchedule table schedule).Races table := by
  intro hr
  obtain ⟨i, _, src, _, _, hs, _, ⟨t, m', hok⟩, _⟩ := (C71_race_iff table m srcs).1 ⟨schedule, hr⟩
  exact h src (List.mem_of_getElem? hs) t m' hok

/-- Both sides occur: two calls of which one succeeds and the other fails with a named rule; two failing calls. -/
example : (∃ schedule, ((System.start (some []) [.string [40, 41], .string [120]]).runSchedule parenTable
      schedule).Races parenTable) ∧
    ∀ schedule, ¬ ((System.start (some []) [.string [40], .string [41, 40]]).runSchedule parenTable schedule).Races
      parenTable := by
  constructor
  · exact (C71_race_iff _ _ _).2 ⟨0, 1, _, _, by decide, rfl, rfl, ⟨_, _, 20, rfl⟩, .inr ⟨_, ⟨20, rfl⟩, trivial⟩⟩
  · refine C71_failing_calls_safe _ _ _ ?_
    intro src hsrc t m' h
    simp only [List.mem_cons, List.not_mem_nil, or_false] at hsrc
    rcases hsrc with rfl | rfl
    · have := returns_det h (o' := .err _) ⟨20, rfl⟩
      cases this
    · have := returns_det h (o' := .err _) ⟨20, rfl⟩
      cases this

end LL1
