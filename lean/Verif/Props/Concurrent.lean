import Verif.Model.Concurrent
import Verif.Props.Parser

/-!
# C17: interleaved `Parse` calls
-/

namespace LL1

/-- A call running alone for `k` steps. -/
def aloneFor (table : Table) (names : Option Names) (src : Source) : Nat → Option Names × Thread
  | 0 => (names, .ready src)
  | k + 1 => let r := aloneFor table names src k; tstep table r.1 r.2

/-- What the system guarantees about the shared map, given the original one. -/
def MapOk (orig cur : Option Names) : Prop :=
  (orig = none ↔ cur = none) ∧
  ∀ m m', orig = some m → cur = some m' →
    (∀ k, k ≠ -1 → k ≠ -2 → m'.get k = m.get k)

theorem MapOk.refl (a : Option Names) : MapOk a a :=
  ⟨Iff.rfl, fun m m' h1 h2 k _ _ => by rw [h1] at h2; cases h2; rfl⟩

theorem MapOk.equiv {a b c : Option Names} (h1 : MapOk a b) (h2 : MapOk a c) : NamesEquiv b c := by
  refine ⟨h1.1.symm.trans h2.1, fun m m' hm hm' k hk hk' => ?_⟩
  cases a with
  | none => have := h1.1.1 rfl; rw [this] at hm; cases hm
  | some m0 => rw [h1.2 m0 m rfl hm k hk hk', h2.2 m0 m' rfl hm' k hk hk']

theorem MapOk.set {a : Option Names} {m : Names} (h : MapOk a (some m)) (k : Int) (v : Str)
    (hk : k = -1 ∨ k = -2) : MapOk a (some (m.set k v)) := by
  refine ⟨⟨fun h' => (by have := h.1.1 h'; cases this), fun h' => (by cases h')⟩, ?_⟩
  rintro m0 m' h0 h1 j hj hj'
  cases h1
  rw [GoMap.get_set, if_neg (by omega)]
  exact h.2 m0 m h0 rfl j hj hj'

theorem tstep_mapOk {table : Table} {a b : Option Names} (h : MapOk a b) (th : Thread) :
    MapOk a (tstep table b th).1 := by
  cases th with
  | ready src => exact h
  | finished r => exact h
  | wroteLiteral n =>
    cases b with
    | none => exact h
    | some m => exact h.set _ _ (Or.inr rfl)
  | run text s =>
    simp only [tstep]
    split
    · split
      · exact h
      · split
        · exact h
        · split
          · exact h
          · exact h.set _ _ (Or.inl rfl)
    · exact h

theorem step_names {table : Table} {a b : Option Names} (h : NamesEquiv a b) (text : Str) (s : PState)
    (hs : ∀ rest, s.opStack ≠ .eos :: rest) : step table a text s = step table b text s := by
  obtain ⟨off, ops, prods⟩ := s
  cases ops with
  | nil => rfl
  | cons op rest =>
    cases op with
    | nonTerminal n =>
      have := @step_nonTerminal table a text rest prods n off
      rw [this]
      have := @step_nonTerminal table b text rest prods n off
      rw [this]
      have hw : whyNot table a n (byteAt text off) = whyNot table b n (byteAt text off) := by
        unfold whyNot
        split
        · rename_i hn; rw [h.rowName n hn]
        · rfl
      rw [hw]
    | eos => exact absurd rfl (hs rest)
    | _ => rfl

theorem tstep_other {table : Table} {names : Option Names} {text : Str} {s : PState}
    (hs : ∀ rest, s.opStack ≠ .eos :: rest) :
    tstep table names (.run text s) = (names, Thread.ofStep text (step table names text s)) := by
  simp only [tstep]

/-- A loop iteration other than the end marker never succeeds. -/
theorem step_not_ok {table : Table} {names : Option Names} {text : Str} {s : PState}
    (hs : ∀ rest, s.opStack ≠ .eos :: rest) {t : Node} {m : Names}
    (hst : step table names text s = .done (.ok t m)) : False := by
  obtain ⟨off, ops, prods⟩ := s
  cases ops with
  | nil => simp [step] at hst
  | cons op rest =>
    cases op with
    | nonTerminal n =>
      rw [step_nonTerminal] at hst
      split at hst <;> cases hst
    | eos => exact hs rest rfl
    | terminal v => simp [step] at hst
    | function n p a =>
      simp only [step, processFunction] at hst
      split at hst
      · cases hst
      · split at hst <;> cases hst
    | char c =>
      simp only [step, processChar] at hst
      split at hst <;> cases hst
    | nil => simp [step] at hst

theorem eos_or (s : PState) : (∃ rest, s.opStack = .eos :: rest) ∨ ∀ rest, s.opStack ≠ .eos :: rest := by
  by_cases hex : ∃ rest, s.opStack = .eos :: rest
  · exact Or.inl hex
  · exact Or.inr (fun rest hr => hex ⟨rest, hr⟩)

/-- A step of a call has the same local effect whatever the other calls did to the map. -/
theorem tstep_local {table : Table} {a b : Option Names} (h : NamesEquiv a b) (th : Thread) :
    (tstep table a th).2 = (tstep table b th).2 := by
  cases th with
  | ready src => rfl
  | finished r => rfl
  | wroteLiteral n =>
    cases a with
    | none => have := h.1.1 rfl; subst this; rfl
    | some m =>
      cases b with
      | none => have := h.1.2 rfl; cases this
      | some m' => rfl
  | run text s =>
    by_cases hs : ∀ rest, s.opStack ≠ .eos :: rest
    · have hst := step_names (table := table) h text s hs
      rw [tstep_other hs, tstep_other hs, hst]
    · have hs' : ∃ rest, s.opStack = .eos :: rest := by
        by_cases hex : ∃ rest, s.opStack = .eos :: rest
        · exact hex
        · exact absurd (fun rest hr => hex ⟨rest, hr⟩) hs
      obtain ⟨rest, hr⟩ := hs'
      simp only [tstep, hr]
      split
      · rfl
      · split
        · rfl
        · cases a with
          | none => have := h.1.1 rfl; subst this; rfl
          | some m =>
            cases b with
            | none => have := h.1.2 rfl; cases this
            | some m' => rfl

theorem aloneFor_mapOk (table : Table) (names : Option Names) (src : Source) (k : Nat) :
    MapOk names (aloneFor table names src k).1 := by
  induction k with
  | zero => exact MapOk.refl _
  | succ k ih => exact tstep_mapOk ih _

/-- How often goroutine `i` was scheduled. -/
def turns (schedule : List Nat) (i : Nat) : Nat := schedule.count i

/-- **C17.** Under every schedule, every goroutine is at every moment in exactly the state it would be
in if it had run alone for the number of turns it got; and apart from the two built-in entries the
shared names map is unchanged. -/
theorem C17_interleaving (table : Table) (names : Option Names) (srcs : List Source)
    (schedule : List Nat) :
    let sys := (System.start names srcs).runSchedule table schedule
    (∀ i src, srcs[i]? = some src →
      sys.threads[i]? = some (aloneFor table names src (turns schedule i)).2) ∧
    MapOk names sys.names := by
  have key : ∀ rs : List Nat,
      let sys := (System.start names srcs).runSchedule table rs.reverse
      sys.threads.length = srcs.length ∧
      (∀ i src, srcs[i]? = some src →
        sys.threads[i]? = some (aloneFor table names src (turns rs.reverse i)).2) ∧
      MapOk names sys.names := by
    intro rs
    induction rs with
    | nil =>
      refine ⟨by simp [System.runSchedule, System.start], ?_, MapOk.refl _⟩
      intro i src h
      simp [System.runSchedule, System.start, h, turns, aloneFor]
    | cons r rs ih =>
      obtain ⟨hlen, hth, hmap⟩ := ih
      simp only [List.reverse_cons]
      have e : (System.start names srcs).runSchedule table (rs.reverse ++ [r]) =
          System.step table ((System.start names srcs).runSchedule table rs.reverse) r := by
        simp [System.runSchedule, List.foldl_append]
      simp only [e]
      generalize hsys : (System.start names srcs).runSchedule table rs.reverse = sys at hlen hth hmap
      unfold System.step
      cases hr : sys.threads[r]? with
      | none =>
        refine ⟨hlen, ?_, hmap⟩
        intro i src h
        have hne : i ≠ r := by
          rintro rfl
          have := hth i src h
          rw [hr] at this; cases this
        rw [hth i src h]
        simp [turns, List.count_append, Ne.symm hne]
      | some th =>
        refine ⟨by simp [hlen], ?_, tstep_mapOk hmap _⟩
        intro i src h
        simp only [List.getElem?_set]
        by_cases hir : r = i
        · subst hir
          have hth' := hth r src h
          rw [hr] at hth'
          cases hth'
          have hlt : r < sys.threads.length := (List.getElem?_eq_some_iff.1 hr).1
          simp only [if_true, hlt]
          have ht : turns (rs.reverse ++ [r]) r = turns rs.reverse r + 1 := by
            simp [turns, List.count_append]
          rw [ht, aloneFor]
          congr 1
          exact tstep_local (MapOk.equiv hmap (aloneFor_mapOk ..)) _
        · rw [if_neg hir, hth i src h]
          simp [turns, List.count_append, hir]
  have := key schedule.reverse
  simp only [List.reverse_reverse] at this
  exact this.2

/-! The result of a call running alone is the result of `Parse`. -/

/-- A caller's view of a finished call. -/
def TResult.Matches : TResult → Outcome → Prop
  | .ok t, .ok t' _ => t = t'
  | .err e, .err e' => e = e'
  | .panic p, .panic p' => p = p'
  | _, _ => False

theorem aloneFor_finished_stays {table : Table} {names : Option Names} {src : Source} {k : Nat} {r : TResult}
    (h : (aloneFor table names src k).2 = .finished r) (j : Nat) :
    (aloneFor table names src (k + j)).2 = .finished r := by
  induction j with
  | zero => exact h
  | succ j ih =>
    rw [show k + (j + 1) = (k + j) + 1 by omega, aloneFor]
    simp only [ih]
    rfl

/-- While in the loop the map is untouched, and the loop state is the state of the sequential model:
the fuel still needed by the sequential run is what is left. -/
theorem aloneFor_run {table : Table} {names : Option Names} {src : Source} (k : Nat) :
    (∃ text s, aloneFor table names src k = (names, .run text s) ∧ readSource src = .ok text ∧
      table.HasEntry ∧ ∀ fuel o, runFuel table names text fuel s = some o →
        (Parser.mk table names).Returns src o) ∨
    (k = 0 ∧ aloneFor table names src k = (names, .ready src)) ∨
    (∃ m t, names = some m ∧ aloneFor table names src k = (some (m.set (-1) b!"_literal"), .wroteLiteral t) ∧
      (Parser.mk table names).Returns src (.ok t (addBuiltinNames m))) ∨
    (∃ cur r o, aloneFor table names src k = (cur, .finished r) ∧ r.Matches o ∧
      (Parser.mk table names).Returns src o ∧ ∀ t m', o = .ok t m' → cur = some m') := by
  induction k with
  | zero => exact Or.inr (Or.inl ⟨rfl, rfl⟩)
  | succ k ih =>
    rcases ih with ⟨text, s, h, hr, he, hrun⟩ | ⟨_, h⟩ | ⟨m, t, hn, h, hret⟩ | ⟨cur, r, o, h, hm, hret, hmap⟩
    · rw [aloneFor, h]
      simp only
      rcases eos_or s with ⟨rest, heq⟩ | hneos
      · have hfin : ∀ o, processEOS names text { s with opStack := rest } = o →
            (Parser.mk table names).Returns src o := by
          intro o ho
          refine hrun 1 o ?_
          simp [runFuel, step, heq, ho]
        simp only [processEOS] at hfin
        simp only [tstep, heq]
        by_cases hp : peek text s.offset = 0
        · simp only [hp, ne_eq, not_true_eq_false, if_false] at hfin ⊢
          cases hps : s.prodStack with
          | nil =>
            simp only [hps] at hfin
            exact Or.inr (Or.inr (Or.inr ⟨_, _, .err _, rfl, rfl, hfin _ rfl, by simp⟩))
          | cons n ns =>
            simp only [hps] at hfin
            cases names with
            | none => exact Or.inr (Or.inr (Or.inr ⟨_, _, .panic _, rfl, rfl, hfin _ rfl, by simp⟩))
            | some m => exact Or.inr (Or.inr (Or.inl ⟨m, n, rfl, rfl, hfin _ rfl⟩))
        · simp only [hp, ne_eq, not_false_eq_true, if_true] at hfin ⊢
          exact Or.inr (Or.inr (Or.inr ⟨_, _, .err _, rfl, rfl, hfin _ rfl, by simp⟩))
      · rw [tstep_other hneos]
        cases hst : step table names text s with
        | next s' =>
          refine Or.inl ⟨text, s', rfl, hr, he, ?_⟩
          intro fuel o ho
          refine hrun (fuel + 1) o ?_
          rw [runFuel, hst]; exact ho
        | done o =>
          cases o with
          | ok t m' => exact (step_not_ok hneos hst).elim
          | err e =>
            refine Or.inr (Or.inr (Or.inr ⟨_, _, .err e, rfl, rfl, hrun 1 _ ?_, by simp⟩))
            rw [runFuel, hst]
          | panic e =>
            refine Or.inr (Or.inr (Or.inr ⟨_, _, .panic e, rfl, rfl, hrun 1 _ ?_, by simp⟩))
            rw [runFuel, hst]
    · rw [aloneFor, h]
      simp only [tstep]
      by_cases hl : table.length = 0
      · simp only [hl, if_true]
        exact Or.inr (Or.inr (Or.inr ⟨_, _, .err .emptyTable, rfl, rfl, ⟨0, by simp [Parser.parseFuel, hl]⟩, by simp⟩))
      · simp only [hl, if_false]
        cases h0 : table.get 0 with
        | none =>
          exact Or.inr (Or.inr (Or.inr ⟨_, _, .err .noEntry, rfl, rfl, ⟨0, by simp [Parser.parseFuel, hl, h0]⟩, by simp⟩))
        | some row =>
          cases hr : readSource src with
          | error e =>
            exact Or.inr (Or.inr (Or.inr ⟨_, _, .err e, rfl, rfl, ⟨0, by simp [Parser.parseFuel, hl, h0, hr]⟩, by simp⟩))
          | ok text =>
            refine Or.inl ⟨text, initState, rfl, rfl, ⟨row, h0⟩, ?_⟩
            intro fuel o ho
            exact ⟨fuel, by simp [Parser.parseFuel, hl, h0, hr, ho]⟩
    · rw [aloneFor, h]
      refine Or.inr (Or.inr (Or.inr ⟨_, _, .ok t (addBuiltinNames m), rfl, rfl, hret, ?_⟩))
      intro t' m' hh
      cases hh
      rfl
    · rw [aloneFor, h]
      exact Or.inr (Or.inr (Or.inr ⟨cur, r, o, rfl, hm, hret, hmap⟩))

/-- **C17.** Whatever the schedule, a goroutine that has finished has the result of the same `Parse`
call made alone on a fresh parser: the same tree, the same error, the same panic. -/
theorem C17_results (table : Table) (names : Option Names) (srcs : List Source)
    (schedule : List Nat) (i : Nat) (src : Source) (r : TResult) (hsrc : srcs[i]? = some src)
    (h : ((System.start names srcs).runSchedule table schedule).threads[i]? = some (.finished r)) :
    ∃ o, (Parser.mk table names).Returns src o ∧ r.Matches o := by
  have hi := (C17_interleaving table names srcs schedule).1 i src hsrc
  rw [h] at hi
  have hfin : (aloneFor table names src (turns schedule i)).2 = .finished r := (Option.some.inj hi).symm
  rcases aloneFor_run (table := table) (names := names) (src := src) (turns schedule i) with
    ⟨text, s, h', _⟩ | ⟨_, h'⟩ | ⟨m, t, _, h', _⟩ | ⟨cur, r', o, h', hm, hret, _⟩
  · rw [h'] at hfin; cases hfin
  · rw [h'] at hfin; cases hfin
  · rw [h'] at hfin; cases hfin
  · rw [h'] at hfin; cases hfin; exact ⟨o, hret, hm⟩

theorem aloneFor_loop {table : Table} {names : Option Names} {src : Source} {text : Str} :
    ∀ (fuel k : Nat) (s : PState) (o : Outcome),
    (aloneFor table names src k).1 = names → (aloneFor table names src k).2 = .run text s →
    runFuel table names text fuel s = some o →
    ∃ j ≤ fuel + 1, ∃ r, (aloneFor table names src (k + j)).2 = .finished r := by
  intro fuel
  induction fuel with
  | zero => intro k s o _ _ h; simp [runFuel] at h
  | succ f ih =>
    intro k s o hn hs h
    have hstep : aloneFor table names src (k + 1) = tstep table names (.run text s) := by
      rw [aloneFor]; simp only [hn, hs]
    rcases eos_or s with ⟨rest, hr⟩ | hneos
    · simp only [tstep, hr] at hstep
      split at hstep
      · exact ⟨1, by omega, _, by rw [hstep]⟩
      · split at hstep
        · exact ⟨1, by omega, _, by rw [hstep]⟩
        · split at hstep
          · exact ⟨1, by omega, _, by rw [hstep]⟩
          · refine ⟨2, by omega, ?_⟩
            rw [show k + 2 = (k + 1) + 1 by omega, aloneFor, hstep]
            exact ⟨_, rfl⟩
    · rw [runFuel] at h
      rw [tstep_other hneos] at hstep
      cases hst : step table names text s with
      | next s' =>
        rw [hst] at h hstep
        simp only at h hstep
        obtain ⟨j, hj, r, hr⟩ := ih (k + 1) s' o (by rw [hstep]) (by rw [hstep]; rfl) h
        exact ⟨1 + j, by omega, r, by rw [← Nat.add_assoc]; exact hr⟩
      | done o' =>
        rw [hst] at hstep
        refine ⟨1, by omega, ?_⟩
        rw [hstep]
        cases o' <;> exact ⟨_, rfl⟩

/-- **C17.** Nobody is blocked by the others: if the call returns when made alone, there is a number of
turns after which the goroutine has finished under every schedule giving it that many turns. -/
theorem C17_progress (table : Table) (names : Option Names) (srcs : List Source) (i : Nat) (src : Source)
    (hsrc : srcs[i]? = some src) (o : Outcome) (h : (Parser.mk table names).Returns src o) :
    ∃ n, ∀ schedule, n ≤ turns schedule i →
      ∃ r, ((System.start names srcs).runSchedule table schedule).threads[i]? = some (.finished r) := by
  have : ∃ n r, (aloneFor table names src n).2 = .finished r := by
    obtain ⟨fuel, hf⟩ := h
    have h1 : aloneFor table names src 1 = tstep table names (.ready src) := rfl
    simp only [tstep] at h1
    unfold Parser.parseFuel at hf
    by_cases hl : table.length = 0
    · simp only [hl, if_true] at h1; exact ⟨1, _, by rw [h1]⟩
    · simp only [hl, if_false] at h1 hf
      cases h0 : table.get 0 with
      | none => simp only [h0] at h1; exact ⟨1, _, by rw [h1]⟩
      | some row =>
        simp only [h0] at h1 hf
        cases hr : readSource src with
        | error e => simp only [hr] at h1; exact ⟨1, _, by rw [h1]⟩
        | ok text =>
          simp only [hr] at h1 hf
          obtain ⟨j, _, r, hr⟩ := aloneFor_loop fuel 1 initState o (by rw [h1]) (by rw [h1]) hf
          exact ⟨1 + j, r, hr⟩
  obtain ⟨n, r, hn⟩ := this
  refine ⟨n, fun schedule hle => ⟨r, ?_⟩⟩
  rw [(C17_interleaving table names srcs schedule).1 i src hsrc]
  obtain ⟨d, hd⟩ := Nat.exists_eq_add_of_le hle
  rw [hd, aloneFor_finished_stays hn d]

/-- The map has the entries a successful call promises, as far as the calls in progress have got. -/
def BuiltinsOk (names : Option Names) (th : Thread) : Prop :=
  match th with
  | .wroteLiteral _ => ∃ m, names = some m ∧ m.get (-1) = some b!"_literal"
  | .finished (.ok _) => ∃ m, names = some m ∧ m.get (-1) = some b!"_literal" ∧ m.get (-2) = some b!"_nothing"
  | _ => True

theorem tstep_builtins (table : Table) (names : Option Names) (th other : Thread)
    (h : BuiltinsOk names other) : BuiltinsOk (tstep table names th).1 other := by
  -- writes only add the built-in entries
  have key : (tstep table names th).1 = names ∨ ∃ m, names = some m ∧
      ((tstep table names th).1 = some (m.set (-1) b!"_literal") ∨
       (tstep table names th).1 = some (m.set (-2) b!"_nothing")) := by
    cases th with
    | ready src => exact Or.inl rfl
    | finished r => exact Or.inl rfl
    | wroteLiteral n =>
      cases names with
      | none => exact Or.inl rfl
      | some m => exact Or.inr ⟨m, rfl, Or.inr rfl⟩
    | run text s =>
      rcases eos_or s with ⟨rest, hr⟩ | hneos
      · simp only [tstep, hr]
        split
        · exact Or.inl rfl
        · split
          · exact Or.inl rfl
          · split
            · exact Or.inl rfl
            · rename_i m; exact Or.inr ⟨m, rfl, Or.inl rfl⟩
      · rw [tstep_other hneos]; exact Or.inl rfl
  rcases key with hk | ⟨m, rfl, hk | hk⟩
  · rw [hk]; exact h
  · rw [hk]
    unfold BuiltinsOk at h ⊢
    split
    · exact ⟨_, rfl, by simp [GoMap.get_set]⟩
    · simp only at h
      obtain ⟨m', hm, h1, h2⟩ := h
      cases hm
      exact ⟨_, rfl, by simp [GoMap.get_set], by simp [GoMap.get_set, h2]⟩
    · trivial
  · rw [hk]
    unfold BuiltinsOk at h ⊢
    split
    · simp only at h
      obtain ⟨m', hm, h1⟩ := h
      cases hm
      exact ⟨_, rfl, by simp [GoMap.get_set, h1]⟩
    · simp only at h
      obtain ⟨m', hm, h1, h2⟩ := h
      cases hm
      exact ⟨_, rfl, by simp [GoMap.get_set, h1], by simp [GoMap.get_set]⟩
    · trivial

theorem tstep_builtins_self (table : Table) (names : Option Names) (th : Thread)
    (h : BuiltinsOk names th) : BuiltinsOk (tstep table names th).1 (tstep table names th).2 := by
  cases th with
  | ready src =>
    simp only [tstep]
    split
    · trivial
    · split
      · trivial
      · split <;> trivial
  | finished r => exact h
  | wroteLiteral n =>
    cases names with
    | none => trivial
    | some m =>
      obtain ⟨m', hm, h1⟩ := h
      cases hm
      exact ⟨_, rfl, by simp [builtinNothing, GoMap.get_set, h1], by simp [builtinNothing, GoMap.get_set]⟩
  | run text s =>
    rcases eos_or s with ⟨rest, hr⟩ | hneos
    · simp only [tstep, hr]
      split
      · trivial
      · split
        · trivial
        · split
          · trivial
          · exact ⟨_, rfl, by simp [builtinTerminal, GoMap.get_set]⟩
    · rw [tstep_other hneos]
      cases hst : step table names text s with
      | next s' => trivial
      | done o =>
        cases o with
        | ok t m' => exact (step_not_ok hneos hst).elim
        | err e => trivial
        | panic e => trivial

/-- **C17.** From the moment a goroutine's call has succeeded on, the names map it got hold of (the
shared one) binds both built-in names, whatever the others do. -/
theorem C17_builtin_names_stay (table : Table) (names : Option Names) (srcs : List Source)
    (schedule : List Nat) (i : Nat) (t : Node)
    (h : ((System.start names srcs).runSchedule table schedule).threads[i]? = some (.finished (.ok t))) :
    ∃ m, ((System.start names srcs).runSchedule table schedule).names = some m ∧
      m.get (-1) = some b!"_literal" ∧ m.get (-2) = some b!"_nothing" := by
  have inv : ∀ (rs : List Nat) (i : Nat) (th : Thread),
      ((System.start names srcs).runSchedule table rs.reverse).threads[i]? = some th →
      BuiltinsOk ((System.start names srcs).runSchedule table rs.reverse).names th := by
    intro rs
    induction rs with
    | nil =>
      intro i th h
      simp only [List.reverse_nil, System.runSchedule, List.foldl_nil, System.start,
        List.getElem?_map, Option.map_eq_some_iff] at h
      obtain ⟨src, _, rfl⟩ := h
      trivial
    | cons r rs ih =>
      have e : (System.start names srcs).runSchedule table (rs.reverse ++ [r]) =
          System.step table ((System.start names srcs).runSchedule table rs.reverse) r := by
        simp [System.runSchedule, List.foldl_append]
      rw [List.reverse_cons, e]
      generalize (System.start names srcs).runSchedule table rs.reverse = sys at ih
      unfold System.step
      cases hr : sys.threads[r]? with
      | none => exact ih
      | some th' =>
        intro i th hi
        simp only [List.getElem?_set] at hi ⊢
        split at hi
        · split at hi
          · cases hi
            exact tstep_builtins_self table sys.names th' (ih r th' hr)
          · cases hi
        · exact tstep_builtins table sys.names th' th (ih i th hi)
  have := inv schedule.reverse i (.finished (.ok t))
  rw [List.reverse_reverse] at this
  exact this h

/-- The next step of the goroutine writes to the shared names map. -/
def Thread.AboutToWrite (table : Table) (names : Option Names) (th : Thread) : Prop :=
  ∃ m k v, names = some m ∧ (tstep table names th).1 = some (m.set k v) ∧
    ∃ t, (tstep table names th).2 = .wroteLiteral t

/-- **C17 (why it is a race in Go).** For any two sources that parse successfully there is a schedule
after which both goroutines are, at the same time, about to write the same entry of the shared map,
with nothing ordering the two writes. -/
theorem C17_race_reachable (table : Table) (m : Names) (src₁ src₂ : Source) (t₁ t₂ : Node) (m₁ m₂ : Names)
    (h₁ : (Parser.mk table (some m)).Returns src₁ (.ok t₁ m₁))
    (h₂ : (Parser.mk table (some m)).Returns src₂ (.ok t₂ m₂)) :
    ∃ schedule th₁ th₂,
      let sys := (System.start (some m) [src₁, src₂]).runSchedule table schedule
      sys.threads = [th₁, th₂] ∧ th₁.AboutToWrite table sys.names ∧ th₂.AboutToWrite table sys.names := by
  -- each goroutine alone reaches a state about to write, before any write
  have reach : ∀ src t m', (Parser.mk table (some m)).Returns src (.ok t m') →
      ∃ k th, aloneFor table (some m) src k = (some m, th) ∧ ∃ text s rest n ps, th = .run text s ∧
        s.opStack = .eos :: rest ∧ s.prodStack = n :: ps ∧ peek text s.offset = 0 := by
    intro src t m' h
    -- least step at which the thread has left the loop
    have hex : ∃ k, ∃ t, (aloneFor table (some m) src k).2 = .wroteLiteral t := by
      obtain ⟨n, hn⟩ := C17_progress table (some m) [src] 0 src rfl _ h
      obtain ⟨r, hr⟩ := hn (List.replicate n 0) (by simp [turns])
      rw [(C17_interleaving table (some m) [src] _).1 0 src rfl] at hr
      have hr := Option.some.inj hr
      generalize turns (List.replicate n 0) 0 = n at hr
      rcases aloneFor_run (table := table) (names := some m) (src := src) n with
        ⟨_, _, h', _⟩ | ⟨_, h'⟩ | ⟨_, t, _, h', _⟩ | ⟨cur, r', o, h', hm, hret, _⟩
      · rw [h'] at hr; cases hr
      · rw [h'] at hr; cases hr
      · rw [h'] at hr; cases hr
      · have := returns_det h hret
        subst this
        cases r' with
        | err e => exact hm.elim
        | panic e => exact hm.elim
        | ok t' =>
          clear h hret hm hn hr
          -- go back from `finished (ok _)`: it can only come from wroteLiteral
          induction n with
          | zero => simp [aloneFor] at h'
          | succ n ih =>
            rcases aloneFor_run (table := table) (names := some m) (src := src) n with
              ⟨text, s, h2, _⟩ | ⟨_, h2⟩ | ⟨_, t, _, h2, _⟩ | ⟨cur2, r2, _, h2, _⟩
            · exfalso
              rw [aloneFor, h2] at h'
              simp only at h'
              rcases eos_or s with ⟨rest, heq⟩ | hneos
              · simp only [tstep, heq] at h'
                split at h'
                · cases h'
                · split at h'
                  · cases h'
                  · cases h'
              · rw [tstep_other hneos] at h'
                cases hst : step table (some m) text s with
                | next s' => rw [hst] at h'; cases h'
                | done o =>
                  cases o with
                  | ok t m' => exact step_not_ok hneos hst
                  | err e => rw [hst] at h'; cases h'
                  | panic e => rw [hst] at h'; cases h'
            · exfalso
              rw [aloneFor, h2] at h'
              simp only [tstep, Prod.mk.injEq] at h'
              have h'' := h'.2
              split at h''
              · cases h''
              · split at h''
                · cases h''
                · split at h'' <;> cases h''
            · exact ⟨n, t, by rw [h2]⟩
            · rw [aloneFor, h2] at h'
              simp only [tstep, Prod.mk.injEq] at h'
              obtain ⟨rfl, h''⟩ := h'
              cases h''
              exact ih h2
    obtain ⟨k, t', hk⟩ := hex
    cases k with
    | zero => cases hk
    | succ k =>
      refine ⟨k, ?_⟩
      rcases aloneFor_run (table := table) (names := some m) (src := src) k with
        ⟨text, s, h2, _⟩ | ⟨_, h2⟩ | ⟨m0, t, hm0, h2, _⟩ | ⟨cur2, r2, _, h2, _⟩
      · refine ⟨_, h2, text, s, ?_⟩
        rw [aloneFor, h2] at hk
        simp only at hk
        rcases eos_or s with ⟨rest, heq⟩ | hneos
        · simp only [tstep, heq] at hk
          split at hk
          · cases hk
          · rename_i hp
            split at hk
            · cases hk
            · rename_i n ps hps
              exact ⟨rest, n, ps, rfl, heq, hps, by simpa using hp⟩
        · rw [tstep_other hneos] at hk
          cases hst : step table (some m) text s with
          | next s' => rw [hst] at hk; cases hk
          | done o => rw [hst] at hk; cases o <;> cases hk
      · rw [aloneFor, h2] at hk
        simp only [tstep] at hk
        split at hk
        · cases hk
        · split at hk
          · cases hk
          · split at hk <;> cases hk
      · rw [aloneFor, h2] at hk; cases hk
      · rw [aloneFor, h2] at hk; cases hk
  obtain ⟨k₁, th₁, e₁, w₁⟩ := reach src₁ t₁ m₁ h₁
  obtain ⟨k₂, th₂, e₂, w₂⟩ := reach src₂ t₂ m₂ h₂
  -- run the first to its write, then the second; neither has written yet
  have solo1 : ∀ j, j ≤ k₁ → (aloneFor table (some m) src₁ j).1 = some m := by
    intro j hj
    rcases aloneFor_run (table := table) (names := some m) (src := src₁) j with
      ⟨text, s, h2, _⟩ | ⟨_, h2⟩ | ⟨m0, t, hm0, h2, _⟩ | ⟨cur2, r2, _, h2, _⟩
    · rw [h2]
    · rw [h2]
    · exfalso
      obtain ⟨text, s, _, _, _, hrun, _⟩ := w₁
      obtain ⟨d, hd⟩ := Nat.exists_eq_add_of_le hj
      rcases Nat.eq_zero_or_pos d with rfl | hpos
      · have hd' : k₁ = j := by omega
        rw [hd'] at e₁
        rw [e₁] at h2
        cases h2; cases hrun
      · have hfin : (aloneFor table (some m) src₁ (j + 1)).2 = .finished (.ok t) := by
          rw [aloneFor, h2]; rfl
        have := aloneFor_finished_stays hfin (d - 1)
        rw [show j + 1 + (d - 1) = k₁ by omega, e₁, hrun] at this
        cases this
    · exfalso
      obtain ⟨text, s, _, _, _, hrun, _⟩ := w₁
      obtain ⟨d, hd⟩ := Nat.exists_eq_add_of_le hj
      have hfin : (aloneFor table (some m) src₁ j).2 = .finished r2 := by rw [h2]
      have := aloneFor_finished_stays hfin d
      rw [← hd, e₁, hrun] at this
      cases this
  have solo2 : ∀ j, j ≤ k₂ → (aloneFor table (some m) src₂ j).1 = some m := by
    intro j hj
    rcases aloneFor_run (table := table) (names := some m) (src := src₂) j with
      ⟨text, s, h2, _⟩ | ⟨_, h2⟩ | ⟨m0, t, hm0, h2, _⟩ | ⟨cur2, r2, _, h2, _⟩
    · rw [h2]
    · rw [h2]
    · exfalso
      obtain ⟨text, s, _, _, _, hrun, _⟩ := w₂
      obtain ⟨d, hd⟩ := Nat.exists_eq_add_of_le hj
      rcases Nat.eq_zero_or_pos d with rfl | hpos
      · have hd' : k₂ = j := by omega
        rw [hd'] at e₂
        rw [e₂] at h2
        cases h2; cases hrun
      · have hfin : (aloneFor table (some m) src₂ (j + 1)).2 = .finished (.ok t) := by
          rw [aloneFor, h2]; rfl
        have := aloneFor_finished_stays hfin (d - 1)
        rw [show j + 1 + (d - 1) = k₂ by omega, e₂, hrun] at this
        cases this
    · exfalso
      obtain ⟨text, s, _, _, _, hrun, _⟩ := w₂
      obtain ⟨d, hd⟩ := Nat.exists_eq_add_of_le hj
      have hfin : (aloneFor table (some m) src₂ j).2 = .finished r2 := by rw [h2]
      have := aloneFor_finished_stays hfin d
      rw [← hd, e₂, hrun] at this
      cases this
  have run1 : ∀ j, j ≤ k₁ → (System.start (some m) [src₁, src₂]).runSchedule table (List.replicate j 0) =
      ⟨some m, [(aloneFor table (some m) src₁ j).2, .ready src₂]⟩ := by
    intro j
    induction j with
    | zero => intro _; rfl
    | succ j ih =>
      intro hj
      have hp : aloneFor table (some m) src₁ j = (some m, (aloneFor table (some m) src₁ j).2) :=
        Prod.ext (solo1 j (by omega)) rfl
      rw [List.replicate_succ', System.runSchedule, List.foldl_append]
      have := ih (by omega)
      unfold System.runSchedule at this
      rw [this]
      simp only [List.foldl_cons, List.foldl_nil, System.step, List.getElem?_cons_zero, List.set_cons_zero]
      have h3 := solo1 (j + 1) hj
      rw [aloneFor] at h3
      rw [hp] at h3
      rw [h3]
      congr 2
      rw [aloneFor]
      rw [hp]
  have run2 : ∀ j, j ≤ k₂ → (System.start (some m) [src₁, src₂]).runSchedule table
      (List.replicate k₁ 0 ++ List.replicate j 1) =
      ⟨some m, [th₁, (aloneFor table (some m) src₂ j).2]⟩ := by
    intro j
    induction j with
    | zero =>
      intro _
      rw [List.replicate_zero, List.append_nil, run1 k₁ (Nat.le_refl _), e₁]
      rfl
    | succ j ih =>
      intro hj
      have hp : aloneFor table (some m) src₂ j = (some m, (aloneFor table (some m) src₂ j).2) :=
        Prod.ext (solo2 j (by omega)) rfl
      rw [List.replicate_succ', ← List.append_assoc, System.runSchedule, List.foldl_append]
      have := ih (by omega)
      unfold System.runSchedule at this
      rw [this]
      simp only [List.foldl_cons, List.foldl_nil, System.step, List.getElem?_cons_succ,
        List.getElem?_cons_zero, List.set_cons_succ, List.set_cons_zero]
      have h3 := solo2 (j + 1) hj
      rw [aloneFor] at h3
      rw [hp] at h3
      rw [h3]
      congr 3
      rw [aloneFor]
      rw [hp]
  have abt : ∀ th, (∃ text s rest n ps, th = .run text s ∧
        s.opStack = .eos :: rest ∧ s.prodStack = n :: ps ∧ peek text s.offset = 0) →
      Thread.AboutToWrite table (some m) th := by
    rintro th ⟨text, s, rest, n, ps, rfl, ho, hps, hpk⟩
    refine ⟨m, builtinTerminal, b!"_literal", rfl, ?_, n, ?_⟩ <;> simp [tstep, ho, hps, hpk]
  refine ⟨List.replicate k₁ 0 ++ List.replicate k₂ 1, th₁, th₂, ?_, ?_, ?_⟩
  · rw [run2 k₂ (Nat.le_refl _), e₂]
  · rw [run2 k₂ (Nat.le_refl _)]; exact abt th₁ w₁
  · rw [run2 k₂ (Nat.le_refl _)]; exact abt th₂ w₂

/-- Two goroutines on `parenTable`: a schedule that alternates them; both finish with their own result. -/
example : (((System.start (some []) [.string [40, 41], .string [40]]).runSchedule parenTable
    (List.replicate 30 [0, 1]).flatten).threads.map (fun th => match th with
      | .finished (.ok t) => some t.stop
      | .finished (.err _) => none
      | _ => some 999)) = [some 2, none] := by decide +kernel

end LL1
