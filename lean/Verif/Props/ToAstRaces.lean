import Verif.Proofs.ToAstRaces
import Verif.Props.Slices

/-!
# C83: concurrent `ToAST` calls with one `IgnoreNodeTypes` slice
-/

namespace LL1
namespace FC

theorem sorted_eq {sort : Nat → Prog Unit} (hs : Sorts sort) (n : Nat) (mem : Mem) :
    ((sort n).run mem).1.list n = sortInts (mem.list n) :=
  List.Perm.eq_of_pairwise (fun _ _ _ _ h h' => Int.le_antisymm h h') (hs.ascending n mem) (sorted_sortInts _)
    ((hs.perm n mem).trans (sortInts_perm _).symm)

theorem toASTP_run {sort : Nat → Prog Unit} (hs : Sorts sort) (n : Nat) (mem : Mem) (c : PCall) :
    (c.bindings.toASTP sort n c.root c.str).run mem =
      (((sort n).run mem).1, (c.value n mem).toAST c.root c.str) := by
  unfold Bindings.toASTP
  rw [run_bind, toProg_run, toASTBodyQ_eval]
  unfold withList
  rw [sorted_eq hs]
  rfl

/-- **C83.** The element-by-element model is `ToAST`: a call run alone returns the conversion for the listed types and
leaves the slice in ascending order (any `sort.Sort` with the assumed behaviour; insertion sort has it). -/
theorem C83_alone (sort : Nat → Prog Unit) (hs : Sorts sort) (n : Nat) (mem : Mem) (c : PCall) :
    ((c.bindings.toASTP sort n c.root c.str).run mem).2 = (c.value n mem).toAST c.root c.str ∧
    ((c.bindings.toASTP sort n c.root c.str).run mem).1.list n = sortInts (mem.list n) ∧
    ∀ i, n ≤ i → ((c.bindings.toASTP sort n c.root c.str).run mem).1 i = mem i := by
  rw [toASTP_run hs]
  exact ⟨rfl, sorted_eq hs n mem, hs.outside n mem⟩

/-- **C83.** Go's insertion sort (`sort.Sort` on up to 12 elements) behaves as assumed. -/
theorem C83_insertionSort : Sorts insertionSort := insertionSort_sorts

/-! ## A list in ascending order -/

theorem toASTP_quiet {sort : Nat → Prog Unit} (hs : Sorts sort) {n : Nat} {mem : Mem} (ha : mem.Ascending n) (c : PCall) :
    (c.bindings.toASTP sort n c.root c.str).Quiet mem :=
  quiet_bind (hs.quiet n mem ha) fun _ => toProg_quiet _ _

/-- What stays true of a goroutine whose remaining program writes nothing. -/
structure Calm (mem : Mem) (r : R Grammar) (N : Nat) (p : Prog (R Grammar)) : Prop where
  quiet : p.Quiet mem
  result : (p.run mem).2 = r
  len : p.len mem ≤ N

theorem Calm.step {mem : Mem} {r : R Grammar} {N : Nat} {p : Prog (R Grammar)} (h : Calm mem r N p) :
    (p.step mem).1 = mem ∧ Calm mem r (N - 1) (p.step mem).2 := by
  obtain ⟨h1, h2, h3⟩ := h
  cases p with
  | ret a => exact ⟨rfl, h1, h2, by simp [Prog.step, Prog.len]⟩
  | read i k => exact ⟨rfl, h1, h2, by simp only [Prog.len] at h3; simp only [Prog.step]; omega⟩
  | write i x k => exact h1.elim

/-- All goroutines are calm; goroutine `i` needs at most `N i` more steps. -/
structure AllCalm (mem : Mem) (rs : List (R Grammar)) (N : Nat → Nat) (sys : PSystem) : Prop where
  same : sys.mem = mem
  len : sys.threads.length = rs.length
  calm : ∀ i p r, sys.threads[i]? = some p → rs[i]? = some r → Calm mem r (N i) p

theorem AllCalm.step {mem : Mem} {rs : List (R Grammar)} {N : Nat → Nat} {sys : PSystem} (h : AllCalm mem rs N sys)
    (j : Nat) : AllCalm mem rs (fun i => if i = j then N i - 1 else N i) (sys.step j) := by
  obtain ⟨h1, h2, h3⟩ := h
  unfold PSystem.step
  cases hj : sys.threads[j]? with
  | none =>
    refine ⟨h1, h2, fun i p r hp hr => ?_⟩
    have : i ≠ j := by rintro rfl; rw [hj] at hp; cases hp
    simp only [this, if_false]
    exact h3 i p r hp hr
  | some q =>
    have hlt : j < sys.threads.length := (List.getElem?_eq_some_iff.1 hj).1
    have hlt' : j < rs.length := h2 ▸ hlt
    have hc := (h3 j q rs[j] hj (List.getElem?_eq_getElem hlt')).step
    rw [h1]
    refine ⟨hc.1, by simpa using h2, fun i p r hp hr => ?_⟩
    simp only [List.getElem?_set] at hp
    by_cases hij : i = j
    · subst hij
      simp only [if_true, hlt, Option.some.injEq] at hp ⊢
      rw [List.getElem?_eq_getElem hlt', Option.some.injEq] at hr
      subst hp hr
      exact hc.2
    · rw [if_neg (fun e => hij e.symm)] at hp
      simp only [hij, if_false]
      exact h3 i p r hp hr

theorem AllCalm.schedule {mem : Mem} {rs : List (R Grammar)} (schedule : List Nat) : ∀ {N : Nat → Nat} {sys : PSystem},
    AllCalm mem rs N sys → AllCalm mem rs (fun i => N i - schedule.count i) (sys.runSchedule schedule) := by
  induction schedule with
  | nil => intro N sys h; exact h
  | cons j schedule ih =>
    intro N sys h
    have := ih (h.step j)
    have e : (fun i => (if i = j then N i - 1 else N i) - List.count i schedule) =
        fun i => N i - List.count i (j :: schedule) := by
      funext i
      rw [List.count_cons]
      by_cases h : i = j
      · subst h; simp; omega
      · have h' : ¬ j = i := fun e => h e.symm
        simp [h, h']
    rwa [e] at this

theorem AllCalm.start {sort : Nat → Prog Unit} (hs : Sorts sort) {n : Nat} {mem : Mem} (ha : mem.Ascending n)
    (calls : List PCall) : AllCalm mem (calls.map fun c => (c.value n mem).toAST c.root c.str)
      (fun i => match calls[i]? with | some c => (c.bindings.toASTP sort n c.root c.str).len mem | none => 0)
      (PSystem.start sort n mem calls) := by
  refine ⟨rfl, by simp [PSystem.start], fun i p r hp hr => ?_⟩
  simp only [PSystem.start, List.getElem?_map, Option.map_eq_some_iff] at hp hr
  obtain ⟨c, hc, rfl⟩ := hp
  obtain ⟨c', hc', rfl⟩ := hr
  rw [hc] at hc'
  cases hc'
  rw [hc]
  exact ⟨toASTP_quiet hs ha c, by rw [toASTP_run hs], Nat.le_refl _⟩

/-- **C83.** If the shared list is in ascending order, any number of concurrent `ToAST` calls is safe: whatever the
schedule, the slice never changes, no two goroutines race, a call that has returned returned what it returns alone, and
every call has returned once it was given enough steps. -/
theorem C83_ascending_safe (sort : Nat → Prog Unit) (hs : Sorts sort) (n : Nat) (mem : Mem) (ha : mem.Ascending n)
    (calls : List PCall) :
    (∀ schedule, ((PSystem.start sort n mem calls).runSchedule schedule).mem = mem ∧
      ¬ ((PSystem.start sort n mem calls).runSchedule schedule).Races) ∧
    ∀ (i : Nat) (c : PCall), calls[i]? = some c →
      (∀ schedule r, ((PSystem.start sort n mem calls).runSchedule schedule).threads[i]? = some (.ret r) →
        r = (c.value n mem).toAST c.root c.str) ∧
      ∃ N, ∀ schedule : List Nat, N ≤ schedule.count i →
        ((PSystem.start sort n mem calls).runSchedule schedule).threads[i]? =
          some (.ret ((c.value n mem).toAST c.root c.str)) := by
  have hc := fun schedule => (AllCalm.start hs ha calls).schedule schedule
  refine ⟨fun schedule => ⟨(hc schedule).same, ?_⟩, fun i c hi => ?_⟩
  · rintro ⟨i, j, p, q, a, _, hp, _, ⟨x, k, rfl⟩, _⟩
    have hlt := (List.getElem?_eq_some_iff.1 hp).1
    rw [(hc schedule).len] at hlt
    exact ((hc schedule).calm i _ _ hp (List.getElem?_eq_getElem hlt)).quiet
  · have hr : (calls.map fun c => (c.value n mem).toAST c.root c.str)[i]? = some ((c.value n mem).toAST c.root c.str) := by
      rw [List.getElem?_map, hi]; rfl
    refine ⟨fun schedule r h => ((hc schedule).calm i _ _ h hr).result,
      (c.bindings.toASTP sort n c.root c.str).len mem, fun schedule hN => ?_⟩
    have hlt : i < ((PSystem.start sort n mem calls).runSchedule schedule).threads.length := by
      rw [(hc schedule).len]; exact (List.getElem?_eq_some_iff.1 hr).1
    have hp := List.getElem?_eq_getElem hlt
    generalize ((PSystem.start sort n mem calls).runSchedule schedule).threads[i] = p at hp
    have h := (hc schedule).calm i p _ hp hr
    rw [hp]
    have hl := h.len
    simp only [hi] at hl
    have hl0 : p.len mem = 0 := by omega
    cases p with
    | ret a => exact congrArg (fun x => some (Prog.ret x)) h.result
    | read i k => simp [Prog.len] at hl0
    | write i x k => simp [Prog.len] at hl0

/-! ## A list that is not in ascending order -/

theorem steps_schedule {p : Prog (R Grammar)} (c : Nat) : ∀ {mem : Mem} {threads : List (Prog (R Grammar))} {i : Nat},
    threads[i]? = some p →
    (PSystem.mk mem threads).runSchedule (List.replicate c i) =
      ⟨(Prog.steps mem c p).1, threads.set i (Prog.steps mem c p).2⟩ := by
  induction c generalizing p with
  | zero =>
    intro mem threads i h
    obtain ⟨h1, h2⟩ := List.getElem?_eq_some_iff.1 h
    subst h2
    simp [PSystem.runSchedule, Prog.steps]
  | succ c ih =>
    intro mem threads i h
    have hlt := (List.getElem?_eq_some_iff.1 h).1
    have h' : (threads.set i (p.step mem).2)[i]? = some (p.step mem).2 := by simp [hlt]
    have := ih (mem := (p.step mem).1) h'
    simp only [PSystem.runSchedule, List.replicate_succ, List.foldl_cons] at this ⊢
    have e : PSystem.step ⟨mem, threads⟩ i = ⟨(p.step mem).1, threads.set i (p.step mem).2⟩ := by
      unfold PSystem.step; simp only [h]
    rw [e, this]
    simp [Prog.steps]

/-- **C83.** Concurrent `ToAST` calls with one `IgnoreNodeTypes` slice can race exactly if there are at least two of them
and the list is not in ascending order. -/
theorem C83_race_iff (sort : Nat → Prog Unit) (hs : Sorts sort) (n : Nat) (mem : Mem) (calls : List PCall) :
    (∃ schedule, ((PSystem.start sort n mem calls).runSchedule schedule).Races) ↔
      2 ≤ calls.length ∧ ¬ mem.Ascending n := by
  constructor
  · rintro ⟨schedule, hr⟩
    refine ⟨?_, fun ha => ((C83_ascending_safe sort hs n mem ha calls).1 schedule).2 hr⟩
    have hlen : ∀ (schedule : List Nat) (sys : PSystem),
        (sys.runSchedule schedule).threads.length = sys.threads.length := by
      intro schedule
      induction schedule with
      | nil => intro sys; rfl
      | cons j schedule ih =>
        intro sys
        have := ih (sys.step j)
        simp only [PSystem.runSchedule, List.foldl_cons] at this ⊢
        rw [this]
        unfold PSystem.step
        split
        · rfl
        · simp
    obtain ⟨i, j, p, q, a, hij, hp, hq, _⟩ := hr
    have h1 := (List.getElem?_eq_some_iff.1 hp).1
    have h2 := (List.getElem?_eq_some_iff.1 hq).1
    rw [hlen] at h1 h2
    simp only [PSystem.start, List.length_map] at h1 h2
    omega
  · rintro ⟨h2, hna⟩
    have hnq : ¬ (sort n).Quiet mem := by
      intro hq
      have := hs.ascending n mem
      rw [quiet_run hq] at this
      exact hna this
    obtain ⟨c, a, x, k, hc⟩ := steps_to_write hnq
    match calls, h2 with
    | c0 :: c1 :: rest, _ =>
      let P0 : Prog (R Grammar) := c0.bindings.toASTP sort n c0.root c0.str
      let P1 : Prog (R Grammar) := c1.bindings.toASTP sort n c1.root c1.str
      have e0 : Prog.steps mem c P0 = (mem, .write a x (k >>= fun _ => (c0.bindings.toASTBodyQ n c0.root c0.str).toProg)) :=
        hc _
      have e1 : Prog.steps mem c P1 = (mem, .write a x (k >>= fun _ => (c1.bindings.toASTBodyQ n c1.root c1.str).toProg)) :=
        hc _
      refine ⟨List.replicate c 0 ++ List.replicate c 1, ?_⟩
      have s0 := steps_schedule (p := P0) c (mem := mem)
        (threads := (c0 :: c1 :: rest).map fun c => c.bindings.toASTP sort n c.root c.str) (i := 0) rfl
      rw [e0] at s0
      have s1 := steps_schedule (p := P1) c (mem := mem)
        (threads := ((c0 :: c1 :: rest).map fun c => c.bindings.toASTP sort n c.root c.str).set 0
          (.write a x (k >>= fun _ => (c0.bindings.toASTBodyQ n c0.root c0.str).toProg))) (i := 1) rfl
      rw [e1] at s1
      have s2 : (PSystem.start sort n mem (c0 :: c1 :: rest)).runSchedule (List.replicate c 0 ++ List.replicate c 1) =
          (PSystem.runSchedule ((PSystem.start sort n mem (c0 :: c1 :: rest)).runSchedule (List.replicate c 0))
            (List.replicate c 1)) := by
        simp only [PSystem.runSchedule, List.foldl_append]
      rw [s2]
      have s0' : (PSystem.start sort n mem (c0 :: c1 :: rest)).runSchedule (List.replicate c 0) = _ := s0
      rw [s0', s1]
      exact ⟨0, 1, _, _, a, by decide, rfl, rfl, ⟨x, _, rfl⟩, .inr ⟨x, _, rfl⟩⟩

/-- The package's own bindings list one type, so they can be shared freely. -/
example (mem : Mem) : mem.Ascending 1 := List.pairwise_singleton _ _

/-- The result of a goroutine that has returned. -/
def Prog.result? : Prog (R Grammar) → Option (R Grammar)
  | .ret r => some r
  | _ => none

/-- Two calls on the tree of `<a>::="b"` with a comment node (type 25) in it. -/
def harmCall : PCall := ⟨selfBindings, overlapTree, b!"<a>::=\"b\""⟩

/-- **C83.** The race does harm.  With the list `26, 25`, both goroutines compare the two elements before either swaps
them; the swaps cancel, the list is out of order when the second call looks types up in it, and that call fails, although
alone it succeeds. -/
theorem C83_wrong_result :
    let mem : Mem := fun i => if i = 0 then 26 else 25
    (harmCall.value 2 mem).toAST overlapTree harmCall.str = .ok ⟨[⟨b!"a", ⟨[⟨[.terminal b!"b"]⟩]⟩⟩]⟩ ∧
    ∃ schedule, (((PSystem.start insertionSort 2 mem [harmCall, harmCall]).runSchedule schedule).threads[1]?.bind
      Prog.result?) = some (.err (.noRuleName b!"<a>::=\"b\"")) := by
  refine ⟨by decide +kernel, [0, 0] ++ [1, 1] ++ List.replicate 4 0 ++ List.replicate 100 1, by decide +kernel⟩

/-- **C83.** And it can do lasting harm.  With the list `30, 26, 25`: one goroutine has read two elements to swap them when
the other one sorts the whole list; its two writes then destroy the entry 25.  Both calls have returned, the list is
`26, 30, 30`, and every later call fails. -/
theorem C83_entry_lost :
    let mem : Mem := fun i => if i = 0 then 30 else if i = 1 then 26 else 25
    (harmCall.value 3 mem).toAST overlapTree harmCall.str = .ok ⟨[⟨b!"a", ⟨[⟨[.terminal b!"b"]⟩]⟩⟩]⟩ ∧
    ∃ schedule, let sys := (PSystem.start insertionSort 3 mem [harmCall, harmCall]).runSchedule schedule
      (sys.threads.map Prog.result?).all Option.isSome = true ∧ sys.mem.list 3 = [26, 30, 30] ∧
      (harmCall.value 3 sys.mem).toAST overlapTree harmCall.str = .err (.noRuleName b!"<a>::=\"b\"") := by
  refine ⟨by decide +kernel, List.replicate 4 0 ++ List.replicate 200 1 ++ List.replicate 200 0, by decide +kernel⟩

end FC
end LL1
