import Verif.Props.Memory
import Verif.Props.Hang

/-!
# A call that does not return fills the operation stack

Every operation that pushes anything leaves a `function` at the place where it was itself; such a place is emptied the next
time it is the top.  So in an endless run each height of the stack is the top at most twice after the last time that the
stack was lower.
-/

namespace LL1.HangMem

variable {tbl : Table} {names : Option Names} {src : Str}

theorem step_shape {s s' : PState} (h : step tbl names src s = .next s') :
    ∃ op rest, s.opStack = op :: rest ∧
      (s'.opStack = rest ∨ ∃ pre n pos a, s'.opStack = pre ++ .function n pos a :: rest) := by
  obtain ⟨i, S, P⟩ := s
  cases S with
  | nil => simp [step] at h
  | cons op S =>
    refine ⟨op, S, rfl, ?_⟩
    cases op with
    | nonTerminal n =>
      rw [step_nonTerminal] at h
      cases hb : bodyFor tbl n (byteAt src i) with
      | none => rw [hb] at h; cases h
      | some body => rw [hb] at h; cases h; exact .inr ⟨body, _, _, _, rfl⟩
    | terminal s => simp only [step, processTerminal] at h; cases h; exact .inr ⟨_, _, _, _, rfl⟩
    | function n pos a =>
      by_cases ha : a = 0
      · simp only [step, processFunction, ha, if_true] at h; cases h; exact .inl rfl
      · simp only [step, processFunction, ha, if_false] at h
        cases hp : popChilds (decide (n = builtinTerminal)) a P [] with
        | error p => rw [hp] at h; cases h
        | ok r => rw [hp] at h; cases h; exact .inl rfl
    | char c =>
      by_cases hne : c ≠ peek src i
      · simp only [step, processChar, if_pos hne] at h; cases h
      · simp only [step, processChar, if_neg hne] at h; cases h; exact .inl rfl
    | eos => simp [step] at h
    | nil => simp [step] at h

theorem step_function {s s' : PState} {n : Int} {pos a : Nat} {rest : List ParserOp}
    (hs : s.opStack = .function n pos a :: rest) (h : step tbl names src s = .next s') : s'.opStack = rest := by
  obtain ⟨i, S, P⟩ := s
  simp only at hs
  subst hs
  by_cases ha : a = 0
  · simp only [step, processFunction, ha, if_true] at h; cases h; rfl
  · simp only [step, processFunction, ha, if_false] at h
    cases hp : popChilds (decide (n = builtinTerminal)) a P [] with
    | error p => rw [hp] at h; cases h
    | ok r => rw [hp] at h; cases h; rfl

theorem tends {g : Nat → PState} (hg : ∀ k, step tbl names src (g k) = .next (g (k + 1))) (M : Nat) :
    ∃ t0, ∀ t, t0 ≤ t → M < (g t).opStack.length := by
  induction M with
  | zero =>
    refine ⟨0, fun t _ => ?_⟩
    obtain ⟨op, rest, h, _⟩ := step_shape (hg t)
    rw [h]; simp
  | succ M ih =>
    obtain ⟨t0, h0⟩ := ih
    apply Classical.byContradiction
    intro hc
    have hlow : ∀ t1, ∃ t, t1 ≤ t ∧ t0 ≤ t ∧ (g t).opStack.length = M + 1 := by
      intro t1
      apply Classical.byContradiction
      intro hn
      apply hc
      refine ⟨t0 + t1, fun t ht => ?_⟩
      have h1 := h0 t (by omega)
      have h2 : (g t).opStack.length ≠ M + 1 := fun h => hn ⟨t, by omega, by omega, h⟩
      omega
    obtain ⟨t, _, ht, hl⟩ := hlow 0
    obtain ⟨op, rest, hs, hn⟩ := step_shape (hg t)
    have hr : rest.length = M := by rw [hs] at hl; simpa using hl
    have hne : ∀ j, t0 ≤ j → (g j).opStack ≠ rest := by
      intro j hj he
      have := h0 j hj
      rw [he] at this
      omega
    obtain ⟨pre, n, pos, a, hpre⟩ := hn.resolve_left (hne (t + 1) (by omega))
    have hall : ∀ j, ∃ pre, (g (t + 1 + j)).opStack = pre ++ .function n pos a :: rest := by
      intro j
      induction j with
      | zero => exact ⟨pre, hpre⟩
      | succ j ih =>
        obtain ⟨pre, hp⟩ := ih
        cases pre with
        | nil => exact absurd (step_function hp (hg _)) (hne _ (by omega))
        | cons x pre =>
          obtain ⟨op, rest', h1, h2⟩ := step_shape (hg (t + 1 + j))
          rw [hp] at h1
          simp only [List.cons_append, List.cons.injEq] at h1
          obtain ⟨_, rfl⟩ := h1
          rcases h2 with h2 | ⟨q, n', pos', a', h2⟩
          · exact ⟨pre, h2⟩
          · exact ⟨q ++ .function n' pos' a' :: pre, by rw [show t + 1 + (j + 1) = t + 1 + j + 1 by omega, h2]; simp⟩
    obtain ⟨t', h1, _, h3⟩ := hlow (t + 1)
    obtain ⟨pre', hp⟩ := hall (t' - (t + 1))
    rw [show t + 1 + (t' - (t + 1)) = t' by omega] at hp
    have : pre' = [] := by
      rw [hp] at h3
      cases pre' with
      | nil => rfl
      | cons x l => simp at h3; omega
    subst this
    exact hne (t' + 1) (by omega) (step_function hp (hg t'))

/-- An endless run as a sequence. -/
theorem run_of_none (h : ∀ f, runFuel tbl names src f initState = none) :
    ∃ g : Nat → PState, g 0 = initState ∧ (∀ k, step tbl names src (g k) = .next (g (k + 1))) := by
  have hnext : ∀ s, (∀ f, runFuel tbl names src f s = none) →
      ∃ s', step tbl names src s = .next s' ∧ ∀ f, runFuel tbl names src f s' = none := by
    intro s hs
    cases hst : step tbl names src s with
    | next s' => exact ⟨s', rfl, fun f => by have := hs (f + 1); rw [runFuel, hst] at this; exact this⟩
    | done o => have := hs 1; rw [runFuel, hst] at this; cases this
  let next : { s // ∀ f, runFuel tbl names src f s = none } → { s // ∀ f, runFuel tbl names src f s = none } :=
    fun s => ⟨Classical.choose (hnext s.1 s.2), (Classical.choose_spec (hnext s.1 s.2)).2⟩
  let g : Nat → { s // ∀ f, runFuel tbl names src f s = none } := fun k => Nat.rec ⟨initState, h⟩ (fun _ s => next s) k
  exact ⟨fun k => (g k).1, rfl, fun k => (Classical.choose_spec (hnext (g k).1 (g k).2)).1⟩

theorem reaches_unique {k : Nat} {s s' : PState} (h : Reaches tbl names src k s) (h' : Reaches tbl names src k s') : s = s' := by
  induction h generalizing s' with
  | start => cases h'; rfl
  | step _ h2 ih =>
    cases h' with
    | step h3 h4 => cases ih h3; rw [h2] at h4; cases h4; rfl

theorem reaches_run {g : Nat → PState} (h0 : g 0 = initState) (hg : ∀ k, step tbl names src (g k) = .next (g (k + 1))) (k : Nat) :
    Reaches tbl names src k (g k) := by
  induction k with
  | zero => rw [h0]; exact .start
  | succ k ih => exact .step ih (hg k)

end LL1.HangMem
