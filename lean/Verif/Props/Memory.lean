import Verif.Props.Linear
import Verif.Props.Exact

/-!
# C65: memory and integers of a running parser
-/

namespace LL1

/-- The state of the parser after `k` iterations of its loop. -/
inductive Reaches (tbl : Table) (names : Option Names) (src : Str) : Nat → PState → Prop where
  | start : Reaches tbl names src 0 initState
  | step {k : Nat} {s s' : PState} : Reaches tbl names src k s → step tbl names src s = .next s' →
      Reaches tbl names src (k + 1) s'

namespace Mem

variable {tbl : Table} {names : Option Names} {src : Str}

theorem reaches_run {k : Nat} {s : PState} (h : Reaches tbl names src k s) (f : Nat) :
    runFuel tbl names src (f + k) initState = runFuel tbl names src f s := by
  induction h generalizing f with
  | start => rfl
  | @step k s s' _ hs ih =>
    rw [show f + (k + 1) = (f + 1) + k by omega, ih, runFuel, hs]

theorem reaches_lt {k N : Nat} {s : PState} {o : Outcome} (h : Reaches tbl names src k s)
    (hN : runFuel tbl names src N initState = some o) : k < N := by
  apply Nat.lt_of_not_le
  intro hle
  have h1 := runFuel_mono_le hN hle
  have h2 := reaches_run h 0
  rw [Nat.zero_add, h1] at h2
  simp [runFuel] at h2

/-- What is known of an operation on the stack: `B` bounds the table's bodies and literals, `j` is the offset. -/
def OpOk (B j : Nat) : ParserOp → Prop
  | .terminal t => t.length ≤ B ∧ (0 : UInt8) ∉ t
  | .char c => c ≠ 0
  | .function _ p a => p ≤ j ∧ a ≤ B
  | _ => True

theorem OpOk.mono {B j k : Nat} (h : j ≤ k) {op : ParserOp} (ho : OpOk B j op) : OpOk B k op := by
  cases op <;> simp_all [OpOk]; omega

/-- Every node of the tree lies in `[0, j]`. -/
def NodeOk (j : Nat) (t : Node) : Prop := ∀ n ∈ preorder t, n.pos ≤ n.stop ∧ n.stop ≤ j

theorem NodeOk.mono {j k : Nat} (h : j ≤ k) {t : Node} (ht : NodeOk j t) : NodeOk k t :=
  fun n hn => ⟨(ht n hn).1, Nat.le_trans (ht n hn).2 h⟩

theorem NodeOk.mk {j : Nat} {t : Int} {a b : Nat} {cs : List Node} (h1 : a ≤ b) (h2 : b ≤ j)
    (hc : ∀ c ∈ cs, NodeOk j c) : NodeOk j (.mk t a b cs) := by
  intro n hn
  rw [preorder_mk, List.mem_cons] at hn
  rcases hn with rfl | hn
  · exact ⟨h1, h2⟩
  · obtain ⟨l, hl, hn⟩ := List.mem_flatten.1 hn
    obtain ⟨c, hc', rfl⟩ := List.mem_map.1 hl
    exact hc c hc' n hn

theorem popChilds_mem {d : Bool} {k : Nat} {st acc cs st' : List Node}
    (h : popChilds d k st acc = .ok (cs, st')) :
    (∀ c ∈ cs, c ∈ acc ∨ c ∈ st) ∧ (∀ c ∈ st', c ∈ st) ∧ st'.length ≤ st.length := by
  induction k generalizing st acc with
  | zero =>
    simp only [popChilds] at h; cases h
    exact ⟨fun c hc => .inl hc, fun c hc => hc, Nat.le_refl _⟩
  | succ k ih =>
    cases st with
    | nil => simp [popChilds] at h
    | cons n st =>
      simp only [popChilds] at h
      split at h
      · obtain ⟨h1, h2, h3⟩ := ih h
        refine ⟨fun c hc => ?_, fun c hc => .tail _ (h2 c hc), by simp; omega⟩
        rcases h1 c hc with h | h
        · rcases List.mem_cons.1 h with rfl | h
          · exact .inr (.head _)
          · exact .inl h
        · exact .inr (.tail _ h)
      · split at h
        · cases h
        · obtain ⟨h1, h2, h3⟩ := ih h
          refine ⟨fun c hc => ?_, fun c hc => .tail _ (h2 c hc), by simp; omega⟩
          rcases h1 c hc with h | h
          · exact .inl h
          · exact .inr (.tail _ h)

theorem popChilds_shorter {d : Bool} {k : Nat} {st acc cs st' : List Node} (hk : k ≠ 0)
    (h : popChilds d k st acc = .ok (cs, st')) : st'.length < st.length := by
  cases k with
  | zero => exact absurd rfl hk
  | succ k =>
    cases st with
    | nil => simp [popChilds] at h
    | cons n st =>
      simp only [popChilds] at h
      split at h
      · have := (popChilds_mem h).2.2; simp; omega
      · split at h
        · cases h
        · have := (popChilds_mem h).2.2; simp; omega

/-- The invariant after `k` iterations. -/
structure Inv (B : Nat) (src : Str) (k : Nat) (s : PState) : Prop where
  offset : s.offset ≤ src.length
  ops : ∀ op ∈ s.opStack, OpOk B s.offset op
  nodes : ∀ t ∈ s.prodStack, NodeOk s.offset t
  opLen : s.opStack.length ≤ 2 + B * k
  prodLen : s.prodStack.length ≤ k

theorem le_sum_of_mem {l : List Nat} {x : Nat} (h : x ∈ l) : x ≤ l.sum := by
  induction l with
  | nil => cases h
  | cons y l ih =>
    rw [List.sum_cons]
    rcases List.mem_cons.1 h with rfl | h
    · omega
    · have := ih h; omega

/-- `B` bounds the number of operations of a body and the length of its literals (built-ins included). -/
def Bounded (tbl : Table) (B : Nat) : Prop :=
  ∀ n b body, bodyFor tbl n b = some body →
    body.length ≤ B ∧ ∀ op ∈ body, match op with | .terminal t => t.length ≤ B | _ => True

theorem exists_bounded (tbl : Table) : ∃ B, Bounded tbl B := by
  obtain ⟨B, hB⟩ := Lin.bounded tbl (fun _ _ body =>
    body.length + (body.map fun op => match op with | .terminal t => t.length | _ => 0).sum)
  refine ⟨B, fun n b body h => ?_⟩
  have := hB n b body h
  refine ⟨by omega, fun op hop => ?_⟩
  cases op with
  | terminal t =>
    have hm : t.length ∈ body.map fun op => match op with | .terminal t => t.length | _ => 0 :=
      List.mem_map.2 ⟨.terminal t, hop, rfl⟩
    have := le_sum_of_mem hm
    simp only
    omega
  | _ => trivial

theorem bodyFor_isPublic (hpub : tbl.Public) {n : Int} {b : UInt8} {body : List ParserOp}
    (h : bodyFor tbl n b = some body) : ∀ op ∈ body, op.Public := by
  unfold bodyFor at h
  split at h
  · cases hr : tbl.get n with
    | none => simp [hr] at h
    | some row => exact hpub n row b body hr (by simpa [hr] using h)
  · split at h
    · split at h
      · cases h; simp [ParserOp.Public]
      · split at h
        · cases h; simp [ParserOp.Public]
        · cases h
    · cases h

theorem inv_step (hpub : tbl.Public) (hnf : tbl.NulFree) {B : Nat} (hB : Bounded tbl B) {k : Nat} {s s' : PState}
    (hi : Inv B src k s) (h : step tbl names src s = .next s') : Inv B src (k + 1) s' := by
  obtain ⟨i, ops, P⟩ := s
  obtain ⟨h1, h2, h3, h4, h5⟩ := hi
  simp only at h1 h2 h3 h4 h5
  cases ops with
  | nil => simp [step] at h
  | cons op S =>
    have hS : ∀ o ∈ S, OpOk B i o := fun o ho => h2 o (.tail _ ho)
    have hop := h2 op (.head _)
    simp only [List.length_cons] at h4
    have hBk : B * (k + 1) = B * k + B := by rw [Nat.mul_add, Nat.mul_one]
    cases op with
    | nonTerminal n =>
      rw [step_nonTerminal] at h
      cases hb : bodyFor tbl n (byteAt src i) with
      | none => rw [hb] at h; cases h
      | some body =>
        rw [hb] at h
        cases h
        obtain ⟨hl, hbt⟩ := hB n _ body hb
        refine ⟨h1, ?_, h3, ?_, by simp only; omega⟩
        · intro o ho
          simp only at ho ⊢
          rcases List.mem_append.1 ho with ho | ho
          · cases o with
            | terminal t => exact ⟨hbt _ ho, bodyFor_nulFree hnf hb t ho⟩
            | nonTerminal m => trivial
            | eos => trivial
            | nil => trivial
            | char c => exact (bodyFor_isPublic hpub hb _ ho).elim
            | function a b c => exact (bodyFor_isPublic hpub hb _ ho).elim
          · rcases List.mem_cons.1 ho with rfl | ho
            · exact ⟨Nat.le_refl _, hl⟩
            · exact hS o ho
        · simp only [List.length_append, List.length_cons]
          omega
    | terminal t =>
      simp only [step, processTerminal] at h
      cases h
      refine ⟨h1, ?_, h3, ?_, by simp only; omega⟩
      · intro o ho
        simp only at ho ⊢
        rcases List.mem_append.1 ho with ho | ho
        · obtain ⟨c, hc, rfl⟩ := List.mem_map.1 ho
          intro h0
          subst h0
          exact hop.2 hc
        · rcases List.mem_cons.1 ho with rfl | ho
          · exact ⟨Nat.le_refl _, hop.1⟩
          · exact hS o ho
      · have := hop.1
        simp only [List.length_append, List.length_map, List.length_cons]
        omega
    | function n p a =>
      simp only [step, processFunction] at h
      split at h
      · cases h
        refine ⟨h1, hS, ?_, by simp only; omega, by simp only [List.length_cons]; omega⟩
        intro t ht
        rcases List.mem_cons.1 ht with rfl | ht
        · refine NodeOk.mk (Nat.le_refl _) (Nat.le_refl _) ?_
          intro c hc
          rw [List.mem_singleton] at hc
          subst hc
          exact NodeOk.mk (Nat.le_refl _) (Nat.le_refl _) (fun _ h => by cases h)
        · exact h3 t ht
      · next ha =>
        split at h
        · cases h
        · next hp =>
          cases h
          obtain ⟨hm1, hm2, _⟩ := popChilds_mem hp
          have hsh := popChilds_shorter ha hp
          refine ⟨h1, hS, ?_, by simp only; omega, by simp only [List.length_cons]; omega⟩
          intro t ht
          rcases List.mem_cons.1 ht with rfl | ht
          · refine NodeOk.mk hop.1 (Nat.le_refl _) fun c hc => ?_
            rcases hm1 c hc with h | h
            · cases h
            · exact h3 c h
          · exact h3 t (hm2 t ht)
    | eos => simp [step] at h
    | char c =>
      simp only [step, processChar, peek_eq] at h
      split at h
      · cases h
      · next hc =>
        cases h
        have hlt : i < src.length := by
          apply Nat.lt_of_not_le
          intro hle
          rw [byteAt_ge hle] at hc
          exact hop (Classical.not_not.1 hc)
        refine ⟨hlt, fun o ho => (hS o ho).mono (Nat.le_succ i), ?_, by simp only; omega,
          by simp only [List.length_cons]; omega⟩
        intro t ht
        rcases List.mem_cons.1 ht with rfl | ht
        · exact NodeOk.mk (Nat.le_succ i) (Nat.le_refl _) (fun _ h => by cases h)
        · exact (h3 t ht).mono (Nat.le_succ i)
    | nil => simp [step] at h

theorem inv_reaches (hpub : tbl.Public) (hnf : tbl.NulFree) {B : Nat} (hB : Bounded tbl B) {k : Nat} {s : PState}
    (h : Reaches tbl names src k s) : Inv B src k s := by
  induction h with
  | start =>
    refine ⟨Nat.zero_le _, ?_, ?_, by simp [initState], by simp [initState]⟩
    · intro op ho
      simp only [initState, List.mem_cons, List.not_mem_nil, or_false] at ho
      rcases ho with rfl | rfl <;> trivial
    · intro t ht; simp [initState] at ht
  | step _ hs ih => exact inv_step hpub hnf hB ih hs

/-- Without any condition on the bytes of the literals: the length of the operation stack after `k` iterations. -/
structure Inv' (B : Nat) (k : Nat) (s : PState) : Prop where
  ops : ∀ t, .terminal t ∈ s.opStack → t.length ≤ B
  opLen : s.opStack.length ≤ 2 + B * k

theorem inv'_step {B : Nat} (hB : Bounded tbl B) {k : Nat} {s s' : PState}
    (hi : Inv' B k s) (h : step tbl names src s = .next s') : Inv' B (k + 1) s' := by
  obtain ⟨i, ops, P⟩ := s
  obtain ⟨h2, h4⟩ := hi
  simp only at h2 h4
  cases ops with
  | nil => simp [step] at h
  | cons op S =>
    have hS : ∀ t, .terminal t ∈ S → t.length ≤ B := fun o ho => h2 o (.tail _ ho)
    simp only [List.length_cons] at h4
    have hBk : B * (k + 1) = B * k + B := by rw [Nat.mul_add, Nat.mul_one]
    cases op with
    | nonTerminal n =>
      rw [step_nonTerminal] at h
      cases hb : bodyFor tbl n (byteAt src i) with
      | none => rw [hb] at h; cases h
      | some body =>
        rw [hb] at h
        cases h
        obtain ⟨hl, hbt⟩ := hB n _ body hb
        refine ⟨fun t ht => ?_, ?_⟩
        · rcases List.mem_append.1 ht with ho | ho
          · exact hbt _ ho
          · rcases List.mem_cons.1 ho with ho | ho
            · cases ho
            · exact hS t ho
        · simp only [List.length_append, List.length_cons]
          omega
    | terminal t =>
      have hop := h2 t (.head _)
      simp only [step, processTerminal] at h
      cases h
      refine ⟨fun u hu => ?_, ?_⟩
      · rcases List.mem_append.1 hu with ho | ho
        · obtain ⟨c, _, hc⟩ := List.mem_map.1 ho
          cases hc
        · rcases List.mem_cons.1 ho with ho | ho
          · cases ho
          · exact hS u ho
      · simp only [List.length_append, List.length_map, List.length_cons]
        omega
    | function n p a =>
      simp only [step, processFunction] at h
      split at h
      · cases h
        exact ⟨hS, by simp only; omega⟩
      · split at h
        · cases h
        · cases h
          exact ⟨hS, by simp only; omega⟩
    | eos => simp [step] at h
    | char c =>
      simp only [step, processChar, peek_eq] at h
      split at h
      · cases h
      · cases h
        exact ⟨hS, by simp only; omega⟩
    | nil => simp [step] at h

theorem inv'_reaches {B : Nat} (hB : Bounded tbl B) {k : Nat} {s : PState}
    (h : Reaches tbl names src k s) : Inv' B k s := by
  induction h with
  | start =>
    refine ⟨fun t ht => ?_, by simp [initState]⟩
    simp [initState] at ht
  | step _ hs ih => exact inv'_step hB ih hs

end Mem

/-- **C65.** Integers stay small: there is a bound `B` depending on the table only such that in every state of every run
the offset, every position recorded for a pending node and every position in a finished node are at most the length of
the source, and every recorded number of children is at most `B`. -/
theorem C65_integers (tbl : Table) (hpub : tbl.Public) (hnf : tbl.NulFree) :
    ∃ B, ∀ (names : Option Names) (text : Str) (k : Nat) (s : PState), Reaches tbl names text k s →
      s.offset ≤ text.length ∧
      (∀ n pos amount, .function n pos amount ∈ s.opStack → pos ≤ text.length ∧ amount ≤ B) ∧
      (∀ t ∈ s.prodStack, ∀ n ∈ preorder t, n.pos ≤ n.stop ∧ n.stop ≤ text.length) := by
  obtain ⟨B, hB⟩ := Mem.exists_bounded tbl
  refine ⟨B, fun names text k s h => ?_⟩
  have hi := Mem.inv_reaches hpub hnf hB h
  refine ⟨hi.offset, fun n pos amount hm => ?_, fun t ht n hn => ?_⟩
  · obtain ⟨h1, h2⟩ := hi.ops _ hm
    exact ⟨Nat.le_trans h1 hi.offset, h2⟩
  · exact ⟨(hi.nodes t ht n hn).1, Nat.le_trans (hi.nodes t ht n hn).2 hi.offset⟩

theorem Mem.linear_memory {tbl : Table} (he : tbl.HasEntry)
    (hlin : ∃ K, ∀ (names : Option Names) (src : Source) (text : Str), readSource src = .ok text →
      ∃ o, (Parser.mk tbl names).parseFuel (K * (text.length + 1)) src = some o) :
    ∃ M, ∀ (names : Option Names) (text : Str) (k : Nat) (s : PState), Reaches tbl names text k s →
      s.opStack.length + nodesOn s.prodStack ≤ M * (text.length + 1) := by
  obtain ⟨B, hB⟩ := Mem.exists_bounded tbl
  obtain ⟨K, hK⟩ := hlin
  refine ⟨2 + (B + 2) * K, fun names text k s h => ?_⟩
  obtain ⟨o, ho⟩ := hK names (.string text) text rfl
  rw [parseFuel_eq (p := ⟨tbl, names⟩) he rfl] at ho
  have hlt := Mem.reaches_lt h ho
  have hi := Mem.inv'_reaches hB h
  have hnodes : nodesOn s.prodStack ≤ 2 * k := by
    clear hi hlt
    induction h with
    | start => simp [initState]
    | step _ hs ih => have := step_nodes hs; omega
  have hop := hi.opLen
  have h1 : B * k ≤ B * (K * (text.length + 1)) := Nat.mul_le_mul_left _ (Nat.le_of_lt hlt)
  have h2 : (2 + (B + 2) * K) * (text.length + 1) =
      2 * (text.length + 1) + B * (K * (text.length + 1)) + 2 * (K * (text.length + 1)) := by
    rw [Nat.add_mul, Nat.mul_assoc, Nat.add_mul]; omega
  omega

/-- **C65.** Memory is linear: for every table without left recursion (ranked as in C20) there is a constant `M` such
that at every moment of every run the two stacks, with all nodes built so far, hold at most `M * (len(src) + 1)`
items. -/
theorem C65_linear_memory (tbl : Table) (he : tbl.HasEntry) (hpub : tbl.Public) (hnf : tbl.NulStartFree)
    (rank : Int → UInt8 → Nat)
    (hrank : ∀ n row b body, tbl.get n = some row → GoMap.get row b = some body →
      ∀ m, 0 ≤ m → .nonTerminal m ∈ untilLiteral body → rank m b < rank n b) :
    ∃ M, ∀ (names : Option Names) (text : Str) (k : Nat) (s : PState), Reaches tbl names text k s →
      s.opStack.length + nodesOn s.prodStack ≤ M * (text.length + 1) :=
  Mem.linear_memory he (C52_linear_time tbl he hpub hnf rank hrank)

/-- **C65.** The same for the parser generated from an LL(1) grammar. -/
theorem C65_linear_memory_ll1 (order : Order) (g : Grammar) (tbl : Table) (names : Names)
    (h : fromGrammar order g = .ok (tbl, names)) (hz : g.NulStartFree) (hll : IsLL1 g) :
    ∃ M, ∀ (nm : Option Names) (text : Str) (k : Nat) (s : PState), Reaches tbl nm text k s →
      s.opStack.length + nodesOn s.prodStack ≤ M * (text.length + 1) := by
  have hc := fromGrammar_closedTable h
  exact Mem.linear_memory hc.hasEntry
    (C52_linear_time_ll1 order g tbl names h hz hll)

/-- A state in the middle of a run: two iterations of `nested` on `(x)`. -/
example : ∃ s, Reaches Ex.nestedTable none b!"(x)" 2 s ∧ s.opStack.length = 7 ∧ s.offset = 0 :=
  ⟨_, .step (.step .start rfl) rfl, rfl, rfl⟩

/-- `C65_integers` needs NUL-free literals: with `0 → "\0" 0` the offset runs past the end of the empty source. -/
example : ∃ s k, Reaches [(0, [(0, [.terminal [0], .nonTerminal 0])])] none [] k s ∧ s.offset = 1 :=
  ⟨_, _, .step (.step (.step .start rfl) rfl) rfl, rfl⟩

end LL1
