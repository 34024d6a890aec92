import Verif.Spec.Renumber
import Verif.Proofs.ParserTop

/-!
# The parser does not look at row numbers
-/

namespace LL1

variable {σ : Int → Int} {tbl tbl' : Table} {m m' : Names}

@[simp] theorem renumber_type (t : Node) : (t.renumber σ).type = σ t.type := by cases t; rfl

theorem renumberAll_eq (cs : List Node) : Node.renumberAll σ cs = cs.map (Node.renumber σ) := by
  induction cs with
  | nil => rfl
  | cons c cs ih => rw [Node.renumberAll, ih, List.map_cons]

/-- The state with its numbers changed. -/
def PState.renumber (σ : Int → Int) (s : PState) : PState :=
  ⟨s.offset, s.opStack.map (ParserOp.renumber σ), s.prodStack.map (Node.renumber σ)⟩

/-- The outcome with its numbers changed. -/
def Outcome.renumber (σ : Int → Int) (m' : Names) : Outcome → Outcome
  | .ok t _ => .ok (t.renumber σ) (addBuiltinNames m')
  | o => o

def StepRes.renumber (σ : Int → Int) (m' : Names) : StepRes → StepRes
  | .next s => .next (s.renumber σ)
  | .done o => .done (o.renumber σ m')

namespace Renumbered

section
variable (h : Renumbered σ tbl tbl' m m')
include h

theorem eq_neg {n k : Int} (hk : k < 0) : σ n = k ↔ n = k := by
  constructor
  · intro he
    by_cases hn : n < 0
    · rw [h.neg n hn] at he; exact he
    · have := h.nonneg n (by omega); omega
  · rintro rfl; exact h.neg _ hk

theorem popChilds (d : Bool) : ∀ (k : Nat) (stack acc : List Node),
    LL1.popChilds d k (stack.map (Node.renumber σ)) (acc.map (Node.renumber σ)) =
      (LL1.popChilds d k stack acc).map fun (a, b) => (a.map (Node.renumber σ), b.map (Node.renumber σ))
  | 0, stack, acc => rfl
  | k + 1, [], acc => rfl
  | k + 1, n :: stack, acc => by
    simp only [List.map_cons, LL1.popChilds, renumber_type]
    have := h.eq_neg (n := n.type) (k := builtinTerminal) (by decide)
    split
    · exact popChilds d k stack (n :: acc)
    · by_cases hn : n.type = builtinTerminal
      · simp only [hn, h.neg builtinTerminal (by decide), ne_eq, not_true, if_false]
        exact popChilds d k stack acc
      · have : σ n.type ≠ builtinTerminal := fun e => hn (this.1 e)
        simp only [ne_eq, hn, this, not_false_eq_true, if_true]
        rfl

theorem nodeTypeName (n : Int) : LL1.nodeTypeName (some m') (σ n) =
    match LL1.nodeTypeName (some m) n with
    | .known s => .known s
    | .unknown _ => .unknown (σ n) := by
  unfold LL1.nodeTypeName
  simp only [Option.getD_some, h.names]
  cases m.get n <;> rfl

theorem nodeTypeName_known {n : Int} {s : Str} (hn : m.get n = some s) :
    LL1.nodeTypeName (some m') (σ n) = LL1.nodeTypeName (some m) n := by
  rw [h.nodeTypeName]
  unfold LL1.nodeTypeName
  simp [hn]

theorem step (hrow : ∀ n row, tbl.get n = some row → ∃ s, m.get n = some s)
    (hclosed : ∀ n row b ops, tbl.get n = some row → GoMap.get row b = some ops → ∀ k, .nonTerminal k ∈ ops →
      0 ≤ k → ∃ row, tbl.get k = some row) (src : Str) (s : PState)
    (hs : ∀ k, .nonTerminal k ∈ s.opStack → 0 ≤ k → ∃ row, tbl.get k = some row) :
    LL1.step tbl' (some m') src (s.renumber σ) = (LL1.step tbl (some m) src s).renumber σ m' ∧
    ∀ s', LL1.step tbl (some m) src s = .next s' →
      ∀ k, .nonTerminal k ∈ s'.opStack → 0 ≤ k → ∃ row, tbl.get k = some row := by
  obtain ⟨off, ops, prods⟩ := s
  cases ops with
  | nil => exact ⟨rfl, fun s' h' => by cases h'⟩
  | cons op rest =>
    have hs' : ∀ k, .nonTerminal k ∈ rest → 0 ≤ k → ∃ row, tbl.get k = some row :=
      fun k hk => hs k (List.mem_cons_of_mem _ hk)
    cases op with
    | nonTerminal n =>
      simp only [LL1.step, PState.renumber, List.map_cons, ParserOp.renumber, processNonTerminal]
      by_cases hn : n < 0
      · simp only [h.neg n hn, hn, if_true, processBuiltinNonTerminal]
        by_cases h2 : n = -2
        · subst h2
          simp only [if_true]
          split
          · refine ⟨?_, fun s' h' => ?_⟩
            · simp only [StepRes.renumber, PState.renumber, List.map_cons, ParserOp.renumber, h.neg (-2) (by decide)]
            · cases h'
              intro k hk
              simp only [List.mem_cons, reduceCtorEq, false_or] at hk
              exact hs' k hk
          · split
            · refine ⟨?_, fun s' h' => ?_⟩
              · simp only [StepRes.renumber, PState.renumber, List.map_cons, ParserOp.renumber, h.neg (-2) (by decide)]
              · cases h'
                intro k hk
                simp only [List.mem_cons, reduceCtorEq, false_or] at hk
                exact hs' k hk
            · exact ⟨rfl, fun s' h' => by cases h'⟩
        · simp only [h2, if_false]
          exact ⟨rfl, fun s' h' => by cases h'⟩
      · have h0 : 0 ≤ n := by omega
        have hσ : ¬ σ n < 0 := by have := h.nonneg n h0; omega
        simp only [hn, hσ, if_false, processTableNonTerminal]
        obtain ⟨row, hr⟩ := hs n (by simp) h0
        obtain ⟨nm, hnm⟩ := hrow n row hr
        obtain ⟨row', hr', hc⟩ := h.rows n row h0 hr
        simp only [hr, hr', hc, h.nodeTypeName_known hnm]
        cases hg : GoMap.get row (peek src off) with
        | none => exact ⟨rfl, fun s' h' => by cases h'⟩
        | some body =>
          simp only [Option.map_some]
          refine ⟨?_, fun s' h' => ?_⟩
          · simp only [StepRes.renumber, PState.renumber, List.map_append, List.map_cons, ParserOp.renumber,
              List.length_map]
          · cases h'
            intro k hk hk0
            simp only [List.mem_append, List.mem_cons, reduceCtorEq, false_or] at hk
            rcases hk with hk | hk
            · exact hclosed n row _ body hr hg k hk hk0
            · exact hs' k hk hk0
    | terminal value =>
      refine ⟨?_, fun s' h' => ?_⟩
      · simp only [LL1.step, PState.renumber, List.map_cons, ParserOp.renumber, processTerminal, StepRes.renumber,
          List.map_append, List.map_map, h.neg builtinTerminal (by decide)]
        congr 3
      · cases h'
        intro k hk
        simp only [processTerminal, List.mem_append, List.mem_map, List.mem_cons, reduceCtorEq, and_false, exists_false,
          false_or] at hk
        exact hs' k hk
    | function n pos amount =>
      simp only [LL1.step, PState.renumber, List.map_cons, ParserOp.renumber, processFunction]
      by_cases ha : amount = 0
      · simp only [ha, if_true]
        refine ⟨?_, fun s' h' => ?_⟩
        · simp only [StepRes.renumber, PState.renumber, List.map_cons, Node.renumber, Node.renumberAll,
            h.neg builtinNothing (by decide)]
        · cases h'; exact hs'
      · simp only [ha, if_false]
        have hd : decide (σ n = builtinTerminal) = decide (n = builtinTerminal) := by
          rw [decide_eq_decide]; exact h.eq_neg (by decide)
        have hp := h.popChilds (decide (n = builtinTerminal)) amount prods []
        simp only [List.map_nil] at hp
        rw [hd, hp]
        cases LL1.popChilds (decide (n = builtinTerminal)) amount prods [] with
        | error p => exact ⟨rfl, fun s' h' => by cases h'⟩
        | ok r =>
          obtain ⟨cs, st⟩ := r
          refine ⟨?_, fun s' h' => ?_⟩
          · simp only [Except.map, StepRes.renumber, PState.renumber, List.map_cons, Node.renumber, renumberAll_eq]
          · cases h'; exact hs'
    | eos =>
      refine ⟨?_, fun s' h' => by cases h'⟩
      simp only [LL1.step, PState.renumber, List.map_cons, ParserOp.renumber, processEOS, StepRes.renumber]
      split
      · rfl
      · cases prods <;> rfl
    | char c =>
      simp only [LL1.step, PState.renumber, List.map_cons, ParserOp.renumber, processChar]
      split
      · exact ⟨rfl, fun s' h' => by cases h'⟩
      · refine ⟨?_, fun s' h' => ?_⟩
        · simp only [StepRes.renumber, PState.renumber, List.map_cons, Node.renumber, Node.renumberAll,
            h.neg builtinTerminal (by decide)]
        · cases h'; exact hs'
    | nil => exact ⟨rfl, fun s' h' => by cases h'⟩

theorem runFuel (hrow : ∀ n row, tbl.get n = some row → ∃ s, m.get n = some s)
    (hclosed : ∀ n row b ops, tbl.get n = some row → GoMap.get row b = some ops → ∀ k, .nonTerminal k ∈ ops →
      0 ≤ k → ∃ row, tbl.get k = some row) (src : Str) : ∀ (fuel : Nat) (s : PState)
    (_ : ∀ k, .nonTerminal k ∈ s.opStack → 0 ≤ k → ∃ row, tbl.get k = some row),
    LL1.runFuel tbl' (some m') src fuel (s.renumber σ) =
      (LL1.runFuel tbl (some m) src fuel s).map (Outcome.renumber σ m')
  | 0, _, _ => rfl
  | fuel + 1, s, hs => by
    obtain ⟨h1, h2⟩ := h.step hrow hclosed src s hs
    unfold LL1.runFuel
    rw [h1]
    cases hst : LL1.step tbl (some m) src s with
    | next s' => exact runFuel hrow hclosed src fuel s' (h2 s' hst)
    | done o => rfl

theorem parseFuel (hrow : ∀ n row, tbl.get n = some row → ∃ s, m.get n = some s)
    (hclosed : ∀ n row b ops, tbl.get n = some row → GoMap.get row b = some ops → ∀ k, .nonTerminal k ∈ ops →
      0 ≤ k → ∃ row, tbl.get k = some row) (he : tbl.HasEntry) (src : Source) (fuel : Nat) :
    (Parser.mk tbl' (some m')).parseFuel fuel src =
      ((Parser.mk tbl (some m)).parseFuel fuel src).map (Outcome.renumber σ m') := by
  obtain ⟨row, hr⟩ := he
  obtain ⟨row', hr', _⟩ := h.rows 0 row (by decide) hr
  rw [h.start] at hr'
  unfold Parser.parseFuel
  simp only [hasEntry_length ⟨row, hr⟩, hasEntry_length ⟨row', hr'⟩, hr, hr', if_false]
  cases readSource src with
  | error e => rfl
  | ok text =>
    have := h.runFuel hrow hclosed text fuel initState (fun k hk _ => by
      simp only [initState, List.mem_cons, ParserOp.nonTerminal.injEq, reduceCtorEq, List.not_mem_nil, or_false] at hk
      subst hk
      exact ⟨row, hr⟩)
    simp only [PState.renumber, initState, List.map_cons, List.map_nil, ParserOp.renumber, h.start] at this
    exact this

end

mutual
theorem named_renumber {n n' : Names} (hn : ∀ k, n'.get (σ k) = n.get k) :
    ∀ t : Node, (t.renumber σ).named n' = t.named n
  | .mk k s e cs => by
    rw [Node.renumber, Node.named, Node.named, hn, namedAll_renumber hn cs]
theorem namedAll_renumber {n n' : Names} (hn : ∀ k, n'.get (σ k) = n.get k) :
    ∀ cs : List Node, Node.namedAll n' (Node.renumberAll σ cs) = Node.namedAll n cs
  | [] => rfl
  | c :: cs => by
    rw [Node.renumberAll, Node.namedAll, Node.namedAll, named_renumber hn c, namedAll_renumber hn cs]
end

theorem builtins (h : Renumbered σ tbl tbl' m m') (k : Int) :
    (addBuiltinNames m').get (σ k) = (addBuiltinNames m).get k := by
  unfold addBuiltinNames
  simp only [GoMap.get_set]
  have h1 := h.eq_neg (n := k) (k := builtinTerminal) (by decide)
  have h2 := h.eq_neg (n := k) (k := builtinNothing) (by decide)
  simp only [h1, h2, h.names]

end Renumbered
end LL1
