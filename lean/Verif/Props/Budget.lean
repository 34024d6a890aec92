import Verif.Proofs.Budget
import Verif.Props.CanHang
import Verif.Props.Dichotomy
import Verif.Props.Examples

/-!
# C104: how many steps a generated parser takes, in numbers read off the grammar
-/

namespace LL1

variable {order : Order} {g : Grammar} {tbl : Table} {names : Names}

/-- **C104.** The budget: cost of the dearest rule, times the number of rules, times the length of the source plus one, plus
four.  For every grammar that is accepted, unless a rule comes back to itself before a byte is read. -/
theorem C104_steps_any (h : fromGrammar order g = .ok (tbl, names)) (hl : RNoLoop g)
    (names' : Option Names) (src : Source) (text : Str) (hr : readSource src = .ok text) :
    ∃ o, (Parser.mk tbl names').parseFuel (g.dearestRule * g.rules.length * (text.length + 1) + 4) src = some o := by
  have hg := Budget.good_generated h hl (Budget.cost_rule h)
  rw [parseFuel_eq (p := ⟨tbl, names'⟩) (fromGrammar_closedTable h).hasEntry hr]
  refine Budget.run_budget hg _ _ (Budget.reaches_budget (names := names') (src := text) hg .refl .start).1 ?_
  have := Budget.init_le (src := text) hg .refl
  omega

/-- **C104.** Without terminals that begin with a NUL byte the condition is one on the textbook's FIRST. -/
theorem C104_reading_textbook (hz : g.NulStartFree) : RNoLoop g ↔ NoLoop g := Budget.rnoLoop_iff hz

/-- **C104.** The budget in textbook terms.  The grammar need not be LL(1). -/
theorem C104_steps (h : fromGrammar order g = .ok (tbl, names)) (hz : g.NulStartFree) (hl : NoLoop g)
    (names' : Option Names) (src : Source) (text : Str) (hr : readSource src = .ok text) :
    ∃ o, (Parser.mk tbl names').parseFuel (g.dearestRule * g.rules.length * (text.length + 1) + 4) src = some o :=
  C104_steps_any h ((C104_reading_textbook hz).2 hl) names' src text hr

/-- **C104.** If no two alternatives of a rule can begin with the same byte, the dearest alternative counts instead. -/
theorem C104_steps_disjoint (h : fromGrammar order g = .ok (tbl, names)) (hz : g.NulStartFree) (hl : NoLoop g)
    (hd : FirstDisjoint g) (names' : Option Names) (src : Source) (text : Str) (hr : readSource src = .ok text) :
    ∃ o, (Parser.mk tbl names').parseFuel (g.dearestAlternative * g.rules.length * (text.length + 1) + 4) src = some o := by
  have hg := Budget.good_generated h ((C104_reading_textbook hz).2 hl) (Budget.cost_alternative h hz hd)
  rw [parseFuel_eq (p := ⟨tbl, names'⟩) (fromGrammar_closedTable h).hasEntry hr]
  refine Budget.run_budget hg _ _ (Budget.reaches_budget (names := names') (src := text) hg .refl .start).1 ?_
  have := Budget.init_le (src := text) hg .refl
  omega

/-- **C104.** Memory: after `k` iterations there are at most as many operations on the stack as the budget has left, and at
most two nodes for each iteration. -/
theorem C104_memory (h : fromGrammar order g = .ok (tbl, names)) (hl : RNoLoop g)
    (names' : Option Names) (text : Str) (k : Nat) (s : PState) (hs : Reaches tbl names' text k s) :
    k + s.opStack.length ≤ g.dearestRule * g.rules.length * (text.length + 1) + 3 ∧ nodesOn s.prodStack ≤ 2 * k := by
  have hg := Budget.good_generated h hl (Budget.cost_rule h)
  constructor
  · have h1 := (Budget.reaches_budget hg .refl hs).2
    have h2 := Budget.init_le (src := text) hg .refl
    have h3 := Budget.length_le_opsCost s.opStack
    unfold Budget.potential at h1 h2
    omega
  · induction hs with
    | start => simp [initState]
    | step _ hs ih => have := step_nodes hs; omega

/-- **C104.** Grammars without left recursion have no such loop, nor have LL(1) grammars. -/
theorem C104_no_loop (g : Grammar) :
    ((∀ i, Steps (Mentions g) 0 i → ¬ LeftRecursive g i) → NoLoop g) ∧ (IsLL1 g → NoLoop g) :=
  ⟨Budget.noLoop_of_left, Budget.noLoop_of_ll1⟩

/-- **C104.** So an LL(1) grammar needs no other condition. -/
theorem C104_ll1 (h : fromGrammar order g = .ok (tbl, names)) (hz : g.NulStartFree) (hll : IsLL1 g)
    (names' : Option Names) (src : Source) (text : Str) (hr : readSource src = .ok text) :
    ∃ o, (Parser.mk tbl names').parseFuel (g.dearestAlternative * g.rules.length * (text.length + 1) + 4) src = some o :=
  C104_steps_disjoint h hz (Budget.noLoop_of_ll1 hll) hll.1 names' src text hr

/-- **C104.** And a generated parser that hangs on some source has a rule that comes back to itself on one byte: for every
grammar that is accepted, and sharper than left recursion. -/
theorem C104_hang_loops (h : fromGrammar order g = .ok (tbl, names)) (names' : Option Names)
    (src : Source) (hd : (Parser.mk tbl names').Diverges src) :
    ∃ i b, Steps (Mentions g) 0 i ∧ Steps1 (RLeadsOn g b) i i := by
  apply Classical.byContradiction
  intro hn
  have hl : RNoLoop g := fun i b h1 h2 => hn ⟨i, b, h1, h2⟩
  obtain ⟨text, hr⟩ := diverges_source hd
  obtain ⟨o, ho⟩ := C104_steps_any h hl names' src text hr
  exact diverges_iff.1 hd o ⟨_, ho⟩

/-- **C104.** The two grammars of the repository: reading a BNF text of `n` bytes takes at most `494 · (n + 1) + 4` iterations,
reading a JSON text at most `363 · (n + 1) + 4`; whatever the texts, and whatever the order of the maps. -/
theorem C104_own_grammars (order : Order) (names' : Option Names) (src : Source) (text : Str) (hr : readSource src = .ok text) :
    (∀ tbl names, fromGrammar order selfGrammar = .ok (tbl, names) →
      ∃ o, (Parser.mk tbl names').parseFuel (494 * (text.length + 1) + 4) src = some o) ∧
    (∀ tbl names, fromGrammar order Golden.jsonGrammar = .ok (tbl, names) →
      ∃ o, (Parser.mk tbl names').parseFuel (363 * (text.length + 1) + 4) src = some o) := by
  constructor
  · intro tbl names h
    have hc : selfGrammar.dearestAlternative * selfGrammar.rules.length = 494 := by decide +kernel
    rw [← hc]
    exact C104_ll1 h self_nulFree.start self_ll1 names' src text hr
  · intro tbl names h
    have hc : Golden.jsonGrammar.dearestAlternative * Golden.jsonGrammar.rules.length = 363 := by decide +kernel
    rw [← hc]
    exact C104_ll1 h json_nulFree.start json_ll1 names' src text hr

/-! ## Concrete cases -/

theorem Ex.neverHangs_first {syms : List Symbol} {b : UInt8} (h : First Ex.neverHangs syms b) : syms.head? ≠ some (.nonTerminal b!"B") := by
  have hB : ∀ {k : Nat} {alt : Sequence}, Ex.neverHangs.Refers b!"B" k → Ex.neverHangs.Alt k alt →
      alt.symbols = [.nonTerminal b!"B", .terminal b!"y"] := by
    rintro k alt ⟨⟨r', h1, h2⟩, _⟩ ⟨r, hr, ha⟩
    rw [h1] at hr
    cases hr
    match k, h1 with
    | 0, h1 => cases h1; cases h2
    | 1, h1 =>
      cases h1
      rcases List.mem_cons.1 ha with rfl | ha
      · rfl
      · cases ha
    | k + 2, h1 => cases h1
  have hnull : ∀ {syms : List Symbol}, Nullable Ex.neverHangs syms → syms.head? ≠ some (.nonTerminal b!"B") := by
    intro syms hn
    induction hn with
    | nil => simp
    | nothing => simp
    | emptyTerminal => simp
    | @nonTerminal name i alt rest hr ha _ _ ih _ =>
      intro he
      simp only [List.head?_cons, Option.some.injEq, Symbol.nonTerminal.injEq] at he
      subst he
      rw [hB hr ha] at ih
      exact ih rfl
  induction h with
  | terminal => simp
  | @head name i alt rest b hr ha _ ih =>
    intro he
    simp only [List.head?_cons, Option.some.injEq, Symbol.nonTerminal.injEq] at he
    subst he
    rw [hB hr ha] at ih
    exact ih rfl
  | @skip x rest b hn _ _ =>
    intro he
    simp only [List.head?_cons, Option.some.injEq] at he
    subst he
    exact hnull hn rfl

theorem Ex.neverHangs_noLoop : NoLoop Ex.neverHangs := by
  rintro i b _ ⟨y, _, alt, pre, name, post, ha, hf, he, _, hr, hk⟩
  obtain ⟨alt', ⟨r', hr', ha'⟩, hf'⟩ := hk
  obtain ⟨r, hr0, ha⟩ := ha
  have hne := Ex.neverHangs_first hf
  have hs : ∀ r ∈ Ex.neverHangs.rules, ∀ a ∈ r.tail.sequences, a.symbols.head? ≠ some (.nonTerminal b!"B") →
      ∀ x ∈ a.symbols, ∃ t, x = .terminal t := by
    intro r hr a ha hne
    simp only [Ex.neverHangs, List.mem_cons, List.not_mem_nil, or_false] at hr
    rcases hr with rfl | rfl
    · simp only [List.mem_cons, List.not_mem_nil, or_false] at ha
      rcases ha with rfl | rfl
      · simp
      · simp at hne
    · simp only [List.mem_cons, List.not_mem_nil, or_false] at ha
      subst ha
      simp at hne
  obtain ⟨t, ht⟩ := hs r (List.mem_of_getElem? hr0) alt ha hne (.nonTerminal name) (by rw [he]; simp)
  cases ht

/-- **C104, concrete cases.** `S → "x" T | "(" S ")" T, T → "," S | ""`: at most `20 · (n + 1) + 4` iterations.  The
left-recursive `S → "a" | B "x", B → B "y"`, which has no loop: at most `16 · (n + 1) + 4`.  And `S → "a" A, A → A "x" | "y"`,
which hangs, comes back to `A` on `y`. -/
theorem C104_examples :
    (fromGrammar id Ex.nested = .ok (Ex.nestedTable, Ex.nestedNames) ∧ ∀ text : Str,
      ∃ o, (Parser.mk Ex.nestedTable none).parseFuel (20 * (text.length + 1) + 4) (.string text) = some o) ∧
    (LeftRecursive Ex.neverHangs 1 ∧ ∃ tbl names, fromGrammar id Ex.neverHangs = .ok (tbl, names) ∧ ∀ text : Str,
      ∃ o, (Parser.mk tbl none).parseFuel (16 * (text.length + 1) + 4) (.string text) = some o) ∧
    Steps1 (LeadsOn Ex.hangs 121) 1 1 := by
  refine ⟨⟨Ex.nested_ok, fun text => ?_⟩, ⟨?_, ?_⟩, ?_⟩
  · exact C104_ll1 Ex.nested_ok (nulStartFree_of (by decide +kernel)) Ex.nested_ll1 none (.string text) text rfl
  · obtain ⟨_, ⟨_, _, _, h1, _⟩, _⟩ := C88_examples
    exact h1
  · obtain ⟨tbl, names, hf⟩ : ∃ tbl names, fromGrammar id Ex.neverHangs = .ok (tbl, names) := ⟨_, _, rfl⟩
    refine ⟨tbl, names, hf, fun text => ?_⟩
    refine C104_steps hf ?_ Ex.neverHangs_noLoop none (.string text) text rfl
    exact nulStartFree_of (by decide +kernel)
  · have hA : Ex.hangs.Refers b!"A" 1 := by
      refine ⟨⟨_, rfl, rfl⟩, ?_⟩
      rintro j ⟨r, hr, _⟩
      match j, hr with
      | 0, _ => omega
      | 1, _ => omega
      | j + 2, hr => cases hr
    refine ⟨1, .refl, ⟨[.nonTerminal b!"A", .terminal b!"x"]⟩, [], b!"A", [.terminal b!"x"], ⟨_, rfl, by simp⟩, ?_, rfl, .nil, ?_, ?_⟩
    · exact .head (i := 1) (alt := ⟨[.terminal b!"y"]⟩) hA ⟨_, rfl, by simp⟩ .terminal
    · exact hA
    · exact ⟨⟨[.terminal b!"y"]⟩, ⟨_, rfl, by simp⟩, .terminal⟩

end LL1
