import Verif.Proofs.Dichotomy
import Verif.Proofs.HangMemory

/-!
# C102: a parser hangs on some source or is linear on all

For any table, not only generated ones, and with no condition on NUL bytes.
-/

namespace LL1

/-- The number of steps of every call is at most a constant times the length of the source (plus one). -/
def LinearTime (tbl : Table) : Prop :=
  ∃ K, ∀ (names : Option Names) (src : Source) (text : Str), readSource src = .ok text →
    ∃ o, (Parser.mk tbl names).parseFuel (K * (text.length + 1)) src = some o

/-- At every moment of every call the two stacks together, with all nodes built so far, hold at most a constant times the
length of the source (plus one). -/
def LinearSpace (tbl : Table) : Prop :=
  ∃ M, ∀ (names : Option Names) (text : Str) (k : Nat) (s : PState), Reaches tbl names text k s →
    s.opStack.length + nodesOn s.prodStack ≤ M * (text.length + 1)

/-- **C102.** Either there is a source on which `Parse` never returns, or one constant bounds the steps on all sources: nothing
is quadratic or worse. -/
theorem C102_dichotomy (p : Parser) (he : p.table.HasEntry) (hpub : p.table.Public) :
    (∃ src, p.Diverges src) ∨ LinearTime p.table := by
  by_cases h : ∃ src, p.Diverges src
  · exact .inl h
  · right
    refine linear_of_noLoop he hpub ((C88_always_returns_iff p he hpub).1 fun src => ?_)
    apply Classical.byContradiction
    intro hn
    exact h ⟨src, diverges_iff.2 fun o ho => hn ⟨o, ho⟩⟩

theorem LinearTime.returns {p : Parser} (he : p.table.HasEntry) (h : LinearTime p.table) (src : Source) : ∃ o, p.Returns src o := by
  cases hr : readSource src with
  | ok text =>
    obtain ⟨K, hK⟩ := h
    obtain ⟨o, ho⟩ := hK p.names src text hr
    exact ⟨o, _, ho⟩
  | error e => exact ⟨.err e, 0, parseFuel_source_error he hr 0⟩

/-- **C102.** So `Parse` returns on every source iff its time is linear. -/
theorem C102_always_returns_iff_linear (p : Parser) (he : p.table.HasEntry) (hpub : p.table.Public) :
    (∀ src, ∃ o, p.Returns src o) ↔ LinearTime p.table := by
  constructor
  · intro h
    refine (C102_dichotomy p he hpub).resolve_left ?_
    rintro ⟨src, hd⟩
    obtain ⟨o, ho⟩ := h src
    exact diverges_iff.1 hd o ho
  · exact fun h src => h.returns he src

/-- **C102.** A call that does not return runs out of memory: the height of its operation stack tends to infinity.  This is
so for every table. -/
theorem C102_hang_fills_memory (p : Parser) (he : p.table.HasEntry) (src : Source) (text : Str) (hr : readSource src = .ok text)
    (hd : p.Diverges src) (M : Nat) :
    (∀ k, ∃ s, Reaches p.table p.names text k s) ∧
    ∃ k0, ∀ k s, k0 ≤ k → Reaches p.table p.names text k s → M < s.opStack.length := by
  obtain ⟨g, h0, hg⟩ := HangMem.run_of_none (tbl := p.table) (names := p.names) (src := text) fun f => by
    rw [← parseFuel_eq he hr]; exact hd f
  obtain ⟨k0, hk⟩ := HangMem.tends hg M
  refine ⟨fun k => ⟨_, HangMem.reaches_run h0 hg k⟩, k0, fun k s hk0 hs => ?_⟩
  rw [HangMem.reaches_unique hs (HangMem.reaches_run h0 hg k)]
  exact hk k hk0

/-- **C102.** So on one source: `Parse` returns iff there is a bound on the operation stack. -/
theorem C102_returns_iff_bounded (p : Parser) (he : p.table.HasEntry) (src : Source) (text : Str)
    (hr : readSource src = .ok text) :
    (∃ o, p.Returns src o) ↔ ∃ M, ∀ k s, Reaches p.table p.names text k s → s.opStack.length ≤ M := by
  constructor
  · rintro ⟨o, f, ho⟩
    rw [parseFuel_eq he hr] at ho
    obtain ⟨B, hB⟩ := Mem.exists_bounded p.table
    refine ⟨2 + B * f, fun k s hs => ?_⟩
    have hlt := Mem.reaches_lt hs ho
    have := (Mem.inv'_reaches hB hs).opLen
    have h1 : B * k ≤ B * f := Nat.mul_le_mul_left _ (Nat.le_of_lt hlt)
    omega
  · rintro ⟨M, hM⟩
    apply Classical.byContradiction
    intro hn
    have hd : p.Diverges src := diverges_iff.2 fun o ho => hn ⟨o, ho⟩
    obtain ⟨h1, k0, h2⟩ := C102_hang_fills_memory p he src text hr hd M
    obtain ⟨s, hs⟩ := h1 k0
    have := h2 k0 s (Nat.le_refl _) hs
    have := hM k0 s hs
    omega

/-- **C102.** The same dichotomy for memory: linear on all sources, or more than any bound on one. -/
theorem C102_memory (p : Parser) (he : p.table.HasEntry) (hpub : p.table.Public) :
    LinearSpace p.table ∨
    ∃ src text, readSource src = .ok text ∧ ∀ M, ∃ k s, Reaches p.table p.names text k s ∧ M < s.opStack.length := by
  rcases C102_dichotomy p he hpub with ⟨src, hd⟩ | h
  · obtain ⟨text, hr⟩ := diverges_source hd
    refine .inr ⟨src, text, hr, fun M => ?_⟩
    obtain ⟨h1, k0, h2⟩ := C102_hang_fills_memory p he src text hr hd M
    obtain ⟨s, hs⟩ := h1 k0
    exact ⟨k0, s, hs, h2 k0 s (Nat.le_refl _) hs⟩
  · exact .inl (Mem.linear_memory he h)

/-- **C102.** For generated tables: if `Parse` can hang at all then because of a left-recursive rule that the first rule refers
to, directly or not; without one, time and memory are linear.  The grammar need not be LL(1), and rules that the first rule
does not refer to do not matter. -/
theorem C102_generated (order : Order) (g : Grammar) (tbl : Table) (names : Names)
    (h : fromGrammar order g = .ok (tbl, names)) (hz : g.NulStartFree)
    (hl : ∀ i, Steps (Mentions g) 0 i → ¬ LeftRecursive g i) : LinearTime tbl ∧ LinearSpace tbl := by
  have hc := fromGrammar_closedTable h
  have ht : LinearTime tbl := by
    refine (C102_dichotomy ⟨tbl, none⟩ hc.hasEntry hc.public).resolve_left ?_
    rintro ⟨src, hd⟩
    obtain ⟨i, h1, h2⟩ := C79_left_recursion order g tbl names h hz none src hd
    exact hl i h1 h2
  exact ⟨ht, Mem.linear_memory hc.hasEntry ht⟩

/-- **C102.** The cells that cannot be wanted do not matter for the number of steps either: two tables that are the same where
the first can come to make the same run, step by step, on every source. -/
theorem C102_same_run (p p' : Parser) (hn : p.names = p'.names) (he : p.table.HasEntry) (hpub : p.table.Public)
    (he' : p'.table.HasEntry)
    (hsame : ∀ n b, CanEnter p.table n b →
      bodyFor p'.table n b = bodyFor p.table n b ∧ (p'.table.get n).isSome = (p.table.get n).isSome)
    (src : Source) (fuel : Nat) : p'.parseFuel fuel src = p.parseFuel fuel src := by
  cases hr : readSource src with
  | error e => rw [parseFuel_source_error he hr, parseFuel_source_error he' hr]
  | ok text =>
    rw [parseFuel_eq he hr, parseFuel_eq he' hr, ← hn]
    exact runFuel_unused hsame hpub p.names text _ _ (Within.start _)

/-! ## Concrete cases -/

/-- `0 → "a" 0 "\0" | ` (empty at the end): reads imaginary NUL bytes behind the end, one for each `a`. -/
def Ex.nulAfter : Table := [(0, [(97, [.terminal [97], .nonTerminal 0, .terminal [0]]), (0, [])])]

theorem Ex.public_of_check {tbl : Table} (h : ∀ c ∈ Lin.cells tbl, ∀ op ∈ c.2.2,
    (match op with | ParserOp.nonTerminal _ => true | .terminal _ => true | _ => false) = true) : tbl.Public := by
  rintro n row b ops h1 h2 op ho
  have := h _ (mem_cells_of_get h1 h2) op ho
  cases op <;> first | trivial | cases this

/-- **C102, concrete cases.** A generated table on which `Parse` hangs on `ay`, and so takes any amount of memory; a table of a
left-recursive grammar with linear time; and a table that reads behind the end of the input, with linear time. -/
theorem C102_examples :
    (∃ tbl names, fromGrammar id Ex.hangs = .ok (tbl, names) ∧ (Parser.mk tbl none).Diverges (.string b!"ay") ∧
      ¬ LinearTime tbl ∧ ∀ M, ∃ k s, Reaches tbl none b!"ay" k s ∧ M < s.opStack.length) ∧
    (∃ tbl names, fromGrammar id Ex.neverHangs = .ok (tbl, names) ∧ LeftRecursive Ex.neverHangs 1 ∧ LinearTime tbl) ∧
    (¬ Ex.nulAfter.NulStartFree ∧ LinearTime Ex.nulAfter ∧ LinearSpace Ex.nulAfter) := by
  refine ⟨?_, ?_, ?_⟩
  · obtain ⟨tbl, names, hf, e1, e2⟩ : ∃ tbl names, fromGrammar id Ex.hangs = .ok (tbl, names) ∧
        bodyFor tbl 0 97 = some [.terminal b!"a", .nonTerminal 1] ∧
        bodyFor tbl 1 121 = some [.nonTerminal 1, .terminal b!"x", .terminal b!"y"] := ⟨_, _, rfl, rfl, rfl⟩
    have hc := fromGrammar_closedTable hf
    have hd : (Parser.mk tbl none).Diverges (.string b!"ay") := by
      refine (C79_hangs_iff_chain ⟨tbl, none⟩ hc.hasEntry hc.public _ _ rfl).2 ⟨fun k => if k = 0 then (0, 0) else (1, 1), rfl, ?_⟩
      intro k
      cases k with
      | zero =>
        refine ⟨[.terminal b!"a"], [], _, e1, .lit ?_ (.nil _)⟩
        intro k hk
        match k, hk with
        | 0, _ => rfl
      | succ k => exact ⟨[], _, _, e2, .nil _⟩
    refine ⟨tbl, names, hf, hd, fun hl => ?_, fun M => ?_⟩
    · obtain ⟨o, ho⟩ := hl.returns (p := ⟨tbl, none⟩) hc.hasEntry (.string b!"ay")
      exact diverges_iff.1 hd o ho
    · obtain ⟨h1, k0, h2⟩ := C102_hang_fills_memory ⟨tbl, none⟩ hc.hasEntry _ _ rfl hd M
      obtain ⟨s, hs⟩ := h1 k0
      exact ⟨k0, s, hs, h2 k0 s (Nat.le_refl _) hs⟩
  · obtain ⟨_, ⟨tbl, names, hf, h1, _, h3⟩, _⟩ := C88_examples
    have hc := fromGrammar_closedTable hf
    exact ⟨tbl, names, hf, h1, (C102_always_returns_iff_linear ⟨tbl, some names⟩ hc.hasEntry hc.public).1 h3⟩
  · have hp : Ex.nulAfter.Public := Ex.public_of_check (by decide +kernel)
    have he : Ex.nulAfter.HasEntry := ⟨_, rfl⟩
    have hl : LinearTime Ex.nulAfter := by
      refine linear_of_noLoop he hp ?_
      rintro n b _ ⟨m, _, pre, post, hb, hr⟩
      have hm := Lin.mem_cells hb
      have hno : ∀ c ∈ Lin.cells Ex.nulAfter,
          c.2 = (97, [.terminal [97], .nonTerminal 0, .terminal [0]]) ∨
          c.2.2.all (fun op => match op with | ParserOp.nonTerminal _ => false | _ => true) = true := by
        decide +kernel
      have := (hno _ hm).resolve_right (by simp)
      simp only [Prod.mk.injEq] at this
      obtain ⟨rfl, hbody⟩ := this
      rcases hr with hr | ⟨h, _⟩
      · cases pre with
        | nil => simp at hbody
        | cons x pre =>
          simp only [List.cons_append, List.cons.injEq] at hbody
          rw [hbody.1] at hr
          cases hr
      · cases h
    refine ⟨fun h => ?_, hl, Mem.linear_memory he hl⟩
    exact h 0 _ 97 _ rfl rfl [0] (by simp) rfl

end LL1
