import Verif.Proofs.Grow
import Verif.Props.EndToEnd

/-!
# Growing a grammar or a table keeps what was accepted (C106)
-/

namespace LL1

/-! ## Tables -/

/-- **C106.** Adding cells to any table: every outcome the smaller table gives on a source - a tree, an error or a
panic - is given by the larger one too, unless it is the complaint that the table has nothing there; and where `Parse`
does not return with the smaller table it does not return with the larger. -/
theorem C106_table (tbl tbl' : Table) (hk : CellsKept tbl tbl') (he : tbl.HasEntry → tbl'.HasEntry)
    (names : Option Names) (src : Source) :
    (∀ o, (Parser.mk tbl names).Returns src o → (∀ e, o = .err e → ¬ e.AboutTable) →
      (Parser.mk tbl' names).Returns src o) ∧
    ((Parser.mk tbl names).Diverges src → (Parser.mk tbl' names).Diverges src) := by
  constructor
  · rintro o ⟨fuel, h⟩ ho
    rcases hk.parse he (names := names) fuel src with h2 | ⟨e, hab, h2⟩
    · exact ⟨fuel, h2 ▸ h⟩
    · rw [h] at h2
      cases h2
      exact (ho e rfl hab).elim
  · intro h fuel
    rcases hk.parse he (names := names) fuel src with h2 | ⟨e, hab, h2⟩
    · rw [← h2]; exact h fuel
    · rw [h fuel] at h2
      cases h2

/-- **C106.** And the larger table gets at least as far: if the smaller one is stuck at offset `k`, the larger one is
stuck no earlier, and a tree it returns ends no earlier. -/
theorem C106_table_offset (tbl tbl' : Table) (hk : CellsKept tbl tbl') (names : Option Names) (text : Str) (k : Nat)
    (e : PErr) (h : StuckAt tbl names text k e) :
    (∀ k' e', StuckAt tbl' names text k' e' → k ≤ k') ∧
    (∀ j t, Derives tbl' text [.nonTerminal 0] 0 j [t] → byteAt text j = 0 → k ≤ j) := by
  rcases h with h | ⟨t, hD, hb, _⟩
  · obtain ⟨h1, h2⟩ := hk.reach h
    refine ⟨?_, fun j t hD _ => h1 j _ hD⟩
    rintro k' e' (hF | ⟨t, hD, _⟩)
    · exact h2 k' e' hF
    · exact h1 k' _ hD
  · have hD' := hk.derives hD
    constructor
    · rintro k' e' (hF | ⟨t', hD2, _⟩)
      · exact (hD'.not_failsAt hF).elim
      · exact Nat.le_of_eq (hD'.det hD2).1
    · intro j t' hD2 _
      exact Nat.le_of_eq (hD'.det hD2).1

/-! ## Grammars -/

/-- **C106.** What a grammar inherits from any grammar it can grow into: its sentences are sentences of the larger
one, and if the larger one is LL(1), free of nullable gaps, of clashes, of NUL bytes, so is the smaller one. -/
theorem C106_inherits (g g' : Grammar) (h : Grows g g') :
    (∀ w, Sentence g w → Sentence g' w) ∧ (IsLL1 g' → IsLL1 g) ∧ (NoNullableGap g' → NoNullableGap g) ∧
    (g'.NulFree → g.NulFree) ∧ (∀ i, Clash g i → Clash g' i) :=
  ⟨fun _ => h.sentence, h.ll1, h.noGap, h.nulFree, fun _ => h.clash⟩

/-- **C106.** Leaving out alternatives and rules never makes `FromGrammar` reject a grammar (as long as what is left
is well-formed), LL(1) or not. -/
theorem C106_accepted (order order' : Order) (g g' : Grammar) (h : Grows g g') (hz : g'.NulStartFree)
    (hw : g.WellFormed) (hw' : g'.WellFormed) (hok : ∃ tbl' names', fromGrammar order' g' = .ok (tbl', names')) :
    ∃ tbl names, fromGrammar order g = .ok (tbl, names) :=
  (C30_conflict_iff order g (h.nulStartFree hz) hw).2.2 fun i hc =>
    (C30_conflict_iff order' g' hz hw').2.1 hok i (h.clash hc)

/-- **C106.** If a grammar grows into an LL(1) grammar, every source its parser accepted is still accepted and gives
the same tree, whatever names the parsers were given. -/
theorem C106_tree (order order' : Order) (g g' : Grammar) (tbl tbl' : Table) (names names' : Names)
    (hf : fromGrammar order g = .ok (tbl, names)) (hf' : fromGrammar order' g' = .ok (tbl', names'))
    (h : Grows g g') (hz : g'.NulStartFree) (hll : IsLL1 g') (m m2 : Names) (src : Source) (t : Node)
    (hr : ∃ m', (Parser.mk tbl (some m)).Returns src (.ok t m')) :
    (∃ m', (Parser.mk tbl' (some m2)).Returns src (.ok t m')) ∧
    (∀ o, (Parser.mk tbl' (some m2)).Returns src o → ∃ m', o = .ok t m') := by
  have hc := fromGrammar_closedTable hf
  have hc' := fromGrammar_closedTable hf'
  have ht := TG.fromGrammar_ok (h.nulStartFree hz) hf
  have ht' := TG.fromGrammar_ok hz hf'
  have key : ∃ m', (Parser.mk tbl' (some m2)).Returns src (.ok t m') := by
    obtain ⟨m', hr⟩ := hr
    cases hs : readSource src with
    | error e =>
      obtain ⟨row, hrow⟩ := hc.hasEntry
      have : (Parser.mk tbl (some m)).Returns src (.err e) :=
        ⟨0, by simp [Parser.parseFuel, hasEntry_length ⟨row, hrow⟩, hrow, hs]⟩
      cases returns_det hr this
    | ok text =>
      have hp := (C13_parse_iff_derivation tbl m hc.hasEntry hc.public src text hs t).1 ⟨m', hr⟩
      exact (C13_parse_iff_derivation tbl' m2 hc'.hasEntry hc'.public src text hs t).2 (h.isParse ht ht' hll hp)
  refine ⟨key, fun o ho => ?_⟩
  obtain ⟨m', hm⟩ := key
  exact ⟨m', returns_det ho hm⟩

/-- **C106.** If the larger grammar is moreover free of nullable gaps and repeated heads, its table contains the old
one: then errors other than "no rule" stay the same too, and no source is given up earlier. -/
theorem C106_errors (order order' : Order) (g g' : Grammar) (tbl tbl' : Table) (names names' : Names)
    (hf : fromGrammar order g = .ok (tbl, names)) (hf' : fromGrammar order' g' = .ok (tbl', names'))
    (h : Grows g g') (hz : g'.NulStartFree) (hll : IsLL1 g') (hgap : NoNullableGap g') (hd : DistinctHeads g') :
    CellsKept tbl tbl' ∧
    ∀ (m : Option Names) (src : Source) (text : Str) (e : PErr), readSource src = .ok text →
      (Parser.mk tbl m).Returns src (.err e) →
      (¬ e.AboutTable → (Parser.mk tbl' m).Returns src (.err e)) ∧
      ∃ k, StuckAt tbl m text k e ∧
        (∀ e', (Parser.mk tbl' m).Returns src (.err e') → ∃ k', StuckAt tbl' m text k' e' ∧ k ≤ k') := by
  have hc := fromGrammar_closedTable hf
  have hc' := fromGrammar_closedTable hf'
  have hk := h.cells (TG.fromGrammar_ok (h.nulStartFree hz) hf) (TG.fromGrammar_ok hz hf') hll hgap hd
  refine ⟨hk, fun m src text e hr he => ⟨fun hab => ?_, ?_⟩⟩
  · exact (C106_table tbl tbl' hk (fun _ => hc'.hasEntry) m src).1 _ he fun e' h' => by cases h'; exact hab
  · obtain ⟨k, hs⟩ := (C13_error_iff_stuck tbl m hc.hasEntry hc.public src text hr e).1.1 he
    refine ⟨k, hs, fun e' he' => ?_⟩
    obtain ⟨k', hs'⟩ := (C13_error_iff_stuck tbl' m hc'.hasEntry hc'.public src text hr e').1.1 he'
    exact ⟨k', hs', (C106_table_offset tbl tbl' hk m text k e hs).1 k' e' hs'⟩

/-- The nested-brackets grammar with an alternative before, one between, and a rule after. -/
def Ex.nestedGrown : Grammar := ⟨[
  rule b!"S" [[.terminal b!"[", .nonTerminal b!"L", .terminal b!"]", .nonTerminal b!"T"],
    [.terminal b!"(", .nonTerminal b!"S", .terminal b!")", .nonTerminal b!"T"],
    [.terminal b!"x", .nonTerminal b!"T"]],
  rule b!"T" [[.terminal b!",", .nonTerminal b!"S"], [.terminal b!";", .nonTerminal b!"S"], [.nothing]],
  rule b!"L" [[.nonTerminal b!"S"]]]⟩

theorem Ex.nested_grows : Grows Ex.nested Ex.nestedGrown := by
  constructor
  · intro i r hr
    match i with
    | 0 => cases hr; exact ⟨_, rfl, rfl, by decide +kernel⟩
    | 1 => cases hr; exact ⟨_, rfl, rfl, by decide +kernel⟩
    | (i + 2) => cases hr
  · intro j r' hj hr' r hr
    match j with
    | 0 => exact absurd hj (by decide)
    | 1 => exact absurd hj (by decide)
    | 2 =>
      cases hr'
      simp only [Ex.nested, List.mem_cons, List.not_mem_nil, or_false] at hr
      rcases hr with rfl | rfl <;> decide
    | (j + 3) => cases hr'

/-- The hypotheses of the theorems are met. -/
example : Grows Ex.nested Ex.nestedGrown ∧ Ex.nestedGrown.NulStartFree ∧ IsLL1 Ex.nestedGrown ∧
    NoNullableGap Ex.nestedGrown ∧ DistinctHeads Ex.nestedGrown ∧ Ex.nested.WellFormed ∧ Ex.nestedGrown.WellFormed ∧
    (∃ tbl names, fromGrammar id Ex.nested = .ok (tbl, names)) ∧
    (∃ tbl names, fromGrammar id Ex.nestedGrown = .ok (tbl, names)) := by
  refine ⟨Ex.nested_grows, nulStartFree_of (by decide +kernel),
    isLL1_of_check (c := Cert.compute Ex.nestedGrown 4) (by decide +kernel),
    noNullableGap_of (c := Cert.compute Ex.nestedGrown 4) (by decide +kernel) (by decide +kernel), distinctHeads_of (by decide +kernel),
    wellFormed_of (by decide +kernel), wellFormed_of (by decide +kernel), succeeds_iff.1 (by decide +kernel),
    succeeds_iff.1 (by decide +kernel)⟩

/-- **C106.** LL(1) is needed: `S ::= "a"` grows into `S ::= "a" | "a"`, which `FromGrammar` accepts, and the parser
then rejects the text `a`. -/
theorem C106_needs_ll1 :
    ∃ g g' : Grammar, Grows g g' ∧ g'.WellFormed ∧ ∃ tbl names tbl' names' t m e,
      fromGrammar id g = .ok (tbl, names) ∧ fromGrammar id g' = .ok (tbl', names') ∧
      (Parser.mk tbl (some names)).Returns (.string b!"a") (.ok t m) ∧
      (Parser.mk tbl' (some names')).Returns (.string b!"a") (.err e) := by
  refine ⟨⟨[rule b!"S" [[.terminal b!"a"]]]⟩, ⟨[rule b!"S" [[.terminal b!"a"], [.terminal b!"a"]]]⟩, ⟨?_, ?_⟩,
    wellFormed_of (by decide +kernel), _, _, _, _, _, _, _, rfl, rfl, ⟨20, rfl⟩, ⟨20, rfl⟩⟩
  · intro i r hr
    match i with
    | 0 => cases hr; exact ⟨_, rfl, rfl, by decide +kernel⟩
    | (i + 1) => cases hr
  · intro j r' hj hr' r hr
    match j with
    | 0 => exact absurd hj (by decide)
    | (j + 1) => cases hr'

end LL1
