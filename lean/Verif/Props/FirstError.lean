import Verif.Props.Vanish

/-!
# Errors at the first possible byte, with nullable gaps (C51)
-/

namespace LL1

theorem byteAt_eq_of_take {v text : Str} {k : Nat} (hk : k ≤ text.length) (h : v.take (k + 1) = text.take (k + 1)) :
    ∀ i, i ≤ k → byteAt text i = byteAt v i := by
  intro i hi
  have e : ∀ x : Str, x[i]? = (x.take (k + 1))[i]? := fun x => (List.getElem?_take_of_lt (by omega)).symm
  unfold byteAt
  rw [List.getD_eq_getElem?_getD, List.getD_eq_getElem?_getD, e, e v, h]

/-- **C51.** Whether or not the LL(1) grammar has nullable gaps, the only errors that come too early are of
one kind. Let the parser reject `text` at offset `k`. Then `text[0:k]` begins a sentence, and if some
sentence `v` begins with `text[0:k+1]` (or, at the end of the text, is the text), then the message says that
a rule has no entry for the next byte, where that rule can derive nothing and textbook FOLLOW contains the
byte but the next-symbol rule does not foresee it; and `v` itself is rejected with the same message. -/
theorem C51_premature (order : Order) (g : Grammar) (tbl : Table) (names : Names)
    (h : fromGrammar order g = .ok (tbl, names)) (hll : IsLL1 g) (hz : g.NulFree)
    (hpr : g.Productive) (hsome : ∃ w, Sentence g w) (m : Names) (src : Source) (text : Str)
    (hr : readSource src = .ok text) (e : PErr) (he : (Parser.mk tbl (some m)).Returns src (.err e)) :
    ∃ k, StuckAt tbl (some m) text k e ∧ k ≤ text.length ∧ (∃ w, Sentence g (text.take k ++ w)) ∧
      ∀ v, Sentence g v → v.take (k + 1) = text.take (k + 1) →
        (∃ i b, RuleNullable g i ∧ Follow g i b ∧ ¬ NextFollow g i b ∧ e = .noRule b (rowName (some m) (i : Nat))) ∧
        (Parser.mk tbl (some m)).Returns (.string v) (.err e) := by
  have hc := fromGrammar_closedTable h
  obtain ⟨k, hk, hkl, hw⟩ := C51_viable_prefix order g tbl names h hll.1 hz hpr hsome m src text hr e he
  refine ⟨k, hk, hkl, hw, fun v hs hv => ?_⟩
  have hst := hk.agree (src' := v) (byteAt_eq_of_take hkl hv)
  have hret := returns_stuck (p := Parser.mk tbl (some m)) hc.hasEntry (src := .string v) rfl hst
  obtain ⟨d, hd⟩ := (C60_sentence_iff g v).1 hs
  obtain ⟨i, b, hvan, hnf, rfl⟩ := C93_rejected order g tbl names h hz hll m (.string v) v rfl d hd e hret
  refine ⟨⟨i, b, ?_, ?_, hnf, rfl⟩, hret⟩
  all_goals
    obtain ⟨r, a, alt, cs, hi, hal, hu, rfl, rfl⟩ := hd
    have ha : g.Alt 0 alt := ⟨r, hi, List.mem_of_getElem? hal⟩
    have hnf : RuleNullable g i ∧ Follow g i b := by
      cases hvan with
      | here hy hb => subst hb; exact ⟨⟨alt, ha, nullable_iff_gen.2 (hy ▸ hu.gen)⟩, .start⟩
      | inside _ h => exact h.nullable hu (.alt ha .start)
      | later h => cases h
  exacts [hnf.1, hnf.2]

/-- What C51 calls an error at the first possible byte: the parser is stuck at `k`, what was read so far begins
a sentence, and no sentence begins with one byte more (at the end of the text: the text is no sentence). -/
def FirstPossible (g : Grammar) (tbl : Table) (names : Option Names) (text : Str) (e : PErr) : Prop :=
  ∃ k, StuckAt tbl names text k e ∧ k ≤ text.length ∧ (∃ w, Sentence g (text.take k ++ w)) ∧
    ∀ v, v.take (k + 1) = text.take (k + 1) → ¬ Sentence g v

/-- **C51.** The reduced LL(1) grammars whose parsers report every error at the first possible byte are exactly
those that meet C93's condition. In particular no grammar gains early errors without losing sentences. -/
theorem C51_first_error_iff (order : Order) (g : Grammar) (tbl : Table) (names : Names)
    (h : fromGrammar order g = .ok (tbl, names)) (hll : IsLL1 g) (hz : g.NulFree) (hg : g.Reduced)
    (hsome : ∃ w, Sentence g w) (m : Names) :
    (∀ src text e, readSource src = .ok text → (Parser.mk tbl (some m)).Returns src (.err e) →
      FirstPossible g tbl (some m) text e) ↔
    ∀ i b, MustVanish g i b → NextFollow g i b := by
  rw [← C93_grammar order g tbl names h hz hll hg m]
  have hc := fromGrammar_closedTable h
  constructor
  · intro hall src w hr hs
    obtain ⟨o, ho⟩ := C34_terminates order g tbl names h hz.start hll (some m) src
    cases o with
    | ok t m' => exact ⟨t, m', ho⟩
    | err e =>
      obtain ⟨k, _, _, _, hn⟩ := hall src w e hr ho
      exact (hn w rfl hs).elim
    | panic p =>
      rcases C08_no_panic tbl m hc.public src _ ho with ⟨_, _, h⟩ | ⟨_, h, _⟩ <;> cases h
  · intro hall src text e hr he
    obtain ⟨k, hk, hkl, hw, hv⟩ := C51_premature order g tbl names h hll hz hg.1 hsome m src text hr e he
    refine ⟨k, hk, hkl, hw, fun v hvt hs => ?_⟩
    obtain ⟨t, m', ht⟩ := hall (.string v) v rfl hs
    have := returns_det ht (hv v hs hvt).2
    cases this

/-- The grammar `gapCovered` has a nullable gap and meets the hypotheses of `C51_first_error_iff` and its condition;
its parser rejects `xac`. -/
example : ∃ tbl names e, fromGrammar id Ex.gapCovered = .ok (tbl, names) ∧ IsLL1 Ex.gapCovered ∧
    Ex.gapCovered.NulFree ∧ Ex.gapCovered.Reduced ∧ (∃ w, Sentence Ex.gapCovered w) ∧
    (∀ i b, MustVanish Ex.gapCovered i b → NextFollow Ex.gapCovered i b) ∧
    (Parser.mk tbl (some names)).Returns (.string b!"xac") (.err e) := by
  obtain ⟨hll, hz, hg, _, _, hm, _, hs⟩ := C93_gap_complete
  obtain ⟨tbl, names, h⟩ := C93_gap_complete.2.2.2.2.1
  refine ⟨tbl, names, .noRule 99 (.known b!"B"), h, hll, hz, hg, ⟨_, hs⟩, hm, 100, ?_⟩
  have : (match fromGrammar id Ex.gapCovered with
    | .ok (tbl, names) => (Parser.mk tbl (some names)).parseFuel 100 (.string b!"xac")
    | _ => none) = some (Outcome.err (.noRule 99 (.known b!"B"))) := by rfl
  rw [h] at this
  exact this

end LL1
