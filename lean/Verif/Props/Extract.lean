import Verif.Proofs.Reshape
import Verif.Props.EndToEnd
import Verif.Props.TableGen
import Verif.Props.Language

/-!
# C97: repairing a nullable gap

`FromGrammar` looks at the next symbol only when it computes what can follow a rule, so an LL(1) grammar with
`A B "d"` where `B` can vanish is rejected or gets a parser that misses sentences (C29, C33).  The remedy a user has is to
give the end of the alternative a rule of its own: `A X`, `X ::= B "d"`.  These theorems say that this never changes
anything else and always works.
-/

namespace LL1

/-- **C97.** Making the ends of alternatives rules of their own does not change the language of the grammar, nor what
any of its rules derives. -/
theorem C97_language (g g' : Grammar) (h : Reshaped g g') :
    (∀ w, Sentence g' w ↔ Sentence g w) ∧ (∀ i w, i < g.rules.length → (GenRule g' i w ↔ GenRule g i w)) :=
  ⟨h.sentence_iff, fun _ w hi => h.genRule_iff hi w⟩

/-- **C97.** It keeps the grammar LL(1), well formed, free of NUL bytes and its heads distinct. -/
theorem C97_keeps (g g' : Grammar) (h : Reshaped g g') :
    (IsLL1 g → IsLL1 g') ∧ (g.WellFormed → g'.WellFormed) ∧ (DistinctHeads g → DistinctHeads g') ∧
    (g.NulFree → g'.NulFree) :=
  ⟨h.isLL1, h.wellFormed, h.distinct, h.nulFree⟩

/-- **C97.** The derivation trees of the old grammar are those of the new one without the nodes for the added rules. -/
theorem C97_tree (g g' : Grammar) (h : Reshaped g g') (hg : g.rules ≠ []) (w : Str) (d : DTree) :
    IsDTree g 0 w d ↔ ∃ t, IsDTree g' 0 w t ∧ t.splice g.rules.length = [d] := by
  have h0 : 0 < g.rules.length := List.length_pos_iff.2 hg
  constructor
  · intro hd
    obtain ⟨t, h1, h2⟩ := h.isDTree_to hd
    exact ⟨t, h2, h1⟩
  · rintro ⟨t, ht, e⟩
    obtain ⟨d', h1, h2⟩ := h.isDTree_from h0 ht
    rw [e] at h1
    cases h1
    exact h2

/-- **C97.** Every grammar can be freed of nullable gaps this way. -/
theorem C97_gap_free (g : Grammar) : ∃ g', Reshaped g g' ∧ NoNullableGap g' := gap_free g

/-- **C97.** So every well-formed LL(1) grammar with distinct heads and without NUL bytes, also one that `FromGrammar`
rejects or makes an incomplete parser for, has a reshaped version that `FromGrammar` accepts and whose parser decides the
language of the original grammar; and the tree it returns depicts a derivation tree that is one of the original grammar
once the nodes for the added rules are taken out. -/
theorem C97_repair (g : Grammar) (hw : g.WellFormed) (hd : DistinctHeads g) (hz : g.NulFree) (hll : IsLL1 g) :
    ∃ g', Reshaped g g' ∧ ∀ order, ∃ tbl names, fromGrammar order g' = .ok (tbl, names) ∧
      ∀ (m : Names) (src : Source) (w : Str), readSource src = .ok w → (0 : UInt8) ∉ w →
        (Sentence g w ↔ ∃ t m', (Parser.mk tbl (some m)).Returns src (.ok t m')) ∧
        (¬ Sentence g w ↔ ∃ e, (Parser.mk tbl (some m)).Returns src (.err e)) ∧
        ∀ t m', (Parser.mk tbl (some m)).Returns src (.ok t m') →
          ∃ d d' : DTree, IsDTree g 0 w d ∧ d'.splice g.rules.length = [d] ∧ t = d'.toNode 0 := by
  obtain ⟨g', h, hg⟩ := gap_free g
  have hw' := h.wellFormed hw
  have hz' := h.nulFree hz
  have hll' := h.isLL1 hll
  refine ⟨g', h, fun order => ?_⟩
  obtain ⟨tbl, names, e⟩ := C29_ll1_accepted order g' hz'.start hw' (h.distinct hd) hg hll'
  have hcov := covered_of_noGap (TG.fromGrammar_ok hz'.start e) hg
  refine ⟨tbl, names, e, fun m src w hr h0 => ?_⟩
  have hdec := C34_decides order g' tbl names e hz' hll' hcov m src w hr h0
  rw [h.sentence_iff] at hdec
  refine ⟨hdec.1, hdec.2, fun t m' ht => ?_⟩
  have hs : Sentence g' w := (h.sentence_iff w).2 (hdec.1.2 ⟨t, m', ht⟩)
  obtain ⟨d', hd'⟩ := (C60_sentence_iff g' w).1 hs
  have := (C60_returned_tree order g' tbl names e hz' hll' hcov m src w hr d' hd').2 t m' ht
  obtain ⟨d, h1, h2⟩ := h.isDTree_from (List.length_pos_iff.2 hw.rules) hd'
  exact ⟨d, d', h2, h1, this⟩

/-- The hypotheses are met by `gap`, whose own parser is incomplete, and by `gapRejected`, which `FromGrammar` rejects. -/
example : ∀ g ∈ [Ex.gap, Ex.gapRejected], g.WellFormed ∧ DistinctHeads g ∧ g.NulFree ∧ IsLL1 g := by
  intro g hg
  simp only [List.mem_cons, List.not_mem_nil, or_false] at hg
  rcases hg with rfl | rfl
  · exact ⟨wellFormed_of (by decide +kernel), distinctHeads_of (by decide +kernel), nulFree_of (by decide +kernel),
      isLL1_of_check (c := Cert.compute Ex.gap 4) (by decide +kernel)⟩
  · exact ⟨wellFormed_of (by decide +kernel), distinctHeads_of (by decide +kernel), nulFree_of (by decide +kernel),
      isLL1_of_check (c := Cert.compute Ex.gapRejected 4) (by decide +kernel)⟩

/-- `gap` after the edit: `S ::= A X ; A ::= "a" | "" ; B ::= "b" | "" ; X ::= B "d"` -/
def Ex.gapMended : Grammar := ⟨[
  rule b!"S" [[.nonTerminal b!"A", .nonTerminal b!"X"]],
  rule b!"A" [[.terminal b!"a"], [.nothing]],
  rule b!"B" [[.terminal b!"b"], [.nothing]],
  rule b!"X" [[.nonTerminal b!"B", .terminal b!"d"]]]⟩

theorem Ex.gap_mended : Extracts Ex.gap Ex.gapMended := by
  refine ⟨b!"X", 0, 0, rule b!"S" [[.nonTerminal b!"A", .nonTerminal b!"B", .terminal b!"d"]], [.nonTerminal b!"A"],
    [.nonTerminal b!"B", .terminal b!"d"], rfl, rfl, by simp, rfl, ?_, ?_⟩
  · rintro i ⟨r, hr, hh⟩
    have hm := List.mem_of_getElem? hr
    have : ∀ r ∈ Ex.gap.rules, r.head ≠ b!"X" := by decide +kernel
    exact this r hm hh
  · rintro i alt ⟨r, hr, ha⟩ hm
    have : ∀ r ∈ Ex.gap.rules, ∀ a ∈ r.tail.sequences, Symbol.nonTerminal b!"X" ∉ a.symbols := by decide +kernel
    exact this r (List.mem_of_getElem? hr) alt ha hm

/-- **C97.** It can matter: `d` is a sentence of `gap`; the parser made from `gap` returns an error on it, the one made
from `gapMended` a tree. -/
theorem C97_matters :
    Reshaped Ex.gap Ex.gapMended ∧ Sentence Ex.gap b!"d" ∧
    (∃ tbl names, fromGrammar id Ex.gap = .ok (tbl, names) ∧
      ∃ e, (Parser.mk tbl (some names)).Returns (.string b!"d") (.err e)) ∧
    (∃ tbl names, fromGrammar id Ex.gapMended = .ok (tbl, names) ∧
      ∃ t m', (Parser.mk tbl (some names)).Returns (.string b!"d") (.ok t m')) := by
  obtain ⟨tbl, names, h1, hll, hs, h2⟩ := C33_gap_incomplete
  have hr : Reshaped Ex.gap Ex.gapMended := .step .refl Ex.gap_mended
  refine ⟨hr, hs, ⟨tbl, names, h1, h2⟩, ?_⟩
  have hz : Ex.gapMended.NulFree := hr.nulFree (nulFree_of (by decide +kernel))
  have hll' : IsLL1 Ex.gapMended := hr.isLL1 hll
  have hg : NoNullableGap Ex.gapMended := by
    intro i alt pre n next post ha hs' hn
    obtain ⟨r, hr, hm⟩ := ha
    have hlen : ∀ r ∈ Ex.gapMended.rules, ∀ a ∈ r.tail.sequences, a.symbols.length ≤ 2 := by decide +kernel
    have := hlen r (List.mem_of_getElem? hr) alt hm
    rw [hs'] at this
    simp at this
    exact List.length_eq_zero_iff.1 (by omega)
  obtain ⟨tbl', names', e⟩ := C29_ll1_accepted id Ex.gapMended hz.start (hr.wellFormed (wellFormed_of (by decide +kernel)))
    (hr.distinct (distinctHeads_of (by decide +kernel))) hg hll'
  obtain ⟨t, m', h, _⟩ := C33_complete_noGap id Ex.gapMended tbl' names' e hz hll' hg names' (.string b!"d") b!"d" rfl
    ((hr.sentence_iff _).2 hs)
  exact ⟨tbl', names', e, t, m', h⟩

end LL1
