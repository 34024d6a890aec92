import Verif.Proofs.DTree
import Verif.Props.Language
import Verif.Props.Bnf

/-!
# From BNF text to parse trees (C59, C60)
-/

namespace LL1

open FC (selfBindings)

/-! ## C59 -/

/-- What the layout of a grammar already guarantees. -/
theorem legal_facts {g : Grammar} (hl : g.Legal) :
    g.rules ≠ [] ∧ g.NoEmptyTerminal ∧ g.NoEmptyAlternative ∧ g.NulFree := by
  refine ⟨hl.rules, ?_, ?_, ?_⟩
  · rintro i alt t ⟨r, hr, ha⟩ ht
    exact (((hl.symbols r (List.mem_of_getElem? hr) alt ha).2 _ ht) : t ≠ [] ∧ _).1
  · rintro i alt ⟨r, hr, ha⟩
    exact (hl.symbols r (List.mem_of_getElem? hr) alt ha).1
  · rintro i alt t ⟨r, hr, ha⟩ ht h0
    have := (((hl.symbols r (List.mem_of_getElem? hr) alt ha).2 _ ht) : t ≠ [] ∧ _).2 0 h0
    revert this
    decide

/-- For examples: a check of `Legal`. -/
def legalNm (n : Str) : Bool := match n with
  | [] => false
  | c :: rest => decide (IsLetter c) && rest.all fun d => decide (IsLetter d ∨ IsDigit d ∨ d = 45)

def legalSym : Symbol → Bool
  | .nonTerminal n => legalNm n
  | .terminal t => !t.isEmpty && t.all fun c => decide (IsText c)
  | .nothing => true

def legalGrm (g : Grammar) : Bool :=
  !g.rules.isEmpty && g.rules.all fun r => legalNm r.head && !r.tail.sequences.isEmpty &&
    r.tail.sequences.all fun s => !s.symbols.isEmpty && s.symbols.all legalSym

theorem legalNm_of {n : Str} (h : legalNm n = true) : LegalName n := by
  unfold legalNm at h
  split at h
  · cases h
  · simp only [Bool.and_eq_true, decide_eq_true_eq, List.all_eq_true] at h
    exact ⟨_, _, rfl, h.1, h.2⟩

theorem legalGrm_of {g : Grammar} (h : legalGrm g = true) : g.Legal := by
  simp only [legalGrm, Bool.and_eq_true, Bool.not_eq_true', List.isEmpty_eq_false_iff, List.all_eq_true] at h
  refine ⟨h.1, fun r hr => legalNm_of (h.2 r hr).1.1, fun r hr => (h.2 r hr).1.2, fun r hr s hs => ?_⟩
  obtain ⟨h1, h2⟩ := (h.2 r hr).2 s hs
  refine ⟨h1, fun y hy => ?_⟩
  have := h2 y hy
  cases y with
  | nonTerminal n => exact legalNm_of this
  | terminal t =>
    simpa only [legalSym, Bool.and_eq_true, Bool.not_eq_true', List.isEmpty_eq_false_iff, List.all_eq_true,
      decide_eq_true_eq, LegalSymbol] using this
  | nothing => trivial

section
variable (order : Order) (tbl : Table) (names : Names) (h : fromGrammar order selfGrammar = .ok (tbl, names))
include h

/-- **C59.** From text to decision: let `text` be any way to write a grammar `g` that is LL(1), without
nullable gaps, with distinct heads, all non-terminals defined and `""` only used alone.  Then parsing the
text with the BNF parser, converting the tree and generating a table all succeed, whatever order maps are
iterated in, and the resulting parser decides the language of `g`. -/
theorem C59_text_to_parser (m : Names) (src : Source) (text : Str) (hr : readSource src = .ok text) (g : Grammar)
    (hg : GrammarText g text) (hn : g.NothingAlone) (hdef : g.AllDefined) (hd : DistinctHeads g)
    (hgap : NoNullableGap g) (hll : IsLL1 g) (order' : Order) :
    ∃ t m', (Parser.mk tbl (some m)).Returns src (.ok t m') ∧ selfBindings.toAST t text = .ok g ∧
    ∃ tbl' names', fromGrammar order' g = .ok (tbl', names') ∧
    ∀ (src' : Source) (text' : Str), readSource src' = .ok text' → (0 : UInt8) ∉ text' →
      (Sentence g text' ↔ ∃ t' m'', (Parser.mk tbl' (some names')).Returns src' (.ok t' m'')) ∧
      (¬ Sentence g text' ↔ ∃ e, (Parser.mk tbl' (some names')).Returns src' (.err e)) := by
  obtain ⟨t, m', ht, ha⟩ := C40_layout order tbl names h m src text hr g hg
  obtain ⟨hru, hte, hal, hz⟩ := legal_facts (legal_of_grammarText hg)
  obtain ⟨tbl', names', hf⟩ := C29_ll1_accepted order' g hz.start ⟨hru, hte, hn, hal, hdef⟩ hd hgap hll
  refine ⟨t, m', ht, ha, tbl', names', hf, fun src' text' hr' h0 => ?_⟩
  exact C34_decides order' g tbl' names' hf hz hll (covered_of_noGap (TG.fromGrammar_ok hz.start hf) hgap) names' src'
    text' hr' h0

/-- **C59.** The other ends of the pipeline, for a NUL-free text: it is no layout of any grammar, and the
BNF parser returns an error; or it is a layout of exactly one `g`, the parser and the conversion give that
`g`, and generating the table gives a table, an error, or (only if `""` is used beside other symbols) a
panic.  For a `g` with all non-terminals defined and `""` only alone the error is the conflict error and
is given iff some rule has a clash. -/
theorem C59_verdict (m : Names) (src : Source) (text : Str) (hr : readSource src = .ok text)
    (h0 : (0 : UInt8) ∉ text) (order' : Order) :
    ((¬ ∃ g, GrammarText g text) ∧ ∃ e, (Parser.mk tbl (some m)).Returns src (.err e)) ∨
    ∃ g, GrammarText g text ∧ (∀ g', GrammarText g' text → g' = g) ∧
      (∃ t m', (Parser.mk tbl (some m)).Returns src (.ok t m') ∧ selfBindings.toAST t text = .ok g) ∧
      (g.NothingAlone → (∃ tbl' names', fromGrammar order' g = .ok (tbl', names')) ∨
        ∃ e, fromGrammar order' g = .err e) ∧
      (g.NothingAlone → g.AllDefined →
        (fromGrammar order' g = .err .conflict ↔ ∃ i, Clash g i) ∧
        ((∃ tbl' names', fromGrammar order' g = .ok (tbl', names')) ↔ ∀ i, ¬ Clash g i)) := by
  by_cases hg : ∃ g, GrammarText g text
  · obtain ⟨g, hg⟩ := hg
    obtain ⟨hru, hte, hal, hz⟩ := legal_facts (legal_of_grammarText hg)
    exact .inr ⟨g, hg, fun g' hg' => C40_unambiguous order tbl names h text g' g hg' hg,
      C40_layout order tbl names h m src text hr g hg,
      fun hn => C23_no_panic order' g hru hte hn,
      fun hn hdef => C30_conflict_iff order' g hz.start ⟨hru, hte, hn, hal, hdef⟩⟩
  · refine .inl ⟨hg, ?_⟩
    have hd := (C45_decides order tbl names h m src).2 text hr h0
    refine hd.2.1 fun hs => hg ?_
    exact BnfSentence.grammarText hs

end

/-- All hypotheses are met by the printed form of the nested-brackets grammar. -/
example : GrammarText Ex.nested
      b!"<S> ::= \"(\" <S> \")\" <T> | \"x\" <T>\n<T> ::= \",\" <S> | \"\"" ∧
    Ex.nested.NothingAlone ∧ Ex.nested.AllDefined ∧ DistinctHeads Ex.nested ∧ NoNullableGap Ex.nested ∧
    IsLL1 Ex.nested := by
  have hw := wellFormed_of (g := Ex.nested) (by decide +kernel)
  refine ⟨?_, hw.nothing, hw.defined, distinctHeads_of (by decide +kernel), Ex.nested_noGap, Ex.nested_ll1⟩
  have := grammarText_toStr (legalGrm_of (g := Ex.nested) (by decide +kernel))
  rwa [show Ex.nested.toStr = b!"<S> ::= \"(\" <S> \")\" <T> | \"x\" <T>\n<T> ::= \",\" <S> | \"\"" by
    decide +kernel] at this

/-! ## C60 -/

/-- **C60.** Derivation trees and derivations agree: a string is in the language iff it has a derivation
tree (of any grammar). -/
theorem C60_sentence_iff (g : Grammar) (w : Str) : Sentence g w ↔ ∃ t, IsDTree g 0 w t := by
  constructor
  · rintro ⟨alt, ⟨r, hr, ha⟩, hG⟩
    obtain ⟨k, hk⟩ := List.getElem?_of_mem ha
    obtain ⟨cs, hc, rfl⟩ := dtrees_of_gen hG
    exact ⟨_, r, k, alt, cs, hr, hk, hc, rfl, by simp only [DTree.yield]⟩
  · rintro ⟨t, r, k, alt, cs, hr, hk, hc, rfl, rfl⟩
    refine ⟨alt, ⟨r, hr, List.mem_of_getElem? hk⟩, ?_⟩
    simp only [DTree.yield]
    exact hc.gen

/-- **C60.** An LL(1) grammar is unambiguous: no string has two derivation trees. -/
theorem C60_unambiguous (g : Grammar) (hll : IsLL1 g) (w : Str) (t t' : DTree) (h : IsDTree g 0 w t)
    (h' : IsDTree g 0 w t') : t = t' := by
  obtain ⟨r, k, alt, cs, hr, hk, hc, rfl, hy⟩ := h
  obtain ⟨r', k', alt', cs', hr', hk', hc', rfl, hy'⟩ := h'
  rw [hr] at hr'
  cases hr'
  simp only [DTree.yield] at hy hy'
  have he : DTree.yields cs ++ [] = DTree.yields cs' ++ [] := by rw [hy, hy']
  have f : Follow g 0 (([] : Str).headD 0) := .start
  cases alt_unique hll hr hk hk' hc.gen hc'.gen he f f
  rw [hk] at hk'
  cases hk'
  have ha : g.Alt 0 alt := ⟨r, hr, List.mem_of_getElem? hk⟩
  rw [(hc.unique hll hc' he (.alt ha f) (.alt ha f)).1]

/-- **C60.** What a generated parser returns for a sentence of an LL(1) grammar is the picture of the
derivation tree: the same rules at the same places, with the offsets of the derived strings, except that
below a node deriving the empty string there is the single child "nothing". -/
theorem C60_returned_tree (order : Order) (g : Grammar) (tbl : Table) (names : Names)
    (h : fromGrammar order g = .ok (tbl, names)) (hz : g.NulFree) (hll : IsLL1 g) (hcov : Covered g tbl) (m : Names)
    (src : Source) (w : Str) (hr : readSource src = .ok w) (d : DTree) (hd : IsDTree g 0 w d) :
    (∃ m', (Parser.mk tbl (some m)).Returns src (.ok (d.toNode 0) m')) ∧
    (∀ t m', (Parser.mk tbl (some m)).Returns src (.ok t m') → t = d.toNode 0) := by
  have hc := fromGrammar_closedTable h
  have hD := derives_of_dtree (TG.fromGrammar_ok hz.start h) hll hcov hd
  have := returns_parse (p := Parser.mk tbl (some m)) hc.hasEntry hr ⟨_, hD, by simp [byteAt]⟩
  refine ⟨⟨_, this⟩, fun t m' ht => ?_⟩
  have := returns_det ht this
  cases this
  rfl

/-- The derivation tree of `(x),x` in the nested-brackets grammar, and the tree the parser returns. -/
def Ex.nestedTree : DTree :=
  .node 0 0 [.leaf b!"(", .node 0 1 [.leaf b!"x", .node 1 1 [.empty]], .leaf b!")",
    .node 1 0 [.leaf b!",", .node 0 1 [.leaf b!"x", .node 1 1 [.empty]]]]

example : IsDTree Ex.nested 0 b!"(x),x" Ex.nestedTree ∧
    Ex.nestedTree.toNode 0 = .mk 0 0 5 [.mk (-1) 0 1 [],
      .mk 0 1 2 [.mk (-1) 1 2 [], .mk 1 2 2 [.mk (-2) 2 2 []]], .mk (-1) 2 3 [],
      .mk 1 3 5 [.mk (-1) 3 4 [], .mk 0 4 5 [.mk (-1) 4 5 [], .mk 1 5 5 [.mk (-2) 5 5 []]]]] := by
  have hT : Ex.nested.Refers b!"T" 1 := (TG.get_ruleMap _ _ _).1 (by decide +kernel)
  have hS : Ex.nested.Refers b!"S" 0 := (TG.get_ruleMap _ _ _).1 (by decide +kernel)
  have e : ∀ {rest ts}, DTrees Ex.nested rest ts →
      DTrees Ex.nested (.nonTerminal b!"T" :: rest) (.node 1 1 [.empty] :: ts) := fun h =>
    .nonTerminal hT rfl rfl (.nothing .nil) h
  have x : ∀ {rest ts}, DTrees Ex.nested rest ts →
      DTrees Ex.nested (.nonTerminal b!"S" :: rest) (.node 0 1 [.leaf b!"x", .node 1 1 [.empty]] :: ts) := fun h =>
    .nonTerminal hS rfl rfl (.terminal (e .nil)) h
  exact ⟨⟨_, 0, _, _, rfl, rfl, .terminal (x (.terminal (.nonTerminal hT rfl rfl (.terminal (x .nil)) .nil))), rfl,
    by decide +kernel⟩, rfl⟩

/-- Not only LL(1) grammars have parsers, and others can be ambiguous: `S ::= "a" | "a"`. -/
example : ∃ t t', t ≠ t' ∧
    IsDTree ⟨[rule b!"S" [[.terminal b!"a"], [.terminal b!"a"]]]⟩ 0 b!"a" t ∧
    IsDTree ⟨[rule b!"S" [[.terminal b!"a"], [.terminal b!"a"]]]⟩ 0 b!"a" t' :=
  ⟨.node 0 0 [.leaf b!"a"], .node 0 1 [.leaf b!"a"], by simp,
    ⟨_, 0, _, _, rfl, rfl, .terminal .nil, rfl, by decide +kernel⟩,
    ⟨_, 1, _, _, rfl, rfl, .terminal .nil, rfl, by decide +kernel⟩⟩

end LL1
