import Verif.Props.Truth
import Verif.Props.EndToEnd
import Verif.Spec.Acceptance

/-!
# C85: exactly which grammars `FromGrammar` accepts
-/

namespace LL1

/-- **C85.** For every grammar, well-formed or not, and every order of the map iteration: `FromGrammar` succeeds iff
nothing it looks at is amiss and no rule has a clash. -/
theorem C85_accepted_iff (order : Order) (g : Grammar) :
    (∃ tbl names, fromGrammar order g = .ok (tbl, names)) ↔ Examined g ∧ ∀ i, ¬ RClash g i := by
  constructor
  · rintro ⟨tbl, names, h⟩
    exact TG.fromGrammar_examined h
  · rintro ⟨he, hc⟩
    rcases TG.fromGrammar_ecases order he with ⟨⟨r, h⟩, _⟩ | ⟨_, i, hi⟩
    · exact ⟨r.1, r.2, h⟩
    · exact (hc i hi).elim

/-- **C85.** If nothing it looks at is amiss the only possible complaint is the clash, and it is made iff there is one. -/
theorem C85_conflict_iff (order : Order) (g : Grammar) (he : Examined g) :
    fromGrammar order g = .err .conflict ↔ ∃ i, RClash g i := by
  rcases TG.fromGrammar_ecases order he with ⟨⟨r, h⟩, hc⟩ | ⟨h, hc⟩
  · refine ⟨fun h' => ?_, fun ⟨i, hi⟩ => (hc i hi).elim⟩
    rw [h] at h'; cases h'
  · exact ⟨fun _ => hc, fun _ => h⟩

/-- **C85.** If something it looks at is amiss it complains or panics, whether there is a clash or not. -/
theorem C85_rejected (order : Order) (g : Grammar) (he : ¬ Examined g) :
    (∃ e, fromGrammar order g = .err e ∧ GrammarFault g e) ∨ ∃ p, fromGrammar order g = .panic p := by
  rcases C76_cases order g with h | h | h | h
  · exact (he ((C85_accepted_iff order g).1 h).1).elim
  · exact .inl h
  · exact .inr ⟨_, h.1⟩
  · exact .inr ⟨_, h.1⟩

/-- **C85.** Well-formed grammars have nothing amiss anywhere. -/
theorem C85_wellFormed (g : Grammar) (hw : g.WellFormed) : Examined g := TG.examined_of_wf hw

/-- **C85.** In a grammar with nothing amiss where the generator looks, an ill-formed symbol is never in reach: an
undefined name or a `""` beside other symbols stands in an alternative that cannot begin with any byte, and has before it
a symbol that does not read as nullable. -/
theorem C85_out_of_reach (g : Grammar) (he : Examined g) (i : Nat) (alt : Sequence) (ha : g.Alt i alt) (x : Symbol)
    (hx : x ∈ alt.symbols)
    (hbad : (x = .nothing ∧ alt.symbols ≠ [.nothing]) ∨ ∃ name, x = .nonTerminal name ∧ ¬ g.Defines name) :
    (∀ b, ¬ RFirst g alt.symbols b) ∧ ¬ FirstLooksAt g alt.symbols x := by
  refine ⟨fun b hb => ?_, fun hl => ?_⟩
  · obtain ⟨h1, h2⟩ := he.cells i alt b x ha hb hx
    rcases hbad with ⟨h, _⟩ | ⟨name, h, hd⟩
    · exact h1 h
    · exact hd (h2 name h)
  · obtain ⟨_, h2, h3⟩ := he.firsts i alt x ha hl
    rcases hbad with ⟨h, hn⟩ | ⟨name, h, hd⟩
    · exact hn (h3 h)
    · exact hd (h2 name h)

/-- **C85.** The whole way from a text: for every NUL-free text, parsing it with the BNF parser, converting the tree and
generating a table all succeed iff the text writes a grammar in which nothing the generator looks at is amiss and no rule
has a clash. -/
theorem C85_text (order : Order) (tbl : Table) (names : Names) (h : fromGrammar order selfGrammar = .ok (tbl, names))
    (m : Names) (src : Source) (text : Str) (hr : readSource src = .ok text) (h0 : (0 : UInt8) ∉ text) (order' : Order) :
    (∃ t m' g tbl' names', (Parser.mk tbl (some m)).Returns src (.ok t m') ∧ FC.selfBindings.toAST t text = .ok g ∧
      fromGrammar order' g = .ok (tbl', names')) ↔
    ∃ g, GrammarText g text ∧ Examined g ∧ ∀ i, ¬ RClash g i := by
  constructor
  · rintro ⟨t, m', g, tbl', names', ht, hg, hf⟩
    obtain ⟨g', h1, -, h2, -⟩ := C41_accepted_converts order tbl names h m src text hr t m' ht
    rw [h1] at hg
    cases hg
    exact ⟨_, h2 h0, (C85_accepted_iff order' _).1 ⟨tbl', names', hf⟩⟩
  · rintro ⟨g, hg, hx⟩
    obtain ⟨t, m', ht, ha⟩ := C40_layout order tbl names h m src text hr g hg
    obtain ⟨tbl', names', hf⟩ := (C85_accepted_iff order' g).2 hx
    exact ⟨t, m', g, tbl', names', ht, ha, hf⟩

/-- Such a text exists, of an ill-formed grammar (nothing defines `U`). -/
example : let g : Grammar := ⟨[rule b!"S" [[.nonTerminal b!"A", .terminal b!"x", .nonTerminal b!"U"], [.terminal b!"b"]],
      rule b!"A" [[.nonTerminal b!"A", .terminal b!"y"]]]⟩
    GrammarText g g.toStr ∧ (0 : UInt8) ∉ g.toStr ∧ Examined g ∧ ∀ i, ¬ RClash g i :=
  ⟨grammarText_toStr (legalGrm_of (by decide +kernel)), by decide +kernel, (C85_accepted_iff id _).1 ⟨_, _, rfl⟩⟩

/-- **C85.** Ill-formed grammars that are accepted: an empty terminal that is not looked at; an undefined name, and `""`
beside other symbols, in an alternative that cannot begin with anything. -/
theorem C85_ill_formed_accepted :
    (∃ r, fromGrammar id ⟨[rule b!"S" [[.terminal b!"a", .terminal []]]]⟩ = .ok r) ∧
    (∃ r, fromGrammar id ⟨[rule b!"S" [[.nonTerminal b!"A", .terminal b!"x", .nonTerminal b!"U"], [.terminal b!"b"]],
      rule b!"A" [[.nonTerminal b!"A", .terminal b!"y"]]]⟩ = .ok r) ∧
    (∃ r, fromGrammar id ⟨[rule b!"S" [[.nonTerminal b!"A", .nothing], [.terminal b!"b"]],
      rule b!"A" [[.nonTerminal b!"A", .terminal b!"y"]]]⟩ = .ok r) :=
  ⟨⟨_, rfl⟩, ⟨_, rfl⟩, ⟨_, rfl⟩⟩

/-- **C85.** So all three are `Examined` without being well-formed. -/
theorem C85_examined_witness :
    let g : Grammar := ⟨[rule b!"S" [[.nonTerminal b!"A", .terminal b!"x", .nonTerminal b!"U"], [.terminal b!"b"]],
      rule b!"A" [[.nonTerminal b!"A", .terminal b!"y"]]]⟩
    Examined g ∧ ¬ g.AllDefined := by
  intro g
  refine ⟨((C85_accepted_iff id g).1 ?_).1, fun h => ?_⟩
  · obtain ⟨r, h⟩ := C85_ill_formed_accepted.2.1
    exact ⟨r.1, r.2, h⟩
  · obtain ⟨j, r, hr, hh⟩ := h 0 ⟨[.nonTerminal b!"A", .terminal b!"x", .nonTerminal b!"U"]⟩ b!"U"
      ⟨_, rfl, .head _⟩ (by simp)
    match j, hr with
    | 0, hr => cases hr; revert hh; decide +kernel
    | 1, hr => cases hr; revert hh; decide +kernel

end LL1
