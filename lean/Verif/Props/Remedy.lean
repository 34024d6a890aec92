import Verif.Proofs.Remedy
import Verif.Proofs.Reshape
import Verif.Props.Language
import Verif.Props.Extract
import Verif.Props.TestLanguages

/-!
# C99: the remedies for left recursion and for common beginnings

`FromGrammar` reports neither left recursion (its parser hangs, C36) nor alternatives with a common beginning (its parser
accepts wrong texts, C30).  The remedies — for left recursion the one in the comment of the repository's test grammar,
testgrammars.go:151-157 — keep the language.
-/

namespace LL1
open Golden

/-- **C99.** Rewriting left recursion and common beginnings, any number of times, changes neither the language nor what any
of the old rules derives; heads stay distinct and literals free of NUL. -/
theorem C99_language (g g' : Grammar) (h : Remedied g g') :
    (∀ i w, i < g.rules.length → (GenRule g' i w ↔ GenRule g i w)) ∧
    (g.rules ≠ [] → ∀ w, Sentence g' w ↔ Sentence g w) ∧
    (DistinctHeads g → DistinctHeads g') ∧ (g.NulFree → g'.NulFree) :=
  ⟨fun _ w hi => h.genRule_iff hi w, fun hne w => h.genRule_iff (List.length_pos_iff.2 hne) w, h.keeps.1, h.keeps.2⟩

/-- **C99.** So if the outcome is LL(1), well formed and without nullable gaps, `FromGrammar` accepts it and its parser
decides the language of the original grammar, whatever `FromGrammar` makes of the original. -/
theorem C99_decides (g g' : Grammar) (h : Remedied g g') (hne : g.rules ≠ []) (hd : DistinctHeads g) (hz : g.NulFree)
    (hw : g'.WellFormed) (hll : IsLL1 g') (hg : NoNullableGap g') (order : Order) :
    ∃ tbl names, fromGrammar order g' = .ok (tbl, names) ∧
      ∀ (m : Names) (src : Source) (w : Str), readSource src = .ok w → (0 : UInt8) ∉ w →
        (Sentence g w ↔ ∃ t m', (Parser.mk tbl (some m)).Returns src (.ok t m')) ∧
        (¬ Sentence g w ↔ ∃ e, (Parser.mk tbl (some m)).Returns src (.err e)) := by
  have hz' := h.keeps.2 hz
  obtain ⟨tbl, names, e⟩ := C29_ll1_accepted order g' hz'.start hw (h.keeps.1 hd) hg hll
  refine ⟨tbl, names, e, fun m src w hr h0 => ?_⟩
  have := C34_decides order g' tbl names e hz' hll (covered_of_noGap (TG.fromGrammar_ok hz'.start e) hg) m src w hr h0
  rw [(C99_language g g' h).2.1 hne w] at this
  exact this

/-- **C99.** The edit of C97 is a case of the first rewriting, and every outcome that is LL(1) can be freed of its nullable
gaps as well: then `FromGrammar` accepts and the parser decides the original language. -/
theorem C99_with_gaps (g g' : Grammar) (h : Remedied g g') (hne : g.rules ≠ []) (hd : DistinctHeads g) (hz : g.NulFree)
    (hw : g'.WellFormed) (hll : IsLL1 g') :
    ∃ g'', Remedied g g'' ∧ ∀ order, ∃ tbl names, fromGrammar order g'' = .ok (tbl, names) ∧
      ∀ (m : Names) (src : Source) (w : Str), readSource src = .ok w → (0 : UInt8) ∉ w →
        (Sentence g w ↔ ∃ t m', (Parser.mk tbl (some m)).Returns src (.ok t m')) ∧
        (¬ Sentence g w ↔ ∃ e, (Parser.mk tbl (some m)).Returns src (.err e)) := by
  obtain ⟨g'', h2, hg⟩ := gap_free g'
  have hR : Remedied g g'' := by
    clear hg
    induction h2 with
    | refl => exact h
    | step _ he ih => exact .factor ih he.factors
  exact ⟨g'', hR, fun order => C99_decides g g'' hR hne hd hz (h2.wellFormed hw) (h2.isLL1 hll) hg order⟩

/-- **C99.** The repository's `ResolvedLRecursive` is its `LRecursive` rewritten this way. -/
theorem C99_test_grammars : Resolves lRecursive resolvedLRecursive := by
  refine ⟨0, ⟨b!"T", ⟨[⟨[.terminal b!"_"]⟩, ⟨[.nonTerminal b!"T", .terminal b!"B"]⟩]⟩⟩, _, b!"Ta", _, [[.terminal b!"B"]], [[.terminal b!"_"]],
    ⟨rfl, rfl, ?_, ?_⟩, (TG.get_ruleMap _ _ _).1 (by decide +kernel), by simpa using List.Perm.swap .., .refl _, .refl _⟩
  · rintro i ⟨r, hr, hh⟩
    have : ∀ r ∈ lRecursive.rules, r.head ≠ b!"Ta" := by decide +kernel
    exact this r (List.mem_of_getElem? hr) hh
  · rintro i alt ⟨r, hr, ha⟩ hm
    have : ∀ r ∈ lRecursive.rules, ∀ a ∈ r.tail.sequences, Symbol.nonTerminal b!"Ta" ∉ a.symbols := by decide +kernel
    exact this r (List.mem_of_getElem? hr) alt ha hm

/-- Its hypotheses for `C99_decides` hold, although the parser made from `LRecursive` itself decides nothing (C94). -/
example : Remedied lRecursive resolvedLRecursive ∧ lRecursive.rules ≠ [] ∧ DistinctHeads lRecursive ∧ lRecursive.NulFree ∧
    resolvedLRecursive.WellFormed ∧ IsLL1 resolvedLRecursive ∧ NoNullableGap resolvedLRecursive := by
  refine ⟨.resolve .refl C99_test_grammars, by decide +kernel, distinctHeads_of (by decide +kernel), nulFree_of (by decide +kernel),
    wellFormed_of (by decide +kernel), isLL1_of_check (c := Cert.compute resolvedLRecursive 4) (by decide +kernel), ?_⟩
  intro i alt pre n next post ha hs' hn
  obtain ⟨r, hr, hm⟩ := ha
  have hlen : ∀ r ∈ resolvedLRecursive.rules, ∀ a ∈ r.tail.sequences, a.symbols.length ≤ 2 := by decide +kernel
  have := hlen r (List.mem_of_getElem? hr) alt hm
  rw [hs'] at this
  simp at this
  exact List.length_eq_zero_iff.1 (by omega)

/-- `firstFirst` (`S ::= "a" "b" | "a" "c"`) after the rewriting: `S ::= "a" X ; X ::= "b" | "c"` -/
def Ex.firstFactored : Grammar := ⟨[
  rule b!"S" [[.terminal b!"a", .nonTerminal b!"X"]],
  rule b!"X" [[.terminal b!"b"], [.terminal b!"c"]]]⟩

/-- **C99.** It matters for common beginnings as well: `FromGrammar` accepts `S ::= "a" "b" | "a" "c"`, but the parser rejects
the sentence `ab` and accepts `abac`, which is none; the parser of the rewritten grammar decides the language. -/
theorem C99_common_beginning :
    Factors Ex.firstFirst Ex.firstFactored ∧
    (∃ tbl names, fromGrammar id Ex.firstFirst = .ok (tbl, names) ∧
      (∃ e, (Parser.mk tbl (some names)).Returns (.string b!"ab") (.err e)) ∧
      (∃ t m, (Parser.mk tbl (some names)).Returns (.string b!"abac") (.ok t m))) ∧
    (∀ order, ∃ tbl names, fromGrammar order Ex.firstFactored = .ok (tbl, names) ∧
      ∀ (m : Names) (src : Source) (w : Str), readSource src = .ok w → (0 : UInt8) ∉ w →
        (Sentence Ex.firstFirst w ↔ ∃ t m', (Parser.mk tbl (some m)).Returns src (.ok t m')) ∧
        (¬ Sentence Ex.firstFirst w ↔ ∃ e, (Parser.mk tbl (some m)).Returns src (.err e))) := by
  have hF : Factors Ex.firstFirst Ex.firstFactored := by
    refine ⟨0, rule b!"S" [[.terminal b!"a", .terminal b!"b"], [.terminal b!"a", .terminal b!"c"]], _, b!"X", _, [.terminal b!"a"],
      [[.terminal b!"b"], [.terminal b!"c"]], [], ⟨rfl, rfl, ?_, ?_⟩, by simp, .refl _, .refl _, .refl _⟩
    · rintro i ⟨r, hr, hh⟩
      have : ∀ r ∈ Ex.firstFirst.rules, r.head ≠ b!"X" := by decide +kernel
      exact this r (List.mem_of_getElem? hr) hh
    · rintro i alt ⟨r, hr, ha⟩ hm
      have : ∀ r ∈ Ex.firstFirst.rules, ∀ a ∈ r.tail.sequences, Symbol.nonTerminal b!"X" ∉ a.symbols := by decide +kernel
      exact this r (List.mem_of_getElem? hr) alt ha hm
  refine ⟨hF, ⟨_, _, C30_unreported.1.2, ⟨_, 40, rfl⟩, ⟨_, _, 60, rfl⟩⟩, fun order => ?_⟩
  refine C99_decides Ex.firstFirst Ex.firstFactored (.factor .refl hF) (by decide +kernel) (distinctHeads_of (by decide +kernel))
    (nulFree_of (by decide +kernel)) (wellFormed_of (by decide +kernel))
    (isLL1_of_check (c := Cert.compute Ex.firstFactored 4) (by decide +kernel)) ?_ order
  intro i alt pre n next post ha hs' hn
  obtain ⟨r, hr, hm⟩ := ha
  have hlen : ∀ r ∈ Ex.firstFactored.rules, ∀ a ∈ r.tail.sequences, a.symbols.length ≤ 2 := by decide +kernel
  have := hlen r (List.mem_of_getElem? hr) alt hm
  rw [hs'] at this
  simp at this
  exact List.length_eq_zero_iff.1 (by omega)

end LL1
