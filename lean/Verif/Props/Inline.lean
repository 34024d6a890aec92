import Verif.Proofs.Inline
import Verif.Props.Extract

/-!
# C109: writing out a rule that has only one alternative
-/

namespace LL1

/-- **C109.** Every rule derives what it derived before. -/
theorem C109_language (g g' : Grammar) (name : Str) (q : Nat) (body : List Symbol) (h : WrittenOut g g' name q body) :
    (∀ w, Sentence g' w ↔ Sentence g w) ∧ (∀ i w, GenRule g' i w ↔ GenRule g i w) :=
  ⟨fun _ => h.genRule_iff, fun _ _ => h.genRule_iff⟩

/-- **C109.** It is LL(1) exactly if it was. -/
theorem C109_ll1 (g g' : Grammar) (name : Str) (q : Nat) (body : List Symbol) (h : WrittenOut g g' name q body) :
    IsLL1 g' ↔ IsLL1 g := h.isLL1_iff

/-- **C109.** Heads stay distinct, NUL bytes do not appear; and the grammar stays well formed unless `body` contains the
empty-string symbol. -/
theorem C109_keeps (g g' : Grammar) (name : Str) (q : Nat) (body : List Symbol) (h : WrittenOut g g' name q body) :
    (DistinctHeads g → DistinctHeads g') ∧ (g.NulFree → g'.NulFree) ∧
    (Symbol.nothing ∉ body → g.WellFormed → g'.WellFormed) := by
  refine ⟨h.distinct, h.nulFree, fun hb hw => ⟨?_, ?_, ?_, ?_, ?_⟩⟩
  · rw [h.result]
    simpa using hw.rules
  · intro i a' t ha' ht
    obtain ⟨a, ha, rfl⟩ := h.alt_from ha'
    rcases h.mem_expand ht with h1 | h1
    · exact hw.term i a t ha h1
    · exact hw.term q _ t (h.one.alt.2 rfl) h1
  · intro i a' ha' hm
    obtain ⟨a, ha, rfl⟩ := h.alt_from ha'
    rcases h.mem_expand hm with h1 | h1
    · have := hw.nothing i a ha h1
      simp [this, expand]
    · exact (hb h1).elim
  · intro i a' ha'
    obtain ⟨a, ha, rfl⟩ := h.alt_from ha'
    have h1 := hw.alts i a ha
    have h2 : body ≠ [] := hw.alts q ⟨body⟩ (h.one.alt.2 rfl)
    obtain ⟨syms⟩ := a
    cases syms with
    | nil => exact (h1 rfl).elim
    | cons y ys =>
      by_cases hy : y = .nonTerminal name
      · subst hy
        simp only [expand_cons_name]
        simp [h2]
      · simp [expand_cons_ne hy]
  · intro i a' n ha' hm
    obtain ⟨a, ha, rfl⟩ := h.alt_from ha'
    rcases h.mem_expand hm with h1 | h1
    · exact (hw.defined i a n ha h1).imp fun _ => h.head_iff.2
    · exact (hw.defined q _ n (h.one.alt.2 rfl) h1).imp fun _ => h.head_iff.2

/-- **C109.** The new derivation trees are the old ones without the nodes for the rule. -/
theorem C109_tree (g g' : Grammar) (name : Str) (q : Nat) (body : List Symbol) (h : WrittenOut g g' name q body) (w : Str)
    (d : DTree) : IsDTree g' 0 w d ↔ ∃ t, IsDTree g 0 w t ∧ t.without q = [d] :=
  h.isDTree_iff (Ne.symm h.notFirst)

/-- **C109.** If both are free of nullable gaps, `FromGrammar` accepts both; the parsers accept the same texts, and return
the pictures of a derivation tree and of that tree without the nodes for the rule. -/
theorem C109_parser (g g' : Grammar) (name : Str) (q : Nat) (body : List Symbol) (h : WrittenOut g g' name q body)
    (hb : Symbol.nothing ∉ body) (hw : g.WellFormed) (hd : DistinctHeads g) (hz : g.NulFree) (hll : IsLL1 g)
    (hg : NoNullableGap g) (hg' : NoNullableGap g') (o o' : Order) :
    ∃ tbl names tbl' names', fromGrammar o g = .ok (tbl, names) ∧ fromGrammar o' g' = .ok (tbl', names') ∧
      ∀ (m m1 : Names) (src : Source) (w : Str), readSource src = .ok w → (0 : UInt8) ∉ w →
        (∃ (t d : DTree) (m2 m3 : Names), IsDTree g 0 w t ∧ t.without q = [d] ∧ (Parser.mk tbl (some m)).Returns src (.ok (t.toNode 0) m2) ∧
          (Parser.mk tbl' (some m1)).Returns src (.ok (d.toNode 0) m3)) ∨
        ((∃ e, (Parser.mk tbl (some m)).Returns src (.err e)) ∧ ∃ e, (Parser.mk tbl' (some m1)).Returns src (.err e)) := by
  have hk := C109_keeps g g' name q body h
  have hz' := hk.2.1 hz
  have hll' := h.isLL1_iff.2 hll
  obtain ⟨tbl, names, e⟩ := C29_ll1_accepted o g hz.start hw hd hg hll
  obtain ⟨tbl', names', e'⟩ := C29_ll1_accepted o' g' hz'.start (hk.2.2 hb hw) (hk.1 hd) hg' hll'
  have hcov := covered_of_noGap (TG.fromGrammar_ok hz.start e) hg
  have hcov' := covered_of_noGap (TG.fromGrammar_ok hz'.start e') hg'
  refine ⟨tbl, names, tbl', names', e, e', fun m m1 src w hr h0 => ?_⟩
  have hdec := C34_decides o g tbl names e hz hll hcov m src w hr h0
  have hdec' := C34_decides o' g' tbl' names' e' hz' hll' hcov' m1 src w hr h0
  rw [(C109_language g g' name q body h).1] at hdec'
  by_cases hs : Sentence g w
  · left
    obtain ⟨d, hd'⟩ := (C60_sentence_iff g' w).1 (((C109_language g g' name q body h).1 w).2 hs)
    obtain ⟨t, ht, he⟩ := (C109_tree g g' name q body h w d).1 hd'
    obtain ⟨m2, r1⟩ := (C60_returned_tree o g tbl names e hz hll hcov m src w hr t ht).1
    obtain ⟨m3, r2⟩ := (C60_returned_tree o' g' tbl' names' e' hz' hll' hcov' m1 src w hr d hd').1
    exact ⟨t, d, m2, m3, ht, he, r1, r2⟩
  · exact .inr ⟨hdec.2.1 hs, hdec'.2.1 hs⟩

/-! ## Examples -/

/-- `S ::= "(" P ")" | "x" ; P ::= S "," S` -/
def Ex.pairs : Grammar := ⟨[
  rule b!"S" [[.terminal b!"(", .nonTerminal b!"P", .terminal b!")"], [.terminal b!"x"]],
  rule b!"P" [[.nonTerminal b!"S", .terminal b!",", .nonTerminal b!"S"]]]⟩

/-- `S ::= "(" S "," S ")" | "x" ; P ::= S "," S` -/
def Ex.pairsOut : Grammar := ⟨[
  rule b!"S" [[.terminal b!"(", .nonTerminal b!"S", .terminal b!",", .nonTerminal b!"S", .terminal b!")"], [.terminal b!"x"]],
  rule b!"P" [[.nonTerminal b!"S", .terminal b!",", .nonTerminal b!"S"]]]⟩

theorem head_only {g : Grammar} {name : Str} {q : Nat}
    (h : ((List.range g.rules.length).all fun i => decide (g.rules[i]?.map Rule.head = some name → i = q)) = true) :
    ∀ i, g.Head i name → i = q := by
  rintro i ⟨r, hr, hh⟩
  have hlt := (List.getElem?_eq_some_iff.1 hr).1
  have := List.all_eq_true.1 h i (List.mem_range.2 hlt)
  simp only [decide_eq_true_eq] at this
  exact this (by rw [hr]; simp [hh])

theorem Ex.pairs_out : WrittenOut Ex.pairs Ex.pairsOut b!"P" 1 [.nonTerminal b!"S", .terminal b!",", .nonTerminal b!"S"] where
  rule := rfl
  notFirst := by decide
  only := head_only (by decide +kernel)
  free := by decide
  result := by decide +kernel

/-- The hypotheses of `C109_parser` are met. -/
example : Ex.pairs.WellFormed ∧ DistinctHeads Ex.pairs ∧ Ex.pairs.NulFree ∧ IsLL1 Ex.pairs ∧ NoNullableGap Ex.pairs ∧
    NoNullableGap Ex.pairsOut :=
  ⟨wellFormed_of (by decide +kernel), distinctHeads_of (by decide +kernel), nulFree_of (by decide +kernel),
    isLL1_of_check (c := Cert.compute Ex.pairs 4) (by decide +kernel),
    noNullableGap_of (c := Cert.compute Ex.pairs 4) (by decide +kernel) (by decide +kernel),
    noNullableGap_of (c := Cert.compute Ex.pairsOut 4) (by decide +kernel) (by decide +kernel)⟩

/-- The two trees of `(x,x)`. -/
example : ∃ tbl names tbl' names' m m', fromGrammar id Ex.pairs = .ok (tbl, names) ∧
    fromGrammar id Ex.pairsOut = .ok (tbl', names') ∧
    (Parser.mk tbl (some names)).Returns (.string b!"(x,x)") (.ok (.mk 0 0 5 [.mk (-1) 0 1 [],
      .mk 1 1 4 [.mk 0 1 2 [.mk (-1) 1 2 []], .mk (-1) 2 3 [], .mk 0 3 4 [.mk (-1) 3 4 []]], .mk (-1) 4 5 []]) m) ∧
    (Parser.mk tbl' (some names')).Returns (.string b!"(x,x)") (.ok (.mk 0 0 5 [.mk (-1) 0 1 [],
      .mk 0 1 2 [.mk (-1) 1 2 []], .mk (-1) 2 3 [], .mk 0 3 4 [.mk (-1) 3 4 []], .mk (-1) 4 5 []]) m') :=
  ⟨_, _, _, _, _, _, rfl, rfl, ⟨60, rfl⟩, ⟨60, rfl⟩⟩

/-- `gapMended` with its rule `X` written out: the nullable gap is back. -/
def Ex.gapAgain : Grammar := ⟨[
  rule b!"S" [[.nonTerminal b!"A", .nonTerminal b!"B", .terminal b!"d"]],
  rule b!"A" [[.terminal b!"a"], [.nothing]],
  rule b!"B" [[.terminal b!"b"], [.nothing]],
  rule b!"X" [[.nonTerminal b!"B", .terminal b!"d"]]]⟩

theorem Ex.gap_again : WrittenOut Ex.gapMended Ex.gapAgain b!"X" 3 [.nonTerminal b!"B", .terminal b!"d"] where
  rule := rfl
  notFirst := by decide
  only := head_only (by decide +kernel)
  free := by decide
  result := by decide +kernel

/-- **C109.** Why the result must be free of nullable gaps: writing out a rule of an LL(1) grammar whose parser is right can
give an LL(1) grammar, with the same language, that `FromGrammar` accepts and whose parser is wrong. -/
theorem C109_gap :
    WrittenOut Ex.gapMended Ex.gapAgain b!"X" 3 [.nonTerminal b!"B", .terminal b!"d"] ∧ IsLL1 Ex.gapAgain ∧
    Sentence Ex.gapAgain b!"d" ∧
    (∃ tbl names, fromGrammar id Ex.gapMended = .ok (tbl, names) ∧
      ∃ t m', (Parser.mk tbl (some names)).Returns (.string b!"d") (.ok t m')) ∧
    (∃ tbl names, fromGrammar id Ex.gapAgain = .ok (tbl, names) ∧
      ∃ e, (Parser.mk tbl (some names)).Returns (.string b!"d") (.err e)) := by
  obtain ⟨hr, hs, _, hok⟩ := C97_matters
  refine ⟨Ex.gap_again, ?_, ?_, hok, ⟨_, _, rfl, _, 40, rfl⟩⟩
  · exact Ex.gap_again.isLL1_iff.2 (hr.isLL1 (isLL1_of_check (c := Cert.compute Ex.gap 4) (by decide +kernel)))
  · exact Ex.gap_again.genRule_iff.2 ((hr.sentence_iff _).2 hs)

/-- **C109.** Why `body` must not be the empty string: writing out `E` in `S ::= "a" E ; E ::= ""` gives `S ::= "a" ""`, on
which `FromGrammar` panics. -/
theorem C109_nothing :
    WrittenOut ⟨[rule b!"S" [[.terminal b!"a", .nonTerminal b!"E"]], rule b!"E" [[.nothing]]]⟩
      ⟨[rule b!"S" [[.terminal b!"a", .nothing]], rule b!"E" [[.nothing]]]⟩ b!"E" 1 [.nothing] ∧
    (∃ tbl names, fromGrammar id ⟨[rule b!"S" [[.terminal b!"a", .nonTerminal b!"E"]], rule b!"E" [[.nothing]]]⟩ = .ok (tbl, names)) ∧
    fromGrammar id ⟨[rule b!"S" [[.terminal b!"a", .nothing]], rule b!"E" [[.nothing]]]⟩ = .panic .unreachable :=
  ⟨⟨rfl, by decide, head_only (by decide +kernel), by decide, by decide +kernel⟩, ⟨_, _, rfl⟩, by decide +kernel⟩

end LL1
