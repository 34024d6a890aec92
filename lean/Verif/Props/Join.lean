import Verif.Proofs.Join3

/-!
# Putting two grammars together (C107)
-/

namespace LL1
open Join

/-- **C107.** The language of `top ::= <a> | <b>` is the union, that of `top ::= <a> <b>` the concatenation of the two
languages (of any two grammars that can be put together). -/
theorem C107_language (top : Str) (a b : Grammar) (h : Joinable top a b) (w : Str) :
    (Sentence (a.choice top b) w ↔ Sentence a w ∨ Sentence b w) ∧
    (Sentence (a.chain top b) w ↔ ∃ u v, w = u ++ v ∧ Sentence a u ∧ Sentence b v) := by
  constructor
  · have hl := left (alts := two a b) h
    have hr := right (alts := two a b) h
    have key : ∀ {k : Nat} {g : Grammar} (hi : RulesFrom k g (J top (two a b) a b)) (hg : g.rules ≠ []),
        Gen (J top (two a b) a b) [.nonTerminal g.startName] w ↔ Sentence g w := by
      intro k g hi hg
      rw [gen_start hi hg]
      constructor
      · rintro ⟨u, v, rfl, hs, hv⟩
        cases hv
        simpa using hs
      · intro hs
        exact ⟨w, [], by simp, hs, .nil⟩
    constructor
    · rintro ⟨s, ha, hG⟩
      have := alt_zero.1 ha
      simp only [List.mem_cons, List.not_mem_nil, or_false] at this
      rcases this with rfl | rfl
      · exact .inl ((key hl h.left).1 hG)
      · exact .inr ((key hr h.right).1 hG)
    · rintro (hs | hs)
      · exact ⟨_, alt_zero.2 List.mem_cons_self, (key hl h.left).2 hs⟩
      · exact ⟨⟨[.nonTerminal b.startName]⟩, alt_zero.2 (by simp), (key hr h.right).2 hs⟩
  · have hl := left (alts := [⟨[.nonTerminal a.startName, .nonTerminal b.startName]⟩]) h
    have hr := right (alts := [⟨[.nonTerminal a.startName, .nonTerminal b.startName]⟩]) h
    constructor
    · rintro ⟨s, ha, hG⟩
      have := alt_zero.1 ha
      simp only [List.mem_cons, List.not_mem_nil, or_false] at this
      subst this
      obtain ⟨u, v, rfl, hu, hv⟩ := (gen_start hl h.left).1 hG
      obtain ⟨v, v', rfl, hv2, hn⟩ := (gen_start hr h.right).1 hv
      cases hn
      exact ⟨u, v, by simp, hu, hv2⟩
    · rintro ⟨u, v, rfl, hu, hv⟩
      exact ⟨_, alt_zero.2 List.mem_cons_self, (gen_start hl h.left).2 ⟨u, v, rfl, hu,
        (gen_start hr h.right).2 ⟨v, [], by simp, hv, .nil⟩⟩⟩

/-- **C107.** Exactly when `top ::= <a> | <b>` is LL(1): both are, nothing can begin both an `a` and a `b`, and not both
can be empty. -/
theorem C107_choice_ll1 (top : Str) (a b : Grammar) (h : Joinable top a b) (hza : a.NulStartFree) (hzb : b.NulStartFree) :
    IsLL1 (a.choice top b) ↔ IsLL1 a ∧ IsLL1 b ∧ (∀ c, RuleFirst a 0 c → ¬ RuleFirst b 0 c) ∧
      ¬ (RuleNullable a 0 ∧ RuleNullable b 0) :=
  ll1_iff h hza hzb

/-- **C107.** The parser of `top ::= <a> | <b>`: `FromGrammar` makes it; a text that the parser of `a` (or that of `b`)
accepts it accepts too, and returns the same tree, its rule numbers moved on, below a new root (which has the
"nothing" child instead if the text is empty); it gives an error iff both others do. -/
theorem C107_choice_parser (top : Str) (a b : Grammar) (h : Joinable top a b) (hwa : a.WellFormed) (hwb : b.WellFormed)
    (hza : a.NulFree) (hzb : b.NulFree) (hga : NoNullableGap a) (hgb : NoNullableGap b) (hla : IsLL1 a) (hlb : IsLL1 b)
    (hdis : ∀ c, RuleFirst a 0 c → ¬ RuleFirst b 0 c) (hnul : ¬ (RuleNullable a 0 ∧ RuleNullable b 0))
    (o oa ob : Order) (ta tb : Table) (na nb : Names) (hfa : fromGrammar oa a = .ok (ta, na))
    (hfb : fromGrammar ob b = .ok (tb, nb)) :
    ∃ tbl names, fromGrammar o (a.choice top b) = .ok (tbl, names) ∧
      ∀ (m : Names) (src : Source) (text : Str), readSource src = .ok text → (0 : UInt8) ∉ text →
        (∀ t m', (Parser.mk ta (some na)).Returns src (.ok t m') → ∃ m'', (Parser.mk tbl (some m)).Returns src
          (.ok (.mk 0 0 text.length (if text = [] then [nothingNode 0] else [t.renumber (later 1)])) m'')) ∧
        (∀ t m', (Parser.mk tb (some nb)).Returns src (.ok t m') → ∃ m'', (Parser.mk tbl (some m)).Returns src
          (.ok (.mk 0 0 text.length (if text = [] then [nothingNode 0] else [t.renumber (later (1 + a.rules.length))])) m'')) ∧
        ((∃ e, (Parser.mk tbl (some m)).Returns src (.err e)) ↔
          (∃ e, (Parser.mk ta (some na)).Returns src (.err e)) ∧ ∃ e, (Parser.mk tb (some nb)).Returns src (.err e)) := by
  have hll := (C107_choice_ll1 top a b h hza.start hzb.start).2 ⟨hla, hlb, hdis, hnul⟩
  have hz : (a.choice top b).NulFree := nulFree (alts := two a b) h (by simp [two]) hza hzb
  have hg : NoNullableGap (a.choice top b) := noGap (alts := two a b) h (by simp [two]) hga hgb
  have hw : (a.choice top b).WellFormed := wellFormed (alts := two a b) h (by simp [two]) hwa hwb
  obtain ⟨tbl, names, hf⟩ := C29_ll1_accepted o _ hz.start hw (distinct (alts := two a b) h) hg hll
  have hcov := covered_of_noGap (TG.fromGrammar_ok hz.start hf) hg
  have hcova := covered_of_noGap (TG.fromGrammar_ok hza.start hfa) hga
  have hcovb := covered_of_noGap (TG.fromGrammar_ok hzb.start hfb) hgb
  refine ⟨tbl, names, hf, fun m src text hr h0 => ?_⟩
  have hda := C34_decides oa a ta na hfa hza hla hcova na src text hr h0
  have hdb := C34_decides ob b tb nb hfb hzb hlb hcovb nb src text hr h0
  have hd := C34_decides o _ tbl names hf hz hll hcov m src text hr h0
  have key : ∀ {k : Nat} {g : Grammar} (_ : RulesFrom k g (a.choice top b)) (_ : g.rules ≠ []) (q : Nat)
      (_ : (two a b)[q]? = some ⟨[.nonTerminal g.startName]⟩) (tg : Table) (ng : Names) (og : Order)
      (_ : fromGrammar og g = .ok (tg, ng)) (_ : g.NulFree) (_ : IsLL1 g) (_ : Covered g tg) (_ : Sentence g text),
      ∀ t m', (Parser.mk tg (some ng)).Returns src (.ok t m') → ∃ m'', (Parser.mk tbl (some m)).Returns src
          (.ok (.mk 0 0 text.length (if text = [] then [nothingNode 0] else [t.renumber (later k)])) m'') := by
    intro k g hi hne q hq tg ng og hfg hzg hlg hcg hs t m' ht
    obtain ⟨d, hdt⟩ := (C60_sentence_iff g text).1 hs
    have htt := (C60_returned_tree og g tg ng hfg hzg hlg hcg ng src text hr d hdt).2 t m' ht
    obtain ⟨h1, h2⟩ := hi.isDTree hdt (start_head hne) .nil
    have hD : IsDTree (a.choice top b) 0 text (.node 0 q [d.later k]) :=
      ⟨_, q, _, _, rfl, hq, h1, rfl, by simp [DTree.yield, DTree.yields, h2]⟩
    obtain ⟨⟨m'', hret⟩, _⟩ := C60_returned_tree o _ tbl names hf hz hll hcov m src text hr _ hD
    refine ⟨m'', ?_⟩
    have hsh : ∀ n : Node, n.shift 0 = n := shift_zero
    simp only [DTree.toNode, DTree.toNodes, DTree.yields, h2, List.append_nil, toNode_later hdt, hsh, ← htt, Nat.zero_add] at hret
    exact hret
  refine ⟨fun t m' ht => ?_, fun t m' ht => ?_, ?_⟩
  · exact key (left (alts := two a b) h) h.left 0 rfl ta na oa hfa hza hla hcova (hda.1.2 ⟨t, m', ht⟩) t m' ht
  · exact key (right (alts := two a b) h) h.right 1 rfl tb nb ob hfb hzb hlb hcovb (hdb.1.2 ⟨t, m', ht⟩) t m' ht
  · rw [← hd.2, ← hda.2, ← hdb.2, (C107_language top a b h text).1]
    simp only [not_or]

/-- **C107.** Exactly when `top ::= <a> <b>` is LL(1): both are, and nothing that can begin a `b` can begin a rule of `a`
that may be left out at the end of an `a`. -/
theorem C107_chain_ll1 (top : Str) (a b : Grammar) (h : Joinable top a b) (hza : a.NulStartFree) (hzb : b.NulStartFree) :
    IsLL1 (a.chain top b) ↔ IsLL1 a ∧ IsLL1 b ∧
      ∀ i c, RuleNullable a i → RuleFirst a i c → Follow a i 0 → ¬ RuleFirst b 0 c :=
  ll1_pair_iff h hza hzb

/-- **C107.** The parser of `top ::= <a> <b>`, if that is LL(1): `FromGrammar` makes it, and for every text `u` that the
parser of `a` accepts and every `v` that the parser of `b` accepts it accepts `u` followed by `v`; the tree has the
two trees below a new root, the second one moved behind the first.  It gives an error iff the text cannot be cut into
such `u` and `v`. -/
theorem C107_chain_parser (top : Str) (a b : Grammar) (h : Joinable top a b) (hwa : a.WellFormed) (hwb : b.WellFormed)
    (hza : a.NulFree) (hzb : b.NulFree) (hga : NoNullableGap a) (hgb : NoNullableGap b) (hla : IsLL1 a) (hlb : IsLL1 b)
    (hll : IsLL1 (a.chain top b))
    (o oa ob : Order) (ta tb : Table) (na nb : Names) (hfa : fromGrammar oa a = .ok (ta, na))
    (hfb : fromGrammar ob b = .ok (tb, nb)) :
    ∃ tbl names, fromGrammar o (a.chain top b) = .ok (tbl, names) ∧
      ∀ (m : Names),
        (∀ u v t t' ma mb, (0 : UInt8) ∉ u → (0 : UInt8) ∉ v →
          (Parser.mk ta (some na)).Returns (.string u) (.ok t ma) → (Parser.mk tb (some nb)).Returns (.string v) (.ok t' mb) →
          ∃ m'', (Parser.mk tbl (some m)).Returns (.string (u ++ v)) (.ok (.mk 0 0 (u ++ v).length
            (if u ++ v = [] then [nothingNode 0] else
              [t.renumber (later 1), (t'.renumber (later (1 + a.rules.length))).shift u.length])) m'')) ∧
        ∀ w, (0 : UInt8) ∉ w → ((∃ e, (Parser.mk tbl (some m)).Returns (.string w) (.err e)) ↔
          ∀ u v, w = u ++ v → (∃ e, (Parser.mk ta (some na)).Returns (.string u) (.err e)) ∨
            ∃ e, (Parser.mk tb (some nb)).Returns (.string v) (.err e)) := by
  have hz : (a.chain top b).NulFree := nulFree (alts := [⟨[.nonTerminal a.startName, .nonTerminal b.startName]⟩]) h (by simp) hza hzb
  have hg : NoNullableGap (a.chain top b) :=
    noGap (alts := [⟨[.nonTerminal a.startName, .nonTerminal b.startName]⟩]) h (by simp) hga hgb
  have hw : (a.chain top b).WellFormed :=
    wellFormed (alts := [⟨[.nonTerminal a.startName, .nonTerminal b.startName]⟩]) h (by simp) hwa hwb
  have hl := left (alts := [⟨[.nonTerminal a.startName, .nonTerminal b.startName]⟩]) h
  have hri := right (alts := [⟨[.nonTerminal a.startName, .nonTerminal b.startName]⟩]) h
  obtain ⟨tbl, names, hf⟩ := C29_ll1_accepted o _ hz.start hw (distinct h) hg hll
  have hcov := covered_of_noGap (TG.fromGrammar_ok hz.start hf) hg
  have hcova := covered_of_noGap (TG.fromGrammar_ok hza.start hfa) hga
  have hcovb := covered_of_noGap (TG.fromGrammar_ok hzb.start hfb) hgb
  refine ⟨tbl, names, hf, fun m => ⟨?_, ?_⟩⟩
  · intro u v t t' ma mb hu hv hta htb
    have hsa := (C34_decides oa a ta na hfa hza hla hcova na (.string u) u rfl hu).1.2 ⟨t, ma, hta⟩
    have hsb := (C34_decides ob b tb nb hfb hzb hlb hcovb nb (.string v) v rfl hv).1.2 ⟨t', mb, htb⟩
    obtain ⟨d, hd⟩ := (C60_sentence_iff a u).1 hsa
    obtain ⟨d', hd'⟩ := (C60_sentence_iff b v).1 hsb
    have e1 := (C60_returned_tree oa a ta na hfa hza hla hcova na (.string u) u rfl d hd).2 t ma hta
    have e2 := (C60_returned_tree ob b tb nb hfb hzb hlb hcovb nb (.string v) v rfl d' hd').2 t' mb htb
    obtain ⟨g1, g2⟩ := hri.isDTree hd' (start_head h.right) .nil
    obtain ⟨h1, h2⟩ := hl.isDTree hd (start_head h.left) g1
    have hD : IsDTree (a.chain top b) 0 (u ++ v) (.node 0 0 [d.later 1, d'.later (1 + a.rules.length)]) :=
      ⟨_, 0, _, _, rfl, rfl, h1, rfl, by simp [DTree.yield, DTree.yields, h2, g2]⟩
    obtain ⟨⟨m'', hret⟩, _⟩ := C60_returned_tree o _ tbl names hf hz hll hcov m (.string (u ++ v)) _ rfl _ hD
    refine ⟨m'', ?_⟩
    have hsh : ∀ n : Node, n.shift 0 = n := shift_zero
    simp only [DTree.toNode, DTree.toNodes, DTree.yields, h2, g2, List.append_nil, toNode_later hd, toNode_later hd', hsh,
      ← e1, ← e2, Nat.zero_add] at hret
    exact hret
  · intro w h0
    rw [← (C34_decides o _ tbl names hf hz hll hcov m (.string w) w rfl h0).2, (C107_language top a b h w).2]
    have key : ∀ u v, w = u ++ v → (((∃ e, (Parser.mk ta (some na)).Returns (.string u) (.err e)) ∨
        ∃ e, (Parser.mk tb (some nb)).Returns (.string v) (.err e)) ↔ ¬ (Sentence a u ∧ Sentence b v)) := by
      rintro u v rfl
      rw [← (C34_decides oa a ta na hfa hza hla hcova na (.string u) u rfl (fun hm => h0 (by simp [hm]))).2,
        ← (C34_decides ob b tb nb hfb hzb hlb hcovb nb (.string v) v rfl (fun hm => h0 (by simp [hm]))).2]
      exact Classical.not_and_iff_not_or_not.symm
    constructor
    · intro hn u v he
      exact (key u v he).2 fun hs => hn ⟨u, v, he, hs⟩
    · rintro hall ⟨u, v, he, hs⟩
      exact (key u v he).1 (hall u v he) hs

/-- Binary numbers: `N ::= "0" M | "1" M ; M ::= "0" M | "1" M | ""`. -/
def Ex.binary : Grammar := ⟨[
  rule b!"N" [[.terminal b!"0", .nonTerminal b!"M"], [.terminal b!"1", .nonTerminal b!"M"]],
  rule b!"M" [[.terminal b!"0", .nonTerminal b!"M"], [.terminal b!"1", .nonTerminal b!"M"], [.nothing]]]⟩

theorem Ex.join_nested : Joinable b!"J" Ex.nested Ex.binary where
  left := by decide
  right := by decide
  leftDefined := (wellFormed_of (g := Ex.nested) (by decide +kernel)).defined
  rightDefined := (wellFormed_of (g := Ex.binary) (by decide +kernel)).defined
  heads := by decide +kernel

/-- The hypotheses of the theorems are met, by the nested brackets and the binary numbers, for the choice and for the
chain. -/
example : Joinable b!"J" Ex.nested Ex.binary ∧ Ex.nested.WellFormed ∧ Ex.binary.WellFormed ∧ Ex.nested.NulFree ∧
    Ex.binary.NulFree ∧ NoNullableGap Ex.nested ∧ NoNullableGap Ex.binary ∧ IsLL1 Ex.nested ∧ IsLL1 Ex.binary ∧
    (∀ c, RuleFirst Ex.nested 0 c → ¬ RuleFirst Ex.binary 0 c) ∧ ¬ (RuleNullable Ex.nested 0 ∧ RuleNullable Ex.binary 0) ∧
    IsLL1 (Ex.nested.chain b!"J" Ex.binary) ∧
    (∃ tbl names, fromGrammar id Ex.nested = .ok (tbl, names)) ∧ (∃ tbl names, fromGrammar id Ex.binary = .ok (tbl, names)) := by
  have hza : Ex.nested.NulFree := nulFree_of (by decide +kernel)
  have hzb : Ex.binary.NulFree := nulFree_of (by decide +kernel)
  have hJ : IsLL1 (Ex.nested.choice b!"J" Ex.binary) :=
    isLL1_of_check (c := Cert.compute (Ex.nested.choice b!"J" Ex.binary) 6) (by decide +kernel)
  obtain ⟨hla, hlb, hd, hn⟩ := (C107_choice_ll1 b!"J" Ex.nested Ex.binary Ex.join_nested hza.start hzb.start).1 hJ
  exact ⟨Ex.join_nested, wellFormed_of (by decide +kernel), wellFormed_of (by decide +kernel), hza, hzb, Ex.nested_noGap,
    noNullableGap_of (c := Cert.compute Ex.binary 4) (by decide +kernel) (by decide +kernel), hla, hlb, hd, hn,
    isLL1_of_check (c := Cert.compute (Ex.nested.chain b!"J" Ex.binary) 6) (by decide +kernel),
    succeeds_iff.1 (by decide +kernel), succeeds_iff.1 (by decide +kernel)⟩

/-- The trees of `x`, of `1` and, for the chain, of `x1`. -/
example : ∃ tbl names tbl' names' m1 m2 m3, fromGrammar id (Ex.nested.choice b!"J" Ex.binary) = .ok (tbl, names) ∧
    fromGrammar id (Ex.nested.chain b!"J" Ex.binary) = .ok (tbl', names') ∧
    (Parser.mk tbl (some names)).Returns (.string b!"x")
      (.ok (.mk 0 0 1 [.mk 1 0 1 [.mk (-1) 0 1 [], .mk 2 1 1 [.mk (-2) 1 1 []]]]) m1) ∧
    (Parser.mk tbl (some names)).Returns (.string b!"1")
      (.ok (.mk 0 0 1 [.mk 3 0 1 [.mk (-1) 0 1 [], .mk 4 1 1 [.mk (-2) 1 1 []]]]) m2) ∧
    (Parser.mk tbl' (some names')).Returns (.string b!"x1")
      (.ok (.mk 0 0 2 [.mk 1 0 1 [.mk (-1) 0 1 [], .mk 2 1 1 [.mk (-2) 1 1 []]],
        .mk 3 1 2 [.mk (-1) 1 2 [], .mk 4 2 2 [.mk (-2) 2 2 []]]]) m3) :=
  ⟨_, _, _, _, _, _, _, rfl, rfl, ⟨40, rfl⟩, ⟨40, rfl⟩, ⟨60, rfl⟩⟩

/-- `1`, and a binary number followed by it: after a digit, `1` can go on with the number or begin the second part. -/
def Ex.one : Grammar := ⟨[rule b!"O" [[.terminal b!"1"]]]⟩

theorem Ex.join_one : Joinable b!"J" Ex.binary Ex.one where
  left := by decide
  right := by decide
  leftDefined := (wellFormed_of (g := Ex.binary) (by decide +kernel)).defined
  rightDefined := (wellFormed_of (g := Ex.one) (by decide +kernel)).defined
  heads := by decide

example : ¬ IsLL1 (Ex.binary.chain b!"J" Ex.one) := by
  have hza : Ex.binary.NulStartFree := (nulFree_of (g := Ex.binary) (by decide +kernel)).start
  have hzb : Ex.one.NulStartFree := (nulFree_of (g := Ex.one) (by decide +kernel)).start
  rw [C107_chain_ll1 _ _ _ Ex.join_one hza hzb]
  rintro ⟨_, _, h⟩
  have hr : Ex.binary.Refers b!"M" 1 :=
    refers_of_distinct (left (alts := two Ex.binary Ex.one) Ex.join_one).distinct_self ⟨_, rfl, rfl⟩
  exact h 1 49 ⟨⟨[.nothing]⟩, ⟨_, rfl, by simp [rule]⟩, .nothing .nil⟩
    ⟨⟨[.terminal b!"1", .nonTerminal b!"M"]⟩, ⟨_, rfl, by simp [rule]⟩, .terminal⟩
    (.last (j := 0) (alt := ⟨[.terminal b!"1", .nonTerminal b!"M"]⟩) (pre := [.terminal b!"1"]) (post := [])
      ⟨_, rfl, by simp [rule]⟩ rfl hr .nil .start)
    ⟨⟨[.terminal b!"1"]⟩, ⟨_, rfl, by simp [rule]⟩, .terminal⟩

end LL1
