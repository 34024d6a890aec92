import Verif.Proofs.Vanish
import Verif.Props.Exact
import Verif.Props.EndToEnd

/-!
# Exactly which sentences of an LL(1) grammar are accepted (C93)
-/

namespace LL1

theorem gen_nulFree {g : Grammar} (hz : g.NulFree) {ys : List Symbol} {w : Str} (h : Gen g ys w) :
    (∀ t, Symbol.terminal t ∈ ys → (0 : UInt8) ∉ t) → (0 : UInt8) ∉ w := by
  induction h with
  | nil => simp
  | terminal _ ih =>
    intro ht
    have h1 := ht _ (List.mem_cons_self ..)
    have h2 := ih (fun t h => ht t (List.mem_cons_of_mem _ h))
    simp [h1, h2]
  | nothing _ ih => intro ht; exact ih (fun t h => ht t (List.mem_cons_of_mem _ h))
  | nonTerminal _ ha _ _ ih1 ih2 =>
    intro ht
    have h1 := ih1 (fun t h => hz _ _ t ha h)
    have h2 := ih2 (fun t h => ht t (List.mem_cons_of_mem _ h))
    simp [h1, h2]

theorem sentence_nulFree {g : Grammar} (hz : g.NulFree) {w : Str} (h : Sentence g w) : (0 : UInt8) ∉ w := by
  obtain ⟨alt, ha, hG⟩ := h
  exact gen_nulFree hz hG (fun t h => hz _ _ t ha h)

theorem bodyFor_of_vanishes {g : Grammar} {tbl : Table} (h : TG.TableOk g tbl) (hll : IsLL1 g) {w : Str} {d : DTree}
    (hd : IsDTree g 0 w d) {i : Nat} {b : UInt8} (hv : Vanishes i b [d] 0) :
    (bodyFor tbl (i : Nat) b = none ↔ ¬ NextFollow g i b) ∧ i < g.rules.length := by
  obtain ⟨r, k, alt, cs, hi, hk, hu, rfl, rfl⟩ := hd
  have ha : g.Alt 0 alt := ⟨r, hi, List.mem_of_getElem? hk⟩
  have hnf : RuleNullable g i ∧ Follow g i b := by
    cases hv with
    | here he hb =>
      subst hb
      exact ⟨⟨alt, ha, nullable_iff_gen.2 (he ▸ hu.gen)⟩, .start⟩
    | inside _ h => exact h.nullable hu (.alt ha .start)
    | later h => cases h
  obtain ⟨⟨a, ha', hn⟩, hf⟩ := hnf
  obtain ⟨r', hi', hm'⟩ := id ha'
  refine ⟨?_, ha'.lt⟩
  rw [(h.cell hi' b).1]
  constructor
  · exact fun hc hx => hc (.inr ⟨⟨a, ha', hn⟩, hx⟩)
  · rintro hc (hx | hx)
    · exact hll.2.2 i b ⟨a, ha', hn⟩ hx hf
    · exact hc hx.2

/-- **C93.** Let `d` be the derivation tree of a sentence of an LL(1) grammar. The generated parser accepts the
sentence iff every rule that derives nothing in `d` (and does not stand below another rule deriving
nothing) is followed there by a byte that may follow it by the next-symbol rule; and then it returns
the tree that depicts `d`. -/
theorem C93_sentence (order : Order) (g : Grammar) (tbl : Table) (names : Names)
    (h : fromGrammar order g = .ok (tbl, names)) (hz : g.NulFree) (hll : IsLL1 g) (m : Names)
    (src : Source) (w : Str) (hr : readSource src = .ok w) (d : DTree) (hd : IsDTree g 0 w d) :
    ((∃ t m', (Parser.mk tbl (some m)).Returns src (.ok t m')) ↔
      ∀ i b, Vanishes i b [d] 0 → NextFollow g i b) ∧
    (∀ t m', (Parser.mk tbl (some m)).Returns src (.ok t m') → t = d.toNode 0) := by
  have hc := fromGrammar_closedTable h
  have ht := TG.fromGrammar_ok hz.start h
  have h0 : (0 : UInt8) ∉ w := sentence_nulFree hz ((C60_sentence_iff g w).2 ⟨d, hd⟩)
  have key : (∀ i b, Vanishes i b [d] 0 → NextFollow g i b) →
      (Parser.mk tbl (some m)).Returns src (.ok (d.toNode 0) (addBuiltinNames m)) := by
    intro hv
    have hD := derives_of_dtree' ht hll hd (fun i b h hn => ((bodyFor_of_vanishes ht hll hd h).1.1 hn) (hv i b h))
    exact returns_parse (p := Parser.mk tbl (some m)) hc.hasEntry hr ⟨_, hD, by simp [byteAt]⟩
  have back : (∃ t m', (Parser.mk tbl (some m)).Returns src (.ok t m')) →
      ∀ i b, Vanishes i b [d] 0 → NextFollow g i b := by
    intro hx
    obtain ⟨d', hd', hv⟩ := dtree_of_predictiveRule hll ((C50_exact_language order g tbl names h hll.1 hz m src w hr h0).1 hx)
    cases C60_unambiguous g hll w d d' hd hd'
    exact hv
  refine ⟨⟨back, fun hv => ⟨_, _, key hv⟩⟩, fun t m' ht => ?_⟩
  have := returns_det ht (key (back ⟨t, m', ht⟩))
  cases this
  rfl

/-- **C93.** When a sentence is rejected, the message names a rule that derives nothing at that place in the
sentence's derivation, and the byte behind it, which the next-symbol rule does not foresee. -/
theorem C93_rejected (order : Order) (g : Grammar) (tbl : Table) (names : Names)
    (h : fromGrammar order g = .ok (tbl, names)) (hz : g.NulFree) (hll : IsLL1 g) (m : Names)
    (src : Source) (w : Str) (hr : readSource src = .ok w) (d : DTree) (hd : IsDTree g 0 w d) (e : PErr)
    (he : (Parser.mk tbl (some m)).Returns src (.err e)) :
    ∃ i b, Vanishes i b [d] 0 ∧ ¬ NextFollow g i b ∧ e = .noRule b (rowName (some m) (i : Nat)) := by
  have hc := fromGrammar_closedTable h
  have ht := TG.fromGrammar_ok hz.start h
  rcases derives_or_fails_top (some m) ht hll hd with hD | ⟨k, i, b, hv, hn, hF⟩
  · have := returns_det he (returns_parse (p := Parser.mk tbl (some m)) hc.hasEntry hr ⟨_, hD, by simp [byteAt]⟩)
    cases this
  · obtain ⟨hb, hi⟩ := bodyFor_of_vanishes ht hll hd hv
    refine ⟨i, b, hv, hb.1 hn, ?_⟩
    have := returns_det he ((returns_err_iff (p := Parser.mk tbl (some m)) hc.hasEntry hc.public hr).2 ⟨k, .inl hF⟩)
    cases this
    obtain ⟨row, hrow, _⟩ := ht.rows _ hi
    simp [whyNot, hrow]

/-- **C93.** If wherever a rule can have to vanish inside something non-empty the next-symbol rule foresees it,
the parser of an LL(1) grammar decides the grammar's language. (`C33` asks this of every textbook FOLLOW
byte of a nullable rule.) -/
theorem C93_decides (order : Order) (g : Grammar) (tbl : Table) (names : Names)
    (h : fromGrammar order g = .ok (tbl, names)) (hz : g.NulFree) (hll : IsLL1 g)
    (hm : ∀ i b, MustVanish g i b → NextFollow g i b) (m : Names)
    (src : Source) (w : Str) (hr : readSource src = .ok w) (h0 : (0 : UInt8) ∉ w) :
    (Sentence g w ↔ ∃ t m', (Parser.mk tbl (some m)).Returns src (.ok t m')) ∧
    (¬ Sentence g w ↔ ∃ e, (Parser.mk tbl (some m)).Returns src (.err e)) := by
  have hc := fromGrammar_closedTable h
  have h1 : Sentence g w ↔ ∃ t m', (Parser.mk tbl (some m)).Returns src (.ok t m') := by
    constructor
    · intro hw
      obtain ⟨d, hd⟩ := (C60_sentence_iff g w).1 hw
      refine (C93_sentence order g tbl names h hz hll m src w hr d hd).1.2 (fun i b hv => ?_)
      obtain ⟨r, k, alt, cs, hi, hk, hu, rfl, rfl⟩ := hd
      cases hv with
      | here he hb => subst hb; exact .start
      | inside hne hv =>
        exact hm i b (mustVanish_of_vanishes hv (pre := []) (us := []) (j := 0) (alt := alt)
          ⟨r, hi, List.mem_of_getElem? hk⟩ rfl .nil hu .start (by simpa [DTree.yields] using hne))
      | later h => cases h
    · rintro ⟨t, m', ht⟩
      exact C32_sound_nulFree order g tbl names h hll.1 hz m src w hr h0 t m' ht
  refine ⟨h1, ?_⟩
  rw [h1]
  constructor
  · intro hn
    obtain ⟨o, ho⟩ := C34_terminates order g tbl names h hz.start hll (some m) src
    cases o with
    | ok t m' => exact (hn ⟨t, m', ho⟩).elim
    | err e => exact ⟨e, ho⟩
    | panic p =>
      rcases C08_no_panic tbl m hc.public src _ ho with ⟨_, _, h⟩ | ⟨_, h, _⟩ <;> cases h
  · rintro ⟨e, he⟩ ⟨t, m', ht⟩
    have := returns_det he ht
    cases this

/-- **C93.** The grammars all of whose sentences are accepted: for a reduced LL(1) grammar this is so iff
wherever a rule can have to vanish inside something non-empty, the next-symbol rule foresees it. -/
theorem C93_grammar (order : Order) (g : Grammar) (tbl : Table) (names : Names)
    (h : fromGrammar order g = .ok (tbl, names)) (hz : g.NulFree) (hll : IsLL1 g) (hg : g.Reduced) (m : Names) :
    (∀ src w, readSource src = .ok w → Sentence g w →
      ∃ t m', (Parser.mk tbl (some m)).Returns src (.ok t m')) ↔
    ∀ i b, MustVanish g i b → NextFollow g i b := by
  constructor
  · intro hall i b hm
    obtain ⟨w, d, hd, hv⟩ := vanishes_of_mustVanish hg hm
    have hs : Sentence g w := (C60_sentence_iff g w).2 ⟨d, hd⟩
    exact ((C93_sentence order g tbl names h hz hll m (.string w) w rfl d hd).1.1 (hall _ _ rfl hs)) i b hv
  · intro hm src w hr hs
    exact (C93_decides order g tbl names h hz hll hm m src w hr (sentence_nulFree hz hs)).1.1 hs

/-! ## Cases that meet the hypotheses -/

/-- `S ::= "x" A B "d" | "y" A "d" ; A ::= "" | "a" ; B ::= "" | "b"`: the nullable `B` after `A` is a gap, but the
byte `d` behind it is foreseen because of the second alternative. -/
def Ex.gapCovered : Grammar := ⟨[
  rule b!"S" [[.terminal b!"x", .nonTerminal b!"A", .nonTerminal b!"B", .terminal b!"d"],
    [.terminal b!"y", .nonTerminal b!"A", .terminal b!"d"]],
  rule b!"A" [[.nothing], [.terminal b!"a"]],
  rule b!"B" [[.nothing], [.terminal b!"b"]]]⟩

theorem mustVanish_follow {g : Grammar} {i : Nat} {b : UInt8} (h : MustVanish g i b) : RuleNullable g i ∧ Follow g i b := by
  cases h with
  | first ha hs hr hn hf => exact ⟨hn, .first ha hs hr hf⟩
  | last ha hs hr hn _ hnp hf => exact ⟨hn, .last ha hs hr hnp hf⟩

/-- A grammar with a nullable gap whose parser is complete nevertheless: C93 applies where C33's
`NoNullableGap` does not. -/
theorem C93_gap_complete :
    IsLL1 Ex.gapCovered ∧ Ex.gapCovered.NulFree ∧ Ex.gapCovered.Reduced ∧ ¬ NoNullableGap Ex.gapCovered ∧
    (∃ tbl names, fromGrammar id Ex.gapCovered = .ok (tbl, names)) ∧
    (∀ i b, MustVanish Ex.gapCovered i b → NextFollow Ex.gapCovered i b) ∧
    MustVanish Ex.gapCovered 1 100 ∧ Sentence Ex.gapCovered b!"xd" := by
  have hcert : ll1Check Ex.gapCovered (Cert.compute Ex.gapCovered 4) = true := by decide +kernel
  have hA : Ex.gapCovered.Refers b!"A" 1 := (TG.get_ruleMap _ _ _).1 (by decide +kernel)
  have hB : Ex.gapCovered.Refers b!"B" 2 := (TG.get_ruleMap _ _ _).1 (by decide +kernel)
  have a0 : Ex.gapCovered.Alt 0 ⟨[.terminal b!"x", .nonTerminal b!"A", .nonTerminal b!"B", .terminal b!"d"]⟩ :=
    ⟨_, rfl, by decide⟩
  have a1 : Ex.gapCovered.Alt 0 ⟨[.terminal b!"y", .nonTerminal b!"A", .terminal b!"d"]⟩ := ⟨_, rfl, by decide⟩
  have aA : Ex.gapCovered.Alt 1 ⟨[.nothing]⟩ := ⟨_, rfl, by decide⟩
  have aB : Ex.gapCovered.Alt 2 ⟨[.nothing]⟩ := ⟨_, rfl, by decide⟩
  have aB' : Ex.gapCovered.Alt 2 ⟨[.terminal b!"b"]⟩ := ⟨_, rfl, by decide⟩
  have nB : Nullable Ex.gapCovered [.nonTerminal b!"B"] := .nonTerminal hB aB (.nothing .nil) .nil
  have nA : RuleNullable Ex.gapCovered 1 := ⟨_, aA, .nothing .nil⟩
  refine ⟨isLL1_of_check (c := Cert.compute Ex.gapCovered 4) hcert, nulFree_of (by decide +kernel), ⟨?_, ?_⟩, ?_,
    succeeds_iff.1 (by decide +kernel), ?_, .first a0 (pre := [.terminal b!"x"]) rfl hA nA (.skip nB .terminal), ?_⟩
  · intro i alt name ⟨r, hr, ha⟩ hn
    have : ∀ r ∈ Ex.gapCovered.rules, ∀ alt ∈ r.tail.sequences, ∀ x ∈ alt.symbols,
        x = .nonTerminal b!"A" ∨ x = .nonTerminal b!"B" ∨ (∀ n, x ≠ .nonTerminal n) := by
      simp [Ex.gapCovered, rule]
    rcases this r (List.mem_of_getElem? hr) alt ha _ hn with h | h | h
    · cases h; exact ⟨1, [], hA, ⟨_, aA, .nothing .nil⟩⟩
    · cases h; exact ⟨2, [], hB, ⟨_, aB, .nothing .nil⟩⟩
    · exact (h name rfl).elim
  · intro i hi
    have : i = 0 ∨ i = 1 ∨ i = 2 := by
      have : i < 3 := hi
      omega
    rcases this with rfl | rfl | rfl
    · exact .start
    · exact .step .start a0 (by decide) hA
    · exact .step .start a0 (by decide) hB
  · intro h
    have := h 0 _ [.terminal b!"x"] b!"A" (.nonTerminal b!"B") [.terminal b!"d"] a0 rfl nB
    cases this
  · intro i b hm
    obtain ⟨⟨alt, ha, hn⟩, hf⟩ := mustVanish_follow hm
    have hi : i < 3 := ha.lt
    have hb := followOf_of (c := Cert.compute Ex.gapCovered 4) hcert hf
    have : i = 0 ∨ i = 1 ∨ i = 2 := by omega
    rcases this with rfl | rfl | rfl
    · obtain ⟨r, hr, hm⟩ := ha
      have h0 : ∀ r ∈ Ex.gapCovered.rules[0]?.toList, ∀ alt ∈ r.tail.sequences,
          seqNull Ex.gapCovered (Cert.compute Ex.gapCovered 4) alt.symbols = false := by decide +kernel
      have := h0 r (by rw [hr]; simp) alt hm
      rw [seqNull_of hcert hn] at this
      cases this
    · have h1 : ∀ n, n < 256 → ((Cert.compute Ex.gapCovered 4).followOf 1).testBit n = true → n = 98 ∨ n = 100 := by
        decide +kernel
      rcases h1 _ b.toNat_lt hb with h | h
      · have : b = 98 := UInt8.toNat_inj.1 h
        subst this
        exact .next a0 (pre := [.terminal b!"x"]) rfl hA.1 (.head hB aB' .terminal)
      · have : b = 100 := UInt8.toNat_inj.1 h
        subst this
        exact .next a1 (pre := [.terminal b!"y"]) rfl hA.1 .terminal
    · have h1 : ∀ n, n < 256 → ((Cert.compute Ex.gapCovered 4).followOf 2).testBit n = true → n = 100 := by
        decide +kernel
      have : b = 100 := UInt8.toNat_inj.1 (h1 _ b.toNat_lt hb)
      subst this
      exact .next a0 (pre := [.terminal b!"x", .nonTerminal b!"A"]) rfl hB.1 .terminal
  · exact ⟨_, a0, .terminal (t := b!"x") (w := b!"d") (.nonTerminal (u := []) hA aA (.nothing .nil)
      (.nonTerminal (u := []) hB aB (.nothing .nil) (.terminal (t := b!"d") .nil)))⟩

/-- `gap` meets the hypotheses of C93 on the other side: it is reduced and LL(1), `d` is one of its sentences,
in whose derivation `A` has to vanish before `d`, which the next-symbol rule does not foresee. -/
example : ∃ tbl names, fromGrammar id Ex.gap = .ok (tbl, names) ∧ IsLL1 Ex.gap ∧ Ex.gap.NulFree ∧ Ex.gap.Reduced ∧
    MustVanish Ex.gap 1 100 ∧ ¬ NextFollow Ex.gap 1 100 ∧ IsDTree Ex.gap 0 b!"d"
      (.node 0 0 [.node 1 1 [.empty], .node 2 1 [.empty], .leaf b!"d"]) ∧
    Vanishes 1 100 [.node 0 0 [.node 1 1 [.empty], .node 2 1 [.empty], .leaf b!"d"]] 0 ∧
    (Parser.mk tbl (some names)).Returns (.string b!"d") (.err (.noRule 100 (.known b!"A"))) := by
  obtain ⟨⟨hll, ⟨tbl, names, h⟩, hf, hnf⟩, _⟩ := C28_differs
  have hA : Ex.gap.Refers b!"A" 1 := (TG.get_ruleMap _ _ _).1 (by decide +kernel)
  have hB : Ex.gap.Refers b!"B" 2 := (TG.get_ruleMap _ _ _).1 (by decide +kernel)
  have a0 : Ex.gap.Alt 0 ⟨[.nonTerminal b!"A", .nonTerminal b!"B", .terminal b!"d"]⟩ := ⟨_, rfl, by decide⟩
  have aA : Ex.gap.Alt 1 ⟨[.nothing]⟩ := ⟨_, rfl, by decide⟩
  have aB : Ex.gap.Alt 2 ⟨[.nothing]⟩ := ⟨_, rfl, by decide⟩
  refine ⟨tbl, names, h, hll, nulFree_of (by decide +kernel), ⟨?_, ?_⟩,
    .first a0 (pre := []) rfl hA ⟨_, aA, .nothing .nil⟩
      (.skip (.nonTerminal hB aB (.nothing .nil) .nil) .terminal), hnf, ?_, ?_, ?_⟩
  · intro i alt name ⟨r, hr, ha⟩ hn
    have : ∀ r ∈ Ex.gap.rules, ∀ alt ∈ r.tail.sequences, ∀ x ∈ alt.symbols,
        x = .nonTerminal b!"A" ∨ x = .nonTerminal b!"B" ∨ (∀ n, x ≠ .nonTerminal n) := by
      simp [Ex.gap, rule]
    rcases this r (List.mem_of_getElem? hr) alt ha _ hn with h | h | h
    · cases h; exact ⟨1, [], hA, ⟨_, aA, .nothing .nil⟩⟩
    · cases h; exact ⟨2, [], hB, ⟨_, aB, .nothing .nil⟩⟩
    · exact (h name rfl).elim
  · intro i hi
    have : i = 0 ∨ i = 1 ∨ i = 2 := by
      have : i < 3 := hi
      omega
    rcases this with rfl | rfl | rfl
    · exact .start
    · exact .step .start a0 (by decide) hA
    · exact .step .start a0 (by decide) hB
  · exact ⟨_, 0, _, _, rfl, rfl, .nonTerminal hA rfl rfl (.nothing .nil)
      (.nonTerminal hB rfl rfl (.nothing .nil) (.terminal .nil)), rfl, rfl⟩
  · exact .inside (by decide) (.here rfl rfl)
  · have h' : fromGrammar id Ex.gap = .ok ([(2, [(100, []), (98, [.terminal b!"b"])]),
        (1, [(98, []), (0, []), (97, [.terminal b!"a"])]),
        (0, [(100, [.nonTerminal 1, .nonTerminal 2, .terminal b!"d"]),
             (98, [.nonTerminal 1, .nonTerminal 2, .terminal b!"d"]),
             (97, [.nonTerminal 1, .nonTerminal 2, .terminal b!"d"])])],
        [(0, b!"S"), (1, b!"A"), (2, b!"B")]) := by decide +kernel
    rw [h] at h'
    cases h'
    exact ⟨60, rfl⟩

end LL1
