import Verif.Proofs.Predictive
import Verif.Props.Language

/-!
# The exact language of generated parsers, and where they stop (C50, C51)
-/

namespace LL1

/-! ## C50 -/

/-- **C50.** Exactly which NUL-free sources a generated parser accepts, for every grammar whose
alternatives have disjoint FIRST sets (nullable gaps, FIRST/FOLLOW overlaps, duplicate heads, ... are all
allowed): those with a predictive derivation from the first rule. -/
theorem C50_exact_language (order : Order) (g : Grammar) (tbl : Table) (names : Names)
    (h : fromGrammar order g = .ok (tbl, names)) (hd : FirstDisjoint g) (hz : g.NulFree)
    (m : Names) (src : Source) (text : Str) (hr : readSource src = .ok text) (h0 : (0 : UInt8) ∉ text) :
    (∃ t m', (Parser.mk tbl (some m)).Returns src (.ok t m')) ↔ PredictiveRule g 0 text 0 := by
  have hc := fromGrammar_closedTable h
  have ht := TG.fromGrammar_ok hz.start h
  have hnf := fromGrammar_tableNulFree h hz
  rw [← derives_iff_predictiveRule ht hd hnf hc.pos]
  constructor
  · rintro ⟨t, m', hp⟩
    obtain ⟨⟨j, hD, hj⟩, _⟩ := (returns_ok_iff (p := Parser.mk tbl (some m)) hc.hasEntry hc.public hr).1 hp
    have hjl := hD.bound hnf (by intro s hs; simp at hs) (Nat.zero_le _)
    have : j = text.length := by
      rcases Nat.lt_or_ge j text.length with hlt | hge
      · refine (h0 ?_).elim
        have : byteAt text j = text[j] := by simp [byteAt, hlt]
        rw [← hj, this]
        exact List.getElem_mem hlt
      · omega
    subst this
    exact ⟨t, hD⟩
  · rintro ⟨t, hD⟩
    exact ⟨t, _, returns_parse (p := Parser.mk tbl (some m)) hc.hasEntry hr ⟨_, hD, by simp [byteAt]⟩⟩

/-- `gap` meets the hypotheses: it has disjoint FIRST sets although its parser is incomplete; `ad` has a
predictive derivation, the sentence `d` has none. -/
example : ∃ tbl names, fromGrammar id Ex.gap = .ok (tbl, names) ∧ FirstDisjoint Ex.gap ∧ Ex.gap.NulFree ∧
    PredictiveRule Ex.gap 0 b!"ad" 0 ∧ Sentence Ex.gap b!"d" ∧ ¬ PredictiveRule Ex.gap 0 b!"d" 0 := by
  obtain ⟨tbl, names, h, hll, hs, e, he⟩ := C33_gap_incomplete
  have hz : Ex.gap.NulFree := nulFree_of (by decide +kernel)
  have hr : ∀ w, readSource (.string w) = .ok w := fun _ => rfl
  refine ⟨tbl, names, h, hll.1, hz, ?_, hs, ?_⟩
  · refine (C50_exact_language id _ tbl names h hll.1 hz names (.string b!"ad") _ rfl (by decide)).1 ?_
    have h' : fromGrammar id Ex.gap = .ok ([(2, [(100, []), (98, [.terminal b!"b"])]),
        (1, [(98, []), (0, []), (97, [.terminal b!"a"])]),
        (0, [(100, [.nonTerminal 1, .nonTerminal 2, .terminal b!"d"]),
             (98, [.nonTerminal 1, .nonTerminal 2, .terminal b!"d"]),
             (97, [.nonTerminal 1, .nonTerminal 2, .terminal b!"d"])])],
        [(0, b!"S"), (1, b!"A"), (2, b!"B")]) := by decide +kernel
    rw [h] at h'
    cases h'
    exact ⟨_, _, 60, rfl⟩
  · intro hp
    obtain ⟨t, m', ht⟩ :=
      (C50_exact_language id _ tbl names h hll.1 hz names (.string b!"d") _ rfl (by decide)).2 hp
    have := returns_det he ht
    cases this

/-! ## C51 -/

theorem take_drop_gen {g : Grammar} {t : Str} {rest : List Symbol} {w : Str} {k : Nat}
    (h : Gen g rest w) : Gen g (.terminal t :: rest) (t.take k ++ (t.drop k ++ w)) := by
  rw [← List.append_assoc, List.take_append_drop]
  exact .terminal h

/-- What has been read when the derivation of `syms` gets stuck can be completed. -/
theorem viable_of_fails {g : Grammar} {tbl : Table} (h : TG.TableOk g tbl) (hd : FirstDisjoint g)
    (hpr : g.Productive) (hnf : tbl.NulFree) {names : Option Names} {src : Str} {ops : List ParserOp} {i k : Nat}
    {e : PErr} (hF : FailsAt tbl names src ops i k e) : ∀ syms, AllPairs (OpOf g) syms ops → OpsNulFree ops →
      (∀ name, Symbol.nonTerminal name ∈ syms → ∃ j w, g.Refers name j ∧ GenRule g j w) →
      i ≤ src.length → i ≤ k ∧ k ≤ src.length ∧ ∃ w, Gen g syms (slice src i k ++ w) := by
  induction hF with
  | @lit s ops i k c hl hk hne =>
    intro syms hs ho hprod hi
    cases hs with
    | @cons x _ xs _ hx hs =>
      obtain ⟨w, hw⟩ := gen_of_productive xs (fun name hn => hprod name (List.mem_cons_of_mem _ hn))
      have hkl : k < s.length := (List.getElem?_eq_some_iff.1 hk).1
      have hs0 := ho s List.mem_cons_self
      have hb := litAt_bound hl (fun h => hs0 (List.mem_of_mem_take h)) hi
      have hlen : (s.take k).length = k := by simp; omega
      have hsl := litAt_slice hl hb
      rw [hlen] at hb hsl
      cases x with
      | terminal t =>
        cases (hx : _ = _)
        refine ⟨by omega, hb, s.drop k ++ w, ?_⟩
        rw [hsl]
        exact take_drop_gen hw
      | nothing => exact (hx : False).elim
      | nonTerminal n => obtain ⟨k, _, h⟩ := hx; cases h
  | @afterLit s ops i k e hl _ ih =>
    intro syms hs ho hprod hi
    cases hs with
    | @cons x _ xs _ hx hs =>
      have hb := litAt_bound hl (ho s List.mem_cons_self) hi
      obtain ⟨hik, hk, w, hw⟩ := ih xs hs (fun s hs => ho s (List.mem_cons_of_mem _ hs))
        (fun name hn => hprod name (List.mem_cons_of_mem _ hn)) hb
      cases x with
      | terminal t =>
        cases (hx : _ = _)
        refine ⟨by omega, hk, w, ?_⟩
        rw [← slice_append src (Nat.le_add_right i s.length) hik, litAt_slice hl hb, List.append_assoc]
        exact .terminal hw
      | nothing => exact (hx : False).elim
      | nonTerminal n => obtain ⟨k, _, h⟩ := hx; cases h
  | @noBody n ops i hb =>
    intro syms hs ho hprod hi
    obtain ⟨w, hw⟩ := gen_of_productive syms hprod
    exact ⟨Nat.le_refl _, hi, w, by rw [slice_self]; exact hw⟩
  | @inside n body ops i k e hb hF ih =>
    intro syms hs ho hprod hi
    cases hs with
    | @cons x _ xs _ hx hs =>
      obtain ⟨v, hv⟩ := gen_of_productive xs (fun name hn => hprod name (List.mem_cons_of_mem _ hn))
      cases x with
      | terminal t => cases (hx : _ = _)
      | nothing => exact (hx : False).elim
      | nonTerminal name =>
        obtain ⟨m, hr, h'⟩ := hx
        cases h'
        rcases cell_alt h hd hr.lt hb with ⟨_, _, rfl⟩ | ⟨alt, ha, _, hp⟩
        · cases hF
        · obtain ⟨hik, hk, w, hw⟩ := ih alt.symbols hp (bodyFor_nulFree hnf hb) (fun name hn => hpr _ alt name ha hn) hi
          refine ⟨hik, hk, w ++ v, ?_⟩
          rw [← List.append_assoc]
          exact .nonTerminal hr ha hw hv
  | @afterNt n body ops i j k cs e hb hD _ ih =>
    intro syms hs ho hprod hi
    cases hs with
    | @cons x _ xs _ hx hs =>
      have hj := hD.bound hnf (bodyFor_nulFree hnf hb) hi
      obtain ⟨hjk, hk, w, hw⟩ := ih xs hs (fun s hs => ho s (List.mem_cons_of_mem _ hs))
        (fun name hn => hprod name (List.mem_cons_of_mem _ hn)) hj
      cases x with
      | terminal t => cases (hx : _ = _)
      | nothing => exact (hx : False).elim
      | nonTerminal name =>
        obtain ⟨m, hr, h'⟩ := hx
        cases h'
        obtain ⟨alt, ha, hu⟩ := genRule_of_body h hd hnf hr.lt hb hD hi
        refine ⟨Nat.le_trans hD.le hjk, hk, w, ?_⟩
        rw [← slice_append src hD.le hjk, List.append_assoc]
        exact .nonTerminal hr ha hu hw

/-- **C51.** When a generated parser rejects a text it stops at the first possible moment in one
direction: the part of the text before the offset of the error is the beginning of some sentence.  (The
grammar has disjoint FIRST sets, some sentence, and only productive non-terminals.) -/
theorem C51_viable_prefix (order : Order) (g : Grammar) (tbl : Table) (names : Names)
    (h : fromGrammar order g = .ok (tbl, names)) (hd : FirstDisjoint g) (hz : g.NulFree) (hpr : g.Productive)
    (hsome : ∃ w, Sentence g w) (m : Names) (src : Source) (text : Str) (hr : readSource src = .ok text)
    (e : PErr) (he : (Parser.mk tbl (some m)).Returns src (.err e)) :
    ∃ k, StuckAt tbl (some m) text k e ∧ k ≤ text.length ∧ ∃ w, Sentence g (text.take k ++ w) := by
  have hc := fromGrammar_closedTable h
  have ht := TG.fromGrammar_ok hz.start h
  have hnf := fromGrammar_tableNulFree h hz
  obtain ⟨k, hk⟩ := (C13_error_iff_stuck tbl (some m) hc.hasEntry hc.public src text hr e).1.1 he
  have hs : slice text 0 k = text.take k := by simp [slice]
  rcases id hk with hF | ⟨t, hD, hb, _⟩
  · cases hF with
    | noBody _ => exact ⟨0, hk, Nat.zero_le _, by simpa using hsome⟩
    | inside hb hF =>
      rcases cell_alt ht hd hc.pos hb with ⟨_, _, rfl⟩ | ⟨alt, ha, _, hp⟩
      · cases hF
      · obtain ⟨_, hkl, w, hw⟩ := viable_of_fails ht hd hpr hnf hF alt.symbols hp (bodyFor_nulFree hnf hb)
          (fun name hn => hpr _ alt name ha hn) (Nat.zero_le _)
        rw [hs] at hw
        exact ⟨k, hk, hkl, w, alt, ha, hw⟩
    | afterNt _ _ hF => cases hF
  · refine ⟨k, hk, hD.bound hnf (by intro s hs; simp at hs) (Nat.zero_le _), [], ?_⟩
    cases hD with
    | nt hb hD1 hD2 =>
      cases hD2
      have := genRule_of_body ht hd hnf hc.pos hb hD1 (Nat.zero_le _)
      rw [hs] at this
      rw [List.append_nil]
      exact this

/-- **C51.** For grammars that are LL(1) and covered (for example without nullable gaps) the error comes at
the first possible moment: the text before it begins some sentence, and no sentence begins with that
text and the next byte (or, at the end of the text, the text itself is no sentence). -/
theorem C51_first_possible_error (order : Order) (g : Grammar) (tbl : Table) (names : Names)
    (h : fromGrammar order g = .ok (tbl, names)) (hll : IsLL1 g) (hcov : Covered g tbl) (hz : g.NulFree)
    (hpr : g.Productive) (hsome : ∃ w, Sentence g w) (m : Names) (src : Source) (text : Str)
    (hr : readSource src = .ok text)
    (e : PErr) (he : (Parser.mk tbl (some m)).Returns src (.err e)) :
    ∃ k, StuckAt tbl (some m) text k e ∧ k ≤ text.length ∧ (∃ w, Sentence g (text.take k ++ w)) ∧
      (k < text.length → ∀ w, ¬ Sentence g (text.take (k + 1) ++ w)) ∧
      (k = text.length → ¬ Sentence g text) := by
  have hc := fromGrammar_closedTable h
  obtain ⟨k, hk, hkl, hw⟩ := C51_viable_prefix order g tbl names h hll.1 hz hpr hsome m src text hr e he
  have key : ∀ v, (∀ i, i ≤ k → byteAt v i = byteAt text i) → ¬ Sentence g v := by
    intro v hv hs
    obtain ⟨t, m', ht, _⟩ := C33_complete order g tbl names h hz hll hcov m (.string v) v rfl hs
    have hst := hk.agree (src' := v) (fun i hi => (hv i hi).symm)
    have := returns_stuck (p := Parser.mk tbl (some m)) hc.hasEntry (src := .string v) rfl hst
    have := returns_det this ht
    cases this
  refine ⟨k, hk, hkl, hw, fun hlt w => key _ fun i hi => ?_, fun heq => key _ fun i _ => rfl⟩
  unfold byteAt
  rw [List.getD_eq_getElem?_getD, List.getD_eq_getElem?_getD, List.getElem?_append_left (by simp; omega),
    List.getElem?_take_of_lt (by omega)]

/-- `nested` meets the hypotheses and its parser rejects `(x,)`. -/
example : ∃ tbl names e, fromGrammar id Ex.nested = .ok (tbl, names) ∧ IsLL1 Ex.nested ∧ Covered Ex.nested tbl ∧
    Ex.nested.NulFree ∧ Ex.nested.Productive ∧ (∃ w, Sentence Ex.nested w) ∧
    (Parser.mk tbl (some names)).Returns (.string b!"(x,)") (.err e) := by
  have hz : Ex.nested.NulFree := nulFree_of (by decide +kernel)
  exact ⟨_, _, _, Ex.nested_ok, Ex.nested_ll1, covered_of_noGap (TG.fromGrammar_ok hz.start Ex.nested_ok) Ex.nested_noGap,
    hz, Ex.nested_productive, ⟨_, Ex.nested_sentence⟩, 100, rfl⟩

end LL1
