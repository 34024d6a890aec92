import Verif.Props.EndToEnd
import Verif.Props.Rearrange

/-!
# C68: rules nothing refers to
-/

namespace LL1

/-- `g'` is `g` with further rules that no rule of `g` refers to: all names used in `g` are defined in `g`, and the
heads of the further rules are new. -/
structure AddsUnused (g g' : Grammar) : Prop where
  rules : ∃ extra, g'.rules = g.rules ++ extra
  defined : g.AllDefined
  heads : DistinctHeads g'

namespace AddsUnused
variable {g g' : Grammar}

theorem rule (h : AddsUnused g g') {i : Nat} {r : Rule} (hr : g.rules[i]? = some r) : g'.rules[i]? = some r := by
  obtain ⟨extra, he⟩ := h.rules
  have : i < g.rules.length := by
    rcases Nat.lt_or_ge i g.rules.length with h' | h'
    · exact h'
    · rw [List.getElem?_eq_none h'] at hr; cases hr
  rw [he, List.getElem?_append_left this]; exact hr

theorem rule_back (h : AddsUnused g g') {i : Nat} {r : Rule} (hi : i < g.rules.length) (hr : g'.rules[i]? = some r) :
    g.rules[i]? = some r := by
  obtain ⟨extra, he⟩ := h.rules
  rw [he, List.getElem?_append_left hi] at hr; exact hr

theorem alt (h : AddsUnused g g') {i : Nat} {a : Sequence} (ha : g.Alt i a) : g'.Alt i a := by
  obtain ⟨r, hr, hm⟩ := ha
  exact ⟨r, h.rule hr, hm⟩

theorem head (h : AddsUnused g g') {i : Nat} {n : Str} (ha : g.Head i n) : g'.Head i n := by
  obtain ⟨r, hr, hm⟩ := ha
  exact ⟨r, h.rule hr, hm⟩

theorem headLt {i : Nat} {n : Str} (ha : g.Head i n) : i < g.rules.length := by
  obtain ⟨r, hr, _⟩ := ha
  rcases Nat.lt_or_ge i g.rules.length with h' | h'
  · exact h'
  · rw [List.getElem?_eq_none h'] at hr; cases hr

theorem distinct (h : AddsUnused g g') : DistinctHeads g := fun i j n hi hj => h.heads i j n (h.head hi) (h.head hj)

theorem refers (h : AddsUnused g g') {n : Str} {i : Nat} (hr : g.Refers n i) : g'.Refers n i :=
  ⟨h.head hr.1, fun _ hj => Nat.le_of_eq (h.heads _ _ _ hj (h.head hr.1))⟩

theorem refers_back (h : AddsUnused g g') {n : Str} {i : Nat} (hd : ∃ j, g.Head j n) (hr : g'.Refers n i) :
    g.Refers n i := by
  obtain ⟨j, hj⟩ := hd
  have e : i = j := h.heads i j n hr.1 (h.head hj)
  subst e
  exact ⟨hj, fun k hk => Nat.le_of_eq (h.distinct k i n hk hj)⟩

theorem alt_back (h : AddsUnused g g') {i : Nat} {a : Sequence} {n : Str} (hh : g.Head i n) (ha : g'.Alt i a) : g.Alt i a := by
  obtain ⟨r, hr, hm⟩ := ha
  exact ⟨r, h.rule_back (headLt hh) hr, hm⟩

theorem nullable (h : AddsUnused g g') {ys : List Symbol} (hn : Nullable g ys) : Nullable g' ys := by
  induction hn with
  | nil => exact .nil
  | nothing _ ih => exact .nothing ih
  | emptyTerminal _ ih => exact .emptyTerminal ih
  | nonTerminal hr ha _ _ ih1 ih2 => exact .nonTerminal (h.refers hr) (h.alt ha) ih1 ih2

theorem first (h : AddsUnused g g') {ys : List Symbol} {b : UInt8} (hf : First g ys b) : First g' ys b := by
  induction hf with
  | terminal => exact .terminal
  | head hr ha _ ih => exact .head (h.refers hr) (h.alt ha) ih
  | skip hn _ ih => exact .skip (h.nullable hn) ih

theorem follow (h : AddsUnused g g') {i : Nat} {b : UInt8} (hf : Follow g i b) : Follow g' i b := by
  induction hf with
  | start => exact .start
  | first ha he hr hb => exact .first (h.alt ha) he (h.refers hr) (h.first hb)
  | last ha he hr hn _ ih => exact .last (h.alt ha) he (h.refers hr) (h.nullable hn) ih

theorem nullable_back (h : AddsUnused g g') {ys : List Symbol} (hn : Nullable g' ys)
    (hd : ∀ n, Symbol.nonTerminal n ∈ ys → ∃ j, g.Head j n) : Nullable g ys := by
  induction hn with
  | nil => exact .nil
  | nothing _ ih => exact .nothing (ih fun n hm => hd n (List.mem_cons_of_mem _ hm))
  | emptyTerminal _ ih => exact .emptyTerminal (ih fun n hm => hd n (List.mem_cons_of_mem _ hm))
  | nonTerminal hr ha _ _ ih1 ih2 =>
    have hr' := h.refers_back (hd _ List.mem_cons_self) hr
    have ha' := h.alt_back hr'.1 ha
    exact .nonTerminal hr' ha' (ih1 fun n hm => h.defined _ _ n ha' hm) (ih2 fun n hm => hd n (List.mem_cons_of_mem _ hm))

theorem ll1 (h : AddsUnused g g') (hl : IsLL1 g') : IsLL1 g := by
  obtain ⟨h1, h2, h3⟩ := hl
  refine ⟨?_, ?_, ?_⟩
  · intro i r k l a c b hr hk hl ha hc
    exact h1 i r k l a c b (h.rule hr) hk hl (h.first ha) (h.first hc)
  · intro i r k l a c hr hk hl ha hc
    exact h2 i r k l a c (h.rule hr) hk hl (h.nullable ha) (h.nullable hc)
  · rintro i b ⟨a, ha, hn⟩ ⟨a', ha', hf⟩ hfo
    exact h3 i b ⟨a, h.alt ha, h.nullable hn⟩ ⟨a', h.alt ha', h.first hf⟩ (h.follow hfo)

theorem noGap (h : AddsUnused g g') (hg : NoNullableGap g') : NoNullableGap g :=
  fun i alt pre name next post ha he hn => hg i alt pre name next post (h.alt ha) he (h.nullable hn)

theorem nulFree (h : AddsUnused g g') (hg : g'.NulFree) : g.NulFree := fun i alt t ha ht => hg i alt t (h.alt ha) ht

theorem wellFormed (h : AddsUnused g g') (hne : g.rules ≠ []) (hg : g'.WellFormed) : g.WellFormed where
  rules := hne
  term := fun i alt t ha ht => hg.term i alt t (h.alt ha) ht
  nothing := fun i alt ha ht => hg.nothing i alt (h.alt ha) ht
  alts := fun i alt ha => hg.alts i alt (h.alt ha)
  defined := h.defined

theorem dtrees (h : AddsUnused g g') {ys : List Symbol} {ts : List DTree} (hd : DTrees g ys ts) : DTrees g' ys ts := by
  induction hd with
  | nil => exact .nil
  | terminal _ ih => exact .terminal ih
  | nothing _ ih => exact .nothing ih
  | nonTerminal hr hu hk _ _ ih1 ih2 => exact .nonTerminal (h.refers hr) (h.rule hu) hk ih1 ih2

theorem dtrees_back (h : AddsUnused g g') {ys : List Symbol} {ts : List DTree} (ht : DTrees g' ys ts)
    (hd : ∀ n, Symbol.nonTerminal n ∈ ys → ∃ j, g.Head j n) : DTrees g ys ts := by
  induction ht with
  | nil => exact .nil
  | terminal _ ih => exact .terminal (ih fun n hm => hd n (List.mem_cons_of_mem _ hm))
  | nothing _ ih => exact .nothing (ih fun n hm => hd n (List.mem_cons_of_mem _ hm))
  | nonTerminal hr hu hk _ _ ih1 ih2 =>
    have hr' := h.refers_back (hd _ List.mem_cons_self) hr
    have hu' := h.rule_back (headLt hr'.1) hu
    exact .nonTerminal hr' hu' hk
      (ih1 fun n hm => h.defined _ _ n ⟨_, hu', List.mem_of_getElem? hk⟩ hm)
      (ih2 fun n hm => hd n (List.mem_cons_of_mem _ hm))

end AddsUnused

/-- **C68.** Unused rules do not change what the grammar means: same language, same derivation trees. -/
theorem C68_meaning (g g' : Grammar) (hne : g.rules ≠ []) (h : AddsUnused g g') (w : Str) :
    (∀ t, IsDTree g 0 w t ↔ IsDTree g' 0 w t) ∧ (Sentence g w ↔ Sentence g' w) := by
  have key : ∀ t, IsDTree g 0 w t ↔ IsDTree g' 0 w t := by
    intro t
    constructor
    · rintro ⟨r, k, alt, cs, hr, hk, hc, rfl, rfl⟩
      exact ⟨r, k, alt, cs, h.rule hr, hk, h.dtrees hc, rfl, rfl⟩
    · rintro ⟨r, k, alt, cs, hr, hk, hc, rfl, rfl⟩
      have hr' := h.rule_back (List.length_pos_iff.2 hne) hr
      exact ⟨r, k, alt, cs, hr', hk,
        h.dtrees_back hc (fun n hm => h.defined _ _ n ⟨r, hr', List.mem_of_getElem? hk⟩ hm), rfl, rfl⟩
  refine ⟨key, ?_⟩
  rw [C60_sentence_iff, C60_sentence_iff]
  exact exists_congr key

/-- **C68.** If the larger grammar is LL(1) without nullable gaps, both are accepted by the generator, and the two
parsers agree on every text without NUL: the same trees, and errors for the same texts. -/
theorem C68_parsers (o o' : Order) (g g' : Grammar) (hne : g.rules ≠ []) (h : AddsUnused g g') (hw : g'.WellFormed)
    (hz : g'.NulFree) (hll : IsLL1 g') (hg : NoNullableGap g') :
    ∃ tbl names tbl' names', fromGrammar o g = .ok (tbl, names) ∧ fromGrammar o' g' = .ok (tbl', names') ∧
      ∀ (m m' : Names) (src : Source) (w : Str), readSource src = .ok w → (0 : UInt8) ∉ w →
        (∀ t, (∃ n, (Parser.mk tbl (some m)).Returns src (.ok t n)) ↔
          ∃ n, (Parser.mk tbl' (some m')).Returns src (.ok t n)) ∧
        ((∃ e, (Parser.mk tbl (some m)).Returns src (.err e)) ↔
          ∃ e, (Parser.mk tbl' (some m')).Returns src (.err e)) := by
  obtain ⟨tbl, names, e⟩ := C29_ll1_accepted o g (h.nulFree hz).start (h.wellFormed hne hw) h.distinct (h.noGap hg) (h.ll1 hll)
  obtain ⟨tbl', names', e'⟩ := C29_ll1_accepted o' g' hz.start hw h.heads hg hll
  refine ⟨tbl, names, tbl', names', e, e', ?_⟩
  intro m m' src w hr h0
  have hc := covered_of_noGap (TG.fromGrammar_ok (h.nulFree hz).start e) (h.noGap hg)
  have hc' := covered_of_noGap (TG.fromGrammar_ok hz.start e') hg
  have d := C34_decides o g tbl names e (h.nulFree hz) (h.ll1 hll) hc m src w hr h0
  have d' := C34_decides o' g' tbl' names' e' hz hll hc' m' src w hr h0
  have hm := C68_meaning g g' hne h w
  refine ⟨?_, by rw [← d.2, ← d'.2, hm.2]⟩
  intro t
  constructor
  · rintro ⟨n, hn⟩
    obtain ⟨dt, hdt⟩ := (C60_sentence_iff g w).1 (d.1.2 ⟨t, n, hn⟩)
    have := (C60_returned_tree o g tbl names e (h.nulFree hz) (h.ll1 hll) hc m src w hr dt hdt).2 t n hn
    subst this
    exact (C60_returned_tree o' g' tbl' names' e' hz hll hc' m' src w hr dt ((hm.1 dt).1 hdt)).1
  · rintro ⟨n, hn⟩
    obtain ⟨dt, hdt⟩ := (C60_sentence_iff g' w).1 (d'.1.2 ⟨t, n, hn⟩)
    have := (C60_returned_tree o' g' tbl' names' e' hz hll hc' m' src w hr dt hdt).2 t n hn
    subst this
    exact (C60_returned_tree o g tbl names e (h.nulFree hz) (h.ll1 hll) hc m src w hr dt ((hm.1 dt).2 hdt)).1

/-- `S ::= A "x"`, `A ::= "a" | nothing`. -/
def Ex.used : Grammar := ⟨[
  rule b!"S" [[.nonTerminal b!"A", .terminal b!"x"]],
  rule b!"A" [[.terminal b!"a"], [.nothing]]]⟩

/-- The same with an unused `U ::= A "y"`. -/
def Ex.usedHarmless : Grammar := ⟨Ex.used.rules ++ [rule b!"U" [[.nonTerminal b!"A", .terminal b!"y"]]]⟩

/-- The same with an unused `U ::= A "a"`. -/
def Ex.usedHarmful : Grammar := ⟨Ex.used.rules ++ [rule b!"U" [[.nonTerminal b!"A", .terminal b!"a"]]]⟩

/-- **C68.** But an unused rule can make the generator reject a grammar it accepts without that rule: FOLLOW counts the
uses in unused rules. -/
theorem C68_unused_can_reject :
    AddsUnused Ex.used Ex.usedHarmful ∧
    (∃ tbl names, fromGrammar id Ex.used = .ok (tbl, names)) ∧ fromGrammar id Ex.usedHarmful = .err .conflict :=
  ⟨⟨⟨_, rfl⟩, (wellFormed_of (by decide +kernel)).defined, distinctHeads_of (by decide +kernel)⟩,
    succeeds_iff.1 (by decide +kernel), by decide +kernel⟩

/-- A grammar to which `C68_parsers` applies. -/
example : Ex.used.rules ≠ [] ∧ AddsUnused Ex.used Ex.usedHarmless ∧ Ex.usedHarmless.WellFormed ∧ Ex.usedHarmless.NulFree ∧
    IsLL1 Ex.usedHarmless ∧ NoNullableGap Ex.usedHarmless :=
  have hc : ll1Check Ex.usedHarmless (Cert.compute Ex.usedHarmless 4) = true := by decide +kernel
  ⟨by simp [Ex.used], ⟨⟨_, rfl⟩, (wellFormed_of (by decide +kernel)).defined, distinctHeads_of (by decide +kernel)⟩,
    wellFormed_of (by decide +kernel), nulFree_of (by decide +kernel), isLL1_of_check hc,
    noNullableGap_of hc (by decide +kernel)⟩

end LL1
