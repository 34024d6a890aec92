import Verif.Spec.Grow
import Verif.Props.Language

/-!
# Growing grammars and tables
-/

namespace LL1

/-! ## Tables -/

section Tables
variable {tbl tbl' : Table} {names : Option Names} {src : Str}

theorem CellsKept.body (hk : CellsKept tbl tbl') {n : Int} {b : UInt8} {body : List ParserOp}
    (h : bodyFor tbl n b = some body) : bodyFor tbl' n b = some body := by
  unfold bodyFor at h ⊢
  split
  · rw [if_pos ‹_›] at h
    rw [Option.bind_eq_some_iff] at h ⊢
    obtain ⟨row, h1, h2⟩ := h
    exact hk n row b body h1 h2
  · rwa [if_neg ‹_›] at h

theorem CellsKept.step (hk : CellsKept tbl tbl') (s : PState) :
    step tbl names src s = step tbl' names src s ∨
    ∃ e : PErr, e.AboutTable ∧ step tbl names src s = .done (.err e) := by
  unfold LL1.step
  split
  · exact .inl rfl
  · dsimp only
    split <;> try exact .inl rfl
    unfold processNonTerminal
    split
    · exact .inl rfl
    · unfold processTableNonTerminal
      split
      · exact .inr ⟨_, by trivial, rfl⟩
      · rename_i hrow
        dsimp only
        split
        · exact .inr ⟨_, by trivial, rfl⟩
        · rename_i hops
          obtain ⟨row', h1, h2⟩ := hk _ _ _ _ hrow hops
          refine .inl ?_
          rw [h1]
          dsimp only
          rw [h2]

theorem CellsKept.run (hk : CellsKept tbl tbl') (fuel : Nat) : ∀ s : PState,
    runFuel tbl names src fuel s = runFuel tbl' names src fuel s ∨
    ∃ e : PErr, e.AboutTable ∧ runFuel tbl names src fuel s = some (.err e) := by
  induction fuel with
  | zero => intro s; exact .inl rfl
  | succ fuel ih =>
    intro s
    rcases hk.step (names := names) (src := src) s with h | ⟨e, he, h⟩
    · simp only [runFuel, h]
      split
      · exact ih _
      · exact .inl rfl
    · refine .inr ⟨e, he, ?_⟩
      simp [runFuel, h]

theorem CellsKept.parse (hk : CellsKept tbl tbl') (he : tbl.HasEntry → tbl'.HasEntry) (fuel : Nat) (s : Source) :
    (Parser.mk tbl names).parseFuel fuel s = (Parser.mk tbl' names).parseFuel fuel s ∨
    ∃ e : PErr, e.AboutTable ∧ (Parser.mk tbl names).parseFuel fuel s = some (.err e) := by
  simp only [Parser.parseFuel]
  split
  · exact .inr ⟨_, by trivial, rfl⟩
  · cases h0 : tbl.get 0 with
    | none => exact .inr ⟨_, by trivial, rfl⟩
    | some row =>
      obtain ⟨row', h1⟩ := he ⟨row, h0⟩
      have hl : tbl'.length ≠ 0 := hasEntry_length ⟨row', h1⟩
      rw [if_neg hl, h1]
      dsimp only
      cases readSource s with
      | error e => exact .inl rfl
      | ok text => exact hk.run fuel _

theorem CellsKept.derives (hk : CellsKept tbl tbl') {ops : List ParserOp} {i j : Nat} {cs : List Node}
    (h : Derives tbl src ops i j cs) : Derives tbl' src ops i j cs := by
  induction h with
  | nil => exact .nil _
  | lit hl _ ih => exact .lit hl ih
  | nt hb _ _ ih1 ih2 => exact .nt (hk.body hb) ih1 ih2

/-- Where the smaller table gets stuck, the larger one has got to as well. -/
theorem CellsKept.reach (hk : CellsKept tbl tbl') {ops : List ParserOp} {i k : Nat} {e : PErr}
    (h : FailsAt tbl names src ops i k e) :
    (∀ j cs, Derives tbl' src ops i j cs → k ≤ j) ∧ (∀ k' e', FailsAt tbl' names src ops i k' e' → k ≤ k') := by
  induction h with
  | @lit s ops i k c h1 h2 h3 =>
    have hlt : k < s.length := (List.getElem?_eq_some_iff.1 h2).1
    have hno : ∀ l, LitAt src l i → (∀ q, q < l.length → l[q]? = s[q]?) → l.length ≤ k := by
      intro l hl hq
      by_contra hc
      have hc : k < l.length := by omega
      have h4 := hl k hc
      rw [hq k hc, h2] at h4
      exact h3 (by simpa using h4)
    constructor
    · intro j cs hD
      cases hD with
      | lit hl _ => have := hno s hl (fun _ _ => rfl); omega
    · intro k' e' hF
      cases hF with
      | @lit _ _ _ k2 c2 g1 g2 g3 =>
        have hlt2 := (List.getElem?_eq_some_iff.1 g2).1
        by_contra hc
        have hc : k2 < k := by omega
        have h4 := h1 k2 (by simp; omega)
        rw [List.getElem?_take_of_lt hc, g2] at h4
        exact g3 (by simpa using h4)
      | afterLit hl hF => have := hno s hl (fun _ _ => rfl); omega
  | @afterLit s ops i k e h1 _ ih =>
    constructor
    · intro j cs hD
      cases hD with
      | lit _ hD => exact ih.1 _ _ hD
    · intro k' e' hF
      cases hF with
      | @lit _ _ _ k2 c2 g1 g2 g3 =>
        have hlt2 := (List.getElem?_eq_some_iff.1 g2).1
        have h4 := h1 k2 hlt2
        rw [g2] at h4
        exact (g3 (by simpa using h4)).elim
      | afterLit _ hF => exact ih.2 _ _ hF
  | noBody => exact ⟨fun _ _ hD => hD.le, fun _ _ hF => hF.le⟩
  | inside hb _ ih =>
    have hb' := hk.body hb
    constructor
    · intro j cs hD
      cases hD with
      | nt hb2 hD1 hD2 =>
        rw [hb'] at hb2; cases hb2
        exact Nat.le_trans (ih.1 _ _ hD1) hD2.le
    · intro k' e' hF
      cases hF with
      | noBody hb2 => rw [hb'] at hb2; cases hb2
      | inside hb2 hF => rw [hb'] at hb2; cases hb2; exact ih.2 _ _ hF
      | afterNt hb2 hD hF => rw [hb'] at hb2; cases hb2; exact Nat.le_trans (ih.1 _ _ hD) hF.le
  | afterNt hb hD _ ih =>
    have hb' := hk.body hb
    have hD' := hk.derives hD
    constructor
    · intro j cs hE
      cases hE with
      | nt hb2 hD1 hD2 =>
        rw [hb'] at hb2; cases hb2
        obtain ⟨rfl, rfl⟩ := hD'.det hD1
        exact ih.1 _ _ hD2
    · intro k' e' hF
      cases hF with
      | noBody hb2 => rw [hb'] at hb2; cases hb2
      | inside hb2 hF => rw [hb'] at hb2; cases hb2; exact (hD'.not_failsAt hF).elim
      | afterNt hb2 hD1 hF =>
        rw [hb'] at hb2; cases hb2
        obtain ⟨rfl, rfl⟩ := hD'.det hD1
        exact ih.2 _ _ hF

end Tables

/-! ## Grammars -/

namespace Grows
variable {g g' : Grammar}

theorem alt (h : Grows g g') {i : Nat} {a : Sequence} (ha : g.Alt i a) : g'.Alt i a := by
  obtain ⟨r, hr, hm⟩ := ha
  obtain ⟨r', hr', _, hs⟩ := h.kept i r hr
  exact ⟨r', hr', hs.subset hm⟩

theorem head (h : Grows g g') {i : Nat} {name : Str} (hh : g.Head i name) : g'.Head i name := by
  obtain ⟨r, hr, rfl⟩ := hh
  obtain ⟨r', hr', he, _⟩ := h.kept i r hr
  exact ⟨r', hr', he⟩

theorem head_back (h : Grows g g') {i j : Nat} {name : Str} (hh : g.Head i name) (hj : g'.Head j name) :
    g.Head j name := by
  obtain ⟨r, hr, rfl⟩ := hh
  obtain ⟨r', hr', he⟩ := hj
  by_cases hlt : j < g.rules.length
  · have hq := List.getElem?_eq_getElem hlt
    obtain ⟨r2, hr2, he2, _⟩ := h.kept j _ hq
    rw [hr'] at hr2
    cases hr2
    exact ⟨_, hq, he2.symm.trans he⟩
  · exact (h.added j r' (by omega) hr' r (List.mem_of_getElem? hr) he.symm).elim

theorem refers (h : Grows g g') {name : Str} {i : Nat} (hr : g.Refers name i) : g'.Refers name i :=
  ⟨h.head hr.1, fun j hj => hr.2 j (h.head_back hr.1 hj)⟩

theorem nullable (h : Grows g g') {ys : List Symbol} (hn : Nullable g ys) : Nullable g' ys := by
  induction hn with
  | nil => exact .nil
  | nothing _ ih => exact .nothing ih
  | emptyTerminal _ ih => exact .emptyTerminal ih
  | nonTerminal hr ha _ _ ih1 ih2 => exact .nonTerminal (h.refers hr) (h.alt ha) ih1 ih2

theorem first (h : Grows g g') {ys : List Symbol} {b : UInt8} (hf : First g ys b) : First g' ys b := by
  induction hf with
  | terminal => exact .terminal
  | head hr ha _ ih => exact .head (h.refers hr) (h.alt ha) ih
  | skip hn _ ih => exact .skip (h.nullable hn) ih

theorem gen (h : Grows g g') {ys : List Symbol} {w : Str} (hg : Gen g ys w) : Gen g' ys w := by
  induction hg with
  | nil => exact .nil
  | terminal _ ih => exact .terminal ih
  | nothing _ ih => exact .nothing ih
  | nonTerminal hr ha _ _ ih1 ih2 => exact .nonTerminal (h.refers hr) (h.alt ha) ih1 ih2

theorem sentence (h : Grows g g') {w : Str} (hs : Sentence g w) : Sentence g' w := by
  obtain ⟨a, ha, hg⟩ := hs
  exact ⟨a, h.alt ha, h.gen hg⟩

theorem follow (h : Grows g g') {i : Nat} {b : UInt8} (hf : Follow g i b) : Follow g' i b := by
  induction hf with
  | start => exact .start
  | first ha he hr hf => exact .first (h.alt ha) he (h.refers hr) (h.first hf)
  | last ha he hr hn _ ih => exact .last (h.alt ha) he (h.refers hr) (h.nullable hn) ih

theorem nextFollow (h : Grows g g') {i : Nat} {b : UInt8} (hf : NextFollow g i b) : NextFollow g' i b := by
  induction hf with
  | start => exact .start
  | last ha he hr _ ih => exact .last (h.alt ha) he (h.head hr) ih
  | next ha he hr hf => exact .next (h.alt ha) he (h.head hr) (h.first hf)
  | nextNullable ha he hr hn _ ih => exact .nextNullable (h.alt ha) he (h.head hr) (h.nullable hn) ih

theorem ruleFirst (h : Grows g g') {i : Nat} {b : UInt8} (hf : RuleFirst g i b) : RuleFirst g' i b := by
  obtain ⟨a, ha, hf⟩ := hf
  exact ⟨a, h.alt ha, h.first hf⟩

theorem ruleNullable (h : Grows g g') {i : Nat} (hf : RuleNullable g i) : RuleNullable g' i := by
  obtain ⟨a, ha, hf⟩ := hf
  exact ⟨a, h.alt ha, h.nullable hf⟩

/-- Places in a list go to places in a list it is a part of. -/
theorem place {α : Type} {l l' : List α} (h : l.Sublist l') : ∃ f : Nat → Nat, (∀ k x, l[k]? = some x → l'[f k]? = some x) ∧
    ∀ a b, a < b → f a < f b := by
  induction h with
  | slnil => exact ⟨id, by simp, by simp⟩
  | @cons l1 l2 a _ ih =>
    obtain ⟨f, h1, h2⟩ := ih
    exact ⟨fun k => f k + 1, fun k x hk => by simpa using h1 k x hk, fun a b hab => by have := h2 a b hab; dsimp only; omega⟩
  | @cons_cons l1 l2 a _ ih =>
    obtain ⟨f, h1, h2⟩ := ih
    refine ⟨fun k => match k with | 0 => 0 | k + 1 => f k + 1, fun k x hk => ?_, fun a b hab => ?_⟩
    · cases k with
      | zero => simpa using hk
      | succ k => simpa using h1 k x (by simpa using hk)
    · cases b with
      | zero => omega
      | succ b =>
        cases a with
        | zero => simp
        | succ a => have := h2 a b (by omega); simpa using this

theorem inj {f : Nat → Nat} (h : ∀ a b, a < b → f a < f b) {k l : Nat} (he : f k = f l) : k = l := by
  rcases Nat.lt_trichotomy k l with hlt | heq | hlt
  · have := h k l hlt; omega
  · exact heq
  · have := h l k hlt; omega

theorem firstDisjoint (h : Grows g g') (hd : FirstDisjoint g') : FirstDisjoint g := by
  intro i r k l a c b hr hk hl h1 h2
  obtain ⟨r', hr', _, hs⟩ := h.kept i r hr
  obtain ⟨f, hf, hm⟩ := place hs
  exact inj hm (hd i r' (f k) (f l) a c b hr' (hf _ _ hk) (hf _ _ hl) (h.first h1) (h.first h2))

theorem oneNullable (h : Grows g g') (hd : OneNullable g') : OneNullable g := by
  intro i r k l a c hr hk hl h1 h2
  obtain ⟨r', hr', _, hs⟩ := h.kept i r hr
  obtain ⟨f, hf, hm⟩ := place hs
  exact inj hm (hd i r' (f k) (f l) a c hr' (hf _ _ hk) (hf _ _ hl) (h.nullable h1) (h.nullable h2))

theorem ll1 (h : Grows g g') (hl : IsLL1 g') : IsLL1 g :=
  ⟨h.firstDisjoint hl.1, h.oneNullable hl.2.1,
    fun i b hn hf hfo => hl.2.2 i b (h.ruleNullable hn) (h.ruleFirst hf) (h.follow hfo)⟩

theorem noGap (h : Grows g g') (hg : NoNullableGap g') : NoNullableGap g :=
  fun i a pre name next post ha he hn => hg i a pre name next post (h.alt ha) he (h.nullable hn)

theorem nulStartFree (h : Grows g g') (hz : g'.NulStartFree) : g.NulStartFree :=
  fun i a t ha ht => hz i a t (h.alt ha) ht

theorem nulFree (h : Grows g g') (hz : g'.NulFree) : g.NulFree :=
  fun i a t ha ht => hz i a t (h.alt ha) ht

theorem clash (h : Grows g g') {i : Nat} (hc : Clash g i) : Clash g' i := by
  obtain ⟨r, pre, a, post, b, hr, he, hn, hf, e, hm, hh⟩ := hc
  obtain ⟨r', hr', _, hs⟩ := h.kept i r hr
  rw [he] at hs
  obtain ⟨pre', rest', he', hs1, hs2⟩ := List.append_sublist_iff.1 hs
  obtain ⟨x, y, rfl, ha, -⟩ := List.cons_sublist_iff.1 hs2
  obtain ⟨x1, x2, rfl⟩ := List.append_of_mem ha
  refine ⟨r', pre' ++ x1, a, x2 ++ y, b, hr', by simp [he'], h.nullable hn, h.nextFollow hf, e, ?_, ?_⟩
  · exact List.mem_append_left _ (hs1.subset hm)
  · exact hh.imp h.first h.nullable

theorem opOf (h : Grows g g') {y : Symbol} {op : ParserOp} (ho : OpOf g y op) : OpOf g' y op := by
  cases y with
  | terminal => exact ho
  | nothing => exact ho.elim
  | nonTerminal n =>
    obtain ⟨i, hr, rfl⟩ := ho
    exact ⟨i, h.refers hr, rfl⟩

theorem allPairs {α β : Type} {R R' : α → β → Prop} (h : ∀ x y, R x y → R' x y) {xs : List α} {ys : List β}
    (hp : AllPairs R xs ys) : AllPairs R' xs ys := by
  induction hp with
  | nil => exact .nil
  | cons h1 _ ih => exact .cons (h _ _ h1) ih

/-- A cell is kept if, when it is there because something follows, nothing begins with the byte. -/
theorem cell (h : Grows g g') {tbl tbl' : Table} (ht : TG.TableOk g tbl) (ht' : TG.TableOk g' tbl')
    (hd : FirstDisjoint g') {i : Nat} (hi : i < g.rules.length) {b : UInt8} {body : List ParserOp}
    (hb : bodyFor tbl i b = some body)
    (hno : ¬ RuleFirst g i b → RuleNullable g i → NextFollow g i b → ¬ RuleFirst g' i b) :
    bodyFor tbl' i b = some body := by
  obtain ⟨r, hr⟩ : ∃ r, g.rules[i]? = some r := ⟨_, List.getElem?_eq_getElem hi⟩
  obtain ⟨r', hr', _, hs⟩ := h.kept i r hr
  have hi' : i < g'.rules.length := (List.getElem?_eq_some_iff.1 hr').1
  have hc : RuleFirst g i b ∨ RuleNullable g i ∧ NextFollow g i b := by
    by_contra hcon
    rw [(ht.cell hr b).1.2 hcon] at hb
    cases hb
  have hc' : RuleFirst g' i b ∨ RuleNullable g' i ∧ NextFollow g' i b → ∃ body', bodyFor tbl' i b = some body' := by
    intro hcon
    rw [← Option.isSome_iff_exists, ← Option.ne_none_iff_isSome]
    exact fun hn => (ht'.cell hr' b).1.1 hn hcon
  rcases cell_alt ht (h.firstDisjoint hd) hi hb with ⟨h1, h2, rfl⟩ | ⟨a, ha, hf, hp⟩
  · have hnf : NextFollow g i b := by
      rcases hc with hf | hn
      · exact (h1 hf).elim
      · exact hn.2
    obtain ⟨body', hb'⟩ := hc' (.inr ⟨h.ruleNullable h2, h.nextFollow hnf⟩)
    rcases cell_alt ht' hd hi' hb' with ⟨_, _, rfl⟩ | ⟨a', ha', hf', _⟩
    · exact hb'
    · exact (hno h1 h2 hnf ⟨a', ha', hf'⟩).elim
  · have ha2 := h.alt ha
    have hf2 := h.first hf
    obtain ⟨r2, hr2, hm⟩ := id ha2
    rw [hr'] at hr2
    cases hr2
    obtain ⟨body', hb'⟩ := hc' (.inl ⟨a, ha2, hf2⟩)
    rcases cell_alt ht' hd hi' hb' with ⟨hno', _, _⟩ | ⟨a', ⟨r3, hr3, hm'⟩, hf', hp'⟩
    · exact (hno' ⟨a, ha2, hf2⟩).elim
    · rw [hr'] at hr3
      cases hr3
      obtain ⟨k, hk⟩ := List.getElem?_of_mem hm
      obtain ⟨l, hl⟩ := List.getElem?_of_mem hm'
      cases hd i r' k l a a' b hr' hk hl hf2 hf'
      rw [hk] at hl
      cases hl
      rw [hb', TG.opsOf_det hp' (allPairs (fun _ _ => h.opOf) hp)]

theorem cells (h : Grows g g') {tbl tbl' : Table} (ht : TG.TableOk g tbl) (ht' : TG.TableOk g' tbl')
    (hll : IsLL1 g') (hgap : NoNullableGap g') (hdh : DistinctHeads g') : CellsKept tbl tbl' := by
  intro n row b ops hrow hops
  by_cases hn : ∃ i : Nat, i < g.rules.length ∧ n = i
  · obtain ⟨i, hi, rfl⟩ := hn
    have hb : bodyFor tbl i b = some ops := by simp [bodyFor, hrow, hops]
    have := h.cell ht ht' hll.1 hi hb fun _ h2 h3 h4 =>
      hll.2.2 i b (h.ruleNullable h2) h4 (follow_of_nextFollow hgap hdh (h.nextFollow h3))
    simpa [bodyFor, Option.bind_eq_some_iff] using this
  · have := ht.noOther n fun i hi he => hn ⟨i, hi, he⟩
    rw [this] at hrow
    cases hrow

/-- What is derived is empty, or begins with a byte the symbols can begin with. -/
theorem begins {tbl : Table} {src : Str} (ht : TG.TableOk g tbl) (hd : FirstDisjoint g) {ops : List ParserOp}
    {i j : Nat} {cs : List Node} (hD : Derives tbl src ops i j cs) : ∀ {ys : List Symbol}, AllPairs (OpOf g) ys ops →
    (i = j ∧ Nullable g ys) ∨ First g ys (byteAt src i) := by
  induction hD with
  | nil => intro ys hp; cases hp; exact .inl ⟨rfl, .nil⟩
  | @lit s ops i j cs hl _ ih =>
    intro ys hp
    cases hp with
    | @cons y _ ys _ h1 h2 =>
      cases y with
      | nothing => exact h1.elim
      | nonTerminal => obtain ⟨_, _, h1⟩ := h1; cases h1
      | terminal t =>
        cases h1
        cases s with
        | nil =>
          rcases ih h2 with ⟨h3, h4⟩ | h3
          · exact .inl ⟨by simpa using h3, .emptyTerminal h4⟩
          · exact .inr (.skip (.emptyTerminal .nil) (by simpa using h3))
        | cons b s =>
          have := hl 0 (by simp)
          simp at this
          subst this
          exact .inr .terminal
  | @nt n body ops i j k cs ds hb hD1 _ ih1 ih2 =>
    intro ys hp
    cases hp with
    | @cons y _ ys _ h1 h2 =>
      cases y with
      | nothing => exact h1.elim
      | terminal => cases h1
      | nonTerminal name =>
        obtain ⟨q, hq, he⟩ := h1
        cases he
        have hlt : q < g.rules.length := by
          obtain ⟨⟨r, hr, _⟩, _⟩ := hq
          exact (List.getElem?_eq_some_iff.1 hr).1
        rcases cell_alt ht hd hlt hb with ⟨_, ⟨a, ha, hn⟩, rfl⟩ | ⟨a, ha, hf, _⟩
        · cases hD1
          rcases ih2 h2 with ⟨h3, h4⟩ | h3
          · exact .inl ⟨h3, .nonTerminal hq ha hn h4⟩
          · exact .inr (.skip (.nonTerminal hq ha hn .nil) h3)
        · exact .inr (.head hq ha hf)

/-- A derivation that is part of a whole one is kept. -/
theorem derives (h : Grows g g') {tbl tbl' : Table} {src : Str} (ht : TG.TableOk g tbl) (ht' : TG.TableOk g' tbl')
    (hll : IsLL1 g') {ops : List ParserOp} {i j : Nat} {cs : List Node} (hD : Derives tbl src ops i j cs) :
    ∀ {ys : List Symbol} {i0 : Nat} {a : Sequence} {pre : List Symbol}, AllPairs (OpOf g) ys ops → g.Alt i0 a →
      a.symbols = pre ++ ys → Follow g i0 (byteAt src j) → Derives tbl' src ops i j cs := by
  have hd := h.firstDisjoint hll.1
  induction hD with
  | nil => intros; exact .nil _
  | @lit s ops i j cs hl _ ih =>
    intro ys i0 a pre hp ha he hf
    cases hp with
    | @cons y _ ys _ h1 h2 => exact .lit hl (ih h2 ha (pre := pre ++ [y]) (by simp [he]) hf)
  | @nt n body ops i j k cs ds hb hD1 hD2 ih1 ih2 =>
    intro ys i0 a pre hp ha he hf
    cases hp with
    | @cons y _ ys _ h1 h2 =>
      cases y with
      | nothing => exact h1.elim
      | terminal => cases h1
      | nonTerminal name =>
        obtain ⟨q, hq, he'⟩ := h1
        cases he'
        have hlt : q < g.rules.length := by
          obtain ⟨⟨r, hr, _⟩, _⟩ := hq
          exact (List.getElem?_eq_some_iff.1 hr).1
        have hfo : Follow g q (byteAt src j) := by
          rcases begins ht hd hD2 h2 with ⟨rfl, hn⟩ | hfi
          · exact .last ha he hq hn hf
          · exact .first ha he hq hfi
        have hD2' := ih2 h2 ha (pre := pre ++ [.nonTerminal name]) (by simp [he]) hf
        have hcell : bodyFor tbl' q (byteAt src i) = some body := by
          refine h.cell ht ht' hll.1 hlt hb fun h3 h4 _ h5 => ?_
          rcases cell_alt ht hd hlt hb with ⟨_, _, rfl⟩ | ⟨a2, ha2, hf2, _⟩
          · cases hD1
            exact hll.2.2 q _ (h.ruleNullable h4) h5 (h.follow hfo)
          · exact h3 ⟨a2, ha2, hf2⟩
        refine .nt hcell ?_ hD2'
        rcases cell_alt ht hd hlt hb with ⟨_, _, rfl⟩ | ⟨a2, ha2, _, hp2⟩
        · cases hD1; exact .nil _
        · exact ih1 hp2 ha2 (pre := []) rfl hfo

theorem isParse (h : Grows g g') {tbl tbl' : Table} {src : Str} (ht : TG.TableOk g tbl) (ht' : TG.TableOk g' tbl')
    (hll : IsLL1 g') {t : Node} (hp : IsParse tbl src t) : IsParse tbl' src t := by
  obtain ⟨j, hD, hj⟩ := hp
  have hd := h.firstDisjoint hll.1
  refine ⟨j, ?_, hj⟩
  cases hD with
  | @nt _ body _ _ j1 _ cs _ hb hD1 hD2 =>
    cases hD2
    have hlt : 0 < g.rules.length := List.length_pos_iff.2 ht.rules
    have hfo : Follow g 0 (byteAt src j) := hj ▸ .start
    have hcell : bodyFor tbl' (0 : Nat) (byteAt src 0) = some body := by
      refine h.cell ht ht' hll.1 hlt hb fun h3 h4 _ h5 => ?_
      rcases cell_alt ht hd hlt hb with ⟨_, _, rfl⟩ | ⟨a2, ha2, hf2, _⟩
      · cases hD1
        exact hll.2.2 0 _ (h.ruleNullable h4) h5 (h.follow hfo)
      · exact h3 ⟨a2, ha2, hf2⟩
    refine .nt hcell ?_ (.nil _)
    rcases cell_alt ht hd hlt hb with ⟨_, _, rfl⟩ | ⟨a2, ha2, _, hp2⟩
    · cases hD1; exact .nil _
    · exact h.derives ht ht' hll hD1 hp2 ha2 (pre := []) rfl hfo

end Grows

end LL1
