import Verif.Spec.Steered
import Verif.Proofs.TableTop
import Verif.Proofs.TableClosed
import Verif.Proofs.GrammarFacts

/-! # Generated tables and the grammar-level reading -/

namespace LL1

theorem AllPairs.append' {α β : Type} {R : α → β → Prop} {as as' : List α} {bs bs' : List β}
    (h : AllPairs R as bs) (h' : AllPairs R as' bs') : AllPairs R (as ++ as') (bs ++ bs') := by
  induction h with
  | nil => exact h'
  | cons h _ ih => exact .cons h ih

theorem pick_predicted {g : Grammar} {b : UInt8} {alts : List Sequence} {ops : List ParserOp}
    (h : RPredicted g b alts ops) : AllPairs (OpOf g) ((pick g b alts).flatMap (·.symbols)) ops := by
  induction h with
  | nil => exact .nil
  | take h1 h2 _ ih =>
    rw [pick, List.filter_cons_of_pos (by simpa using h1), List.flatMap_cons]
    exact h2.append' ih
  | skip h1 _ ih => rw [pick, List.filter_cons_of_neg (by simpa using h1)]; exact ih

theorem mem_pick {g : Grammar} {b : UInt8} {alts : List Sequence} {alt : Sequence} :
    alt ∈ pick g b alts ↔ alt ∈ alts ∧ RFirst g alt.symbols b := by simp [pick]

theorem pick_ne_nil {g : Grammar} {b : UInt8} {alts : List Sequence} :
    pick g b alts ≠ [] ↔ ∃ alt ∈ alts, RFirst g alt.symbols b := by
  constructor
  · intro h
    obtain ⟨x, hx⟩ := List.exists_mem_of_ne_nil _ h
    exact ⟨x, mem_pick.1 hx⟩
  · rintro ⟨alt, h1, h2⟩ h
    have := mem_pick.2 ⟨h1, h2⟩
    rw [h] at this; cases this

/-- The cells of a generated table say what the rules stand for. -/
theorem cell_standsFor {g : Grammar} {tbl : Table} (ht : TG.RTableOk g tbl) {i : Nat} (hi : i < g.rules.length)
    (b : UInt8) :
    (∀ body, bodyFor tbl i b = some body → ∃ syms, StandsFor g i b syms ∧ AllPairs (OpOf g) syms body) ∧
    (∀ syms, StandsFor g i b syms → ∃ body, bodyFor tbl i b = some body ∧ AllPairs (OpOf g) syms body) := by
  obtain ⟨row, hrow, hok⟩ := ht.rows i hi
  obtain ⟨r, hr⟩ : ∃ r, g.rules[i]? = some r := ⟨_, List.getElem?_eq_getElem hi⟩
  obtain ⟨h1, h2⟩ := hok.spec r hr b
  have hb : bodyFor tbl i b = GoMap.get row b := by simp [bodyFor, hrow]
  have hnull : (∃ alt ∈ r.tail.sequences, RNullable g alt.symbols) ↔ RRuleNullable g i := by
    constructor
    · rintro ⟨alt, ha, hn⟩; exact ⟨alt, ⟨r, hr, ha⟩, hn⟩
    · rintro ⟨alt, ⟨r', hr', ha⟩, hn⟩; rw [hr] at hr'; cases hr'; exact ⟨alt, ha, hn⟩
  constructor
  · intro body hbody
    rw [hb] at hbody
    obtain ⟨h3, h4⟩ := h2 body hbody
    refine ⟨_, ⟨r, hr, rfl, ?_⟩, pick_predicted h4⟩
    rcases h3 with h3 | ⟨h3, h5⟩
    · exact .inl (pick_ne_nil.2 h3)
    · exact .inr ⟨hnull.1 h3, h5⟩
  · rintro syms ⟨r', hr', rfl, hc⟩
    rw [hr] at hr'; cases hr'
    cases hg : GoMap.get row b with
    | none =>
      refine (h1 hg ?_).elim
      rcases hc with hc | ⟨h3, h5⟩
      · exact .inl (pick_ne_nil.1 hc)
      · exact .inr ⟨hnull.2 h3, h5⟩
    | some body => exact ⟨body, by rw [hb, hg], pick_predicted (h2 body hg).2⟩

theorem StandsFor.det {g : Grammar} {i : Nat} {b : UInt8} {s s' : List Symbol} (h : StandsFor g i b s)
    (h' : StandsFor g i b s') : s = s' := by
  obtain ⟨r, hr, rfl, _⟩ := h
  obtain ⟨r', hr', rfl, _⟩ := h'
  rw [hr] at hr'; cases hr'; rfl

theorem derives_length {tbl : Table} {src : Str} {ops : List ParserOp} {i j : Nat} {cs : List Node}
    (h : Derives tbl src ops i j cs) : cs = [] ↔ ops = [] := by cases h <;> simp

theorem ntNode_eq {tbl : Table} {src : Str} {i : Nat} {a b : Nat} {body : List ParserOp} {cs : List Node}
    (h : Derives tbl src body a b cs) : ntNode i a b body cs = ruleNode i a b cs := by
  unfold ntNode ruleNode
  by_cases hb : body = []
  · rw [if_pos hb, if_pos ((derives_length h).2 hb)]
  · rw [if_neg hb, if_neg (fun hc => hb ((derives_length h).1 hc))]

variable {g : Grammar} {tbl : Table} (ht : TG.RTableOk g tbl)
include ht

theorem steered_of_derives {text : Str} {ops : List ParserOp} {a b : Nat} {ns : List Node}
    (h : Derives tbl text ops a b ns) : ∀ syms, AllPairs (OpOf g) syms ops → Steered g text syms a b ns := by
  induction h with
  | nil a => intro syms hp; cases hp; exact .nil a
  | @lit s ops i j cs hl _ ih =>
    intro syms hp
    cases hp with
    | @cons x _ xs _ hx hp =>
      cases x with
      | terminal t => cases hx; exact .terminal hl (ih xs hp)
      | nothing => cases hx
      | nonTerminal n => obtain ⟨_, _, h⟩ := hx; cases h
  | @nt n body ops i j k cs ds hb hD _ ih1 ih2 =>
    intro syms hp
    cases hp with
    | @cons x _ xs _ hx hp =>
      cases x with
      | terminal t => cases hx
      | nothing => cases hx
      | nonTerminal name =>
        obtain ⟨m, hm, he⟩ := hx
        cases he
        obtain ⟨syms, hs, hp'⟩ := (cell_standsFor ht hm.lt _).1 body hb
        rw [ntNode_eq hD]
        exact .nonTerminal hm hs (ih1 syms hp') (ih2 xs hp)

theorem derives_of_steered {text : Str} {syms : List Symbol} {a b : Nat} {ns : List Node}
    (h : Steered g text syms a b ns) : ∀ ops, AllPairs (OpOf g) syms ops → Derives tbl text ops a b ns := by
  induction h with
  | nil a => intro ops hp; cases hp; exact .nil a
  | terminal hl _ ih =>
    intro ops hp
    cases hp with
    | cons hx hp => cases hx; exact .lit hl (ih _ hp)
  | nonTerminal hr hs _ _ ih1 ih2 =>
    intro ops hp
    cases hp with
    | cons hx hp =>
      obtain ⟨m, hm, rfl⟩ := hx
      cases hr.det hm
      obtain ⟨body, hb, hp'⟩ := (cell_standsFor ht hm.lt _).2 _ hs
      have hD := ih1 _ hp'
      rw [← ntNode_eq hD]
      exact .nt hb hD (ih2 _ hp)

theorem noBody_standsFor {i : Nat} (hi : i < g.rules.length) (b : UInt8) :
    bodyFor tbl i b = none ↔ ∀ syms, ¬ StandsFor g i b syms := by
  constructor
  · intro h syms hs
    obtain ⟨body, hb, _⟩ := (cell_standsFor ht hi b).2 syms hs
    rw [h] at hb; cases hb
  · intro h
    cases hb : bodyFor tbl i b with
    | none => rfl
    | some body =>
      obtain ⟨syms, hs, _⟩ := (cell_standsFor ht hi b).1 body hb
      exact (h syms hs).elim

theorem whyNot_row {names : Option Names} {i : Nat} (hi : i < g.rules.length) (b : UInt8) :
    whyNot tbl names i b = .noRule b (rowName names i) := by
  obtain ⟨row, hrow, _⟩ := ht.rows i hi
  simp [whyNot, hrow]

theorem derails_of_fails {names : Option Names} {text : Str} {ops : List ParserOp} {a k : Nat} {e : PErr}
    (h : FailsAt tbl names text ops a k e) : ∀ syms, AllPairs (OpOf g) syms ops → Derails g names text syms a k e := by
  induction h with
  | @lit s ops i k c hl hk hne =>
    intro syms hp
    cases hp with
    | @cons x _ xs _ hx hp =>
      cases x with
      | terminal t => cases hx; exact .terminal hl hk hne
      | nothing => cases hx
      | nonTerminal n => obtain ⟨_, _, h⟩ := hx; cases h
  | @afterLit s ops i k e hl _ ih =>
    intro syms hp
    cases hp with
    | @cons x _ xs _ hx hp =>
      cases x with
      | terminal t => cases hx; exact .afterTerminal hl (ih xs hp)
      | nothing => cases hx
      | nonTerminal n => obtain ⟨_, _, h⟩ := hx; cases h
  | @noBody n ops i hb =>
    intro syms hp
    cases hp with
    | @cons x _ xs _ hx hp =>
      cases x with
      | terminal t => cases hx
      | nothing => cases hx
      | nonTerminal name =>
        obtain ⟨m, hm, he⟩ := hx
        cases he
        rw [whyNot_row ht hm.lt]
        exact .lost hm ((noBody_standsFor ht hm.lt _).1 hb)
  | @inside n body ops i k e hb _ ih =>
    intro syms hp
    cases hp with
    | @cons x _ xs _ hx hp =>
      cases x with
      | terminal t => cases hx
      | nothing => cases hx
      | nonTerminal name =>
        obtain ⟨m, hm, he⟩ := hx
        cases he
        obtain ⟨syms, hs, hp'⟩ := (cell_standsFor ht hm.lt _).1 body hb
        exact .inside hm hs (ih syms hp')
  | @afterNt n body ops i j k cs e hb hD _ ih =>
    intro syms hp
    cases hp with
    | @cons x _ xs _ hx hp =>
      cases x with
      | terminal t => cases hx
      | nothing => cases hx
      | nonTerminal name =>
        obtain ⟨m, hm, he⟩ := hx
        cases he
        obtain ⟨syms, hs, hp'⟩ := (cell_standsFor ht hm.lt _).1 body hb
        exact .after hm hs (steered_of_derives ht hD syms hp') (ih xs hp)

theorem fails_of_derails {names : Option Names} {text : Str} {syms : List Symbol} {a k : Nat} {e : PErr}
    (h : Derails g names text syms a k e) : ∀ ops, AllPairs (OpOf g) syms ops → FailsAt tbl names text ops a k e := by
  induction h with
  | terminal hl hk hne =>
    intro ops hp
    cases hp with
    | cons hx hp => cases hx; exact .lit hl hk hne
  | afterTerminal hl _ ih =>
    intro ops hp
    cases hp with
    | cons hx hp => cases hx; exact .afterLit hl (ih _ hp)
  | lost hr hn =>
    intro ops hp
    cases hp with
    | cons hx hp =>
      obtain ⟨m, hm, rfl⟩ := hx
      cases hr.det hm
      rw [← whyNot_row ht hm.lt]
      exact .noBody ((noBody_standsFor ht hm.lt _).2 hn)
  | inside hr hs _ ih =>
    intro ops hp
    cases hp with
    | cons hx hp =>
      obtain ⟨m, hm, rfl⟩ := hx
      cases hr.det hm
      obtain ⟨body, hb, hp'⟩ := (cell_standsFor ht hm.lt _).2 _ hs
      exact .inside hb (ih _ hp')
  | after hr hs hS _ ih =>
    intro ops hp
    cases hp with
    | cons hx hp =>
      obtain ⟨m, hm, rfl⟩ := hx
      cases hr.det hm
      obtain ⟨body, hb, hp'⟩ := (cell_standsFor ht hm.lt _).2 _ hs
      exact .afterNt hb (derives_of_steered ht hS _ hp') (ih _ hp)

theorem isParse_iff_accepts {text : Str} {t : Node} : IsParse tbl text t ↔ Accepts g text t := by
  have h0 : 0 < g.rules.length := List.length_pos_iff.2 ht.rules
  constructor
  · rintro ⟨j, hD, hj⟩
    cases hD with
    | nt hb h1 h2 =>
      cases h2
      obtain ⟨syms, hs, hp⟩ := (cell_standsFor ht h0 _).1 _ hb
      exact ⟨syms, j, _, hs, steered_of_derives ht h1 _ hp, ntNode_eq (i := 0) h1, hj⟩
  · rintro ⟨syms, j, ks, hs, hS, rfl, hj⟩
    obtain ⟨body, hb, hp⟩ := (cell_standsFor ht h0 _).2 _ hs
    have hD := derives_of_steered ht hS _ hp
    refine ⟨j, ?_, hj⟩
    have := Derives.nt (tbl := tbl) (src := text) (n := 0) (ops := []) hb hD (.nil j)
    rwa [show ntNode 0 0 j body ks = ruleNode 0 0 j ks from ntNode_eq (i := 0) hD] at this

theorem stuckAt_iff_rejects {names : Option Names} {text : Str} {k : Nat} {e : PErr} :
    StuckAt tbl names text k e ↔ Rejects g names text k e := by
  have h0 : 0 < g.rules.length := List.length_pos_iff.2 ht.rules
  constructor
  · rintro (hF | ⟨t, hD, hk, rfl⟩)
    · cases hF with
      | noBody hb =>
        exact .inl ⟨rfl, (noBody_standsFor ht h0 _).1 hb, whyNot_row ht h0 _⟩
      | inside hb hF =>
        obtain ⟨syms, hs, hp⟩ := (cell_standsFor ht h0 _).1 _ hb
        exact .inr (.inl ⟨syms, hs, derails_of_fails ht hF _ hp⟩)
      | afterNt _ _ hF => cases hF
    · cases hD with
      | nt hb h1 h2 =>
        cases h2
        obtain ⟨syms, hs, hp⟩ := (cell_standsFor ht h0 _).1 _ hb
        exact .inr (.inr ⟨syms, _, hs, steered_of_derives ht h1 _ hp, hk, rfl⟩)
  · rintro (⟨rfl, hn, rfl⟩ | ⟨syms, hs, hF⟩ | ⟨syms, ks, hs, hS, hk, rfl⟩)
    · left
      have := FailsAt.noBody (tbl := tbl) (names := names) (src := text) (n := 0) (ops := []) (i := 0)
        ((noBody_standsFor ht h0 _).2 hn)
      rwa [show whyNot tbl names 0 _ = _ from whyNot_row ht h0 _] at this
    · obtain ⟨body, hb, hp⟩ := (cell_standsFor ht h0 _).2 _ hs
      exact .inl (.inside hb (fails_of_derails ht hF _ hp))
    · obtain ⟨body, hb, hp⟩ := (cell_standsFor ht h0 _).2 _ hs
      exact .inr ⟨_, .nt hb (derives_of_steered ht hS _ hp) (.nil k), hk, rfl⟩

end LL1
