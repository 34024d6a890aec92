import Verif.Proofs.Renumber
import Verif.Proofs.Language

/-!
# Rearranging a grammar
-/

namespace LL1

/-- "At most one element satisfies `P`", by places and pairwise. -/
theorem oneAt_iff {α : Type} (P : α → Prop) (xs : List α) :
    (∀ (k l : Nat) (a c : α), xs[k]? = some a → xs[l]? = some c → P a → P c → k = l) ↔
      xs.Pairwise (fun a c => ¬ (P a ∧ P c)) := by
  rw [List.pairwise_iff_getElem]
  constructor
  · intro h i j hi hj hij ⟨h1, h2⟩
    have := h i j _ _ (List.getElem?_eq_getElem hi) (List.getElem?_eq_getElem hj) h1 h2
    omega
  · intro h k l a c hk hl ha hc
    obtain ⟨hk', rfl⟩ := List.getElem?_eq_some_iff.1 hk
    obtain ⟨hl', rfl⟩ := List.getElem?_eq_some_iff.1 hl
    rcases Nat.lt_trichotomy k l with hlt | rfl | hlt
    · exact (h k l hk' hl' hlt ⟨ha, hc⟩).elim
    · rfl
    · exact (h l k hl' hk' hlt ⟨hc, ha⟩).elim

theorem oneAt_perm {α : Type} {P : α → Prop} {xs ys : List α} (hp : xs.Perm ys)
    (h : ∀ (k l : Nat) (a c : α), xs[k]? = some a → xs[l]? = some c → P a → P c → k = l) :
    ∀ (k l : Nat) (a c : α), ys[k]? = some a → ys[l]? = some c → P a → P c → k = l := by
  rw [oneAt_iff] at h ⊢
  exact (hp.pairwise_iff (fun h ⟨a, b⟩ => h ⟨b, a⟩)).1 h

namespace Rearranged
variable {g g' : Grammar}

theorem symm (h : Rearranged g g') : Rearranged g' g :=
  ⟨fun r r' h1 h2 => (h.first r' r h2 h1).symm, h.there, h.here⟩

/-- Rule `i` of `g` and rule `j` of `g'` have the same head. -/
def Corr (g g' : Grammar) (i j : Nat) : Prop := ∃ name, g.Head i name ∧ g'.Head j name

theorem Corr.symm {i j : Nat} (h : Corr g g' i j) : Corr g' g j i := by
  obtain ⟨n, h1, h2⟩ := h; exact ⟨n, h2, h1⟩

section
variable (h : Rearranged g g') (hd : DistinctHeads g) (hd' : DistinctHeads g')
include h hd hd'

theorem corr_rule {i : Nat} {r : Rule} (hr : g.rules[i]? = some r) :
    ∃ j r', Corr g g' i j ∧ g'.rules[j]? = some r' ∧ r'.head = r.head ∧ r'.tail.sequences.Perm r.tail.sequences := by
  obtain ⟨r', hm, hh, hp⟩ := h.here r (List.mem_of_getElem? hr)
  obtain ⟨j, hj⟩ := List.getElem?_of_mem hm
  exact ⟨j, r', ⟨r.head, ⟨r, hr, rfl⟩, ⟨r', hj, hh⟩⟩, hj, hh, hp⟩

theorem corr_unique {i j j' : Nat} (h1 : Corr g g' i j) (h2 : Corr g g' i j') : j = j' := by
  obtain ⟨n, a, b⟩ := h1
  obtain ⟨n', a', b'⟩ := h2
  obtain ⟨r, hr, rfl⟩ := a
  obtain ⟨r', hr', rfl⟩ := a'
  rw [hr] at hr'
  cases hr'
  exact hd' _ _ _ b b'

theorem rules_of_corr {i j : Nat} (hc : Corr g g' i j) {r r' : Rule} (hr : g.rules[i]? = some r)
    (hr' : g'.rules[j]? = some r') : r'.head = r.head ∧ r'.tail.sequences.Perm r.tail.sequences := by
  obtain ⟨j2, r2, hc2, hr2, hh, hp⟩ := h.corr_rule hd hd' hr
  cases h.corr_unique hd hd' hc hc2
  rw [hr'] at hr2
  cases hr2
  exact ⟨hh, hp⟩

theorem corr_zero {i : Nat} (hc : Corr g g' 0 i) : i = 0 := by
  obtain ⟨n, ⟨r, hr, rfl⟩, ⟨r', hr', hh⟩⟩ := hc
  have h0 : 0 < g'.rules.length := by
    have := (List.getElem?_eq_some_iff.1 hr').1; omega
  have e := h.first r _ hr (List.getElem?_eq_getElem h0)
  exact hd' i 0 _ ⟨r', hr', hh⟩ ⟨_, List.getElem?_eq_getElem h0, e⟩

theorem head {i : Nat} {name : Str} (hh : g.Head i name) : ∃ j, Corr g g' i j ∧ g'.Head j name := by
  obtain ⟨r, hr, rfl⟩ := id hh
  obtain ⟨j, r', hc, hj, hh', _⟩ := h.corr_rule hd hd' hr
  exact ⟨j, hc, r', hj, hh'⟩

theorem refers {i : Nat} {name : Str} (hh : g.Refers name i) : ∃ j, Corr g g' i j ∧ g'.Refers name j := by
  obtain ⟨j, hc, hj⟩ := h.head hd hd' hh.1
  exact ⟨j, hc, refers_of_distinct hd' hj⟩

theorem alt {i j : Nat} (hc : Corr g g' i j) {a : Sequence} (ha : g.Alt i a) : g'.Alt j a := by
  obtain ⟨r, hr, hm⟩ := ha
  obtain ⟨n, h1, r', hr', _⟩ := id hc
  exact ⟨r', hr', ((h.rules_of_corr hd hd' hc hr hr').2.mem_iff).2 hm⟩

theorem nullable {ys : List Symbol} (hn : Nullable g ys) : Nullable g' ys := by
  induction hn with
  | nil => exact .nil
  | nothing _ ih => exact .nothing ih
  | emptyTerminal _ ih => exact .emptyTerminal ih
  | nonTerminal hr ha _ _ ih1 ih2 =>
    obtain ⟨j, hc, hj⟩ := h.refers hd hd' hr
    exact .nonTerminal hj (h.alt hd hd' hc ha) ih1 ih2

theorem firsts {ys : List Symbol} {b : UInt8} (hf : First g ys b) : First g' ys b := by
  induction hf with
  | terminal => exact .terminal
  | head hr ha _ ih =>
    obtain ⟨j, hc, hj⟩ := h.refers hd hd' hr
    exact .head hj (h.alt hd hd' hc ha) ih
  | skip hn _ ih => exact .skip (h.nullable hd hd' hn) ih

theorem start {b : UInt8} {P : Grammar → Nat → UInt8 → Prop} (h0 : P g' 0 b) {j : Nat} (hc : Corr g g' 0 j) :
    P g' j b := by
  cases h.corr_zero hd hd' hc
  exact h0

theorem head_corr {i j : Nat} {name : Str} (hh : g.Head i name) (hc : Corr g g' i j) : g'.Head j name := by
  obtain ⟨j', hc', hj⟩ := h.head hd hd' hh
  cases h.corr_unique hd hd' hc hc'
  exact hj

theorem corr_alt {i : Nat} {a : Sequence} (ha : g.Alt i a) : ∃ j, Corr g g' i j ∧ g'.Alt j a := by
  obtain ⟨r, hr, hm⟩ := id ha
  obtain ⟨j, _, hc, _⟩ := h.corr_rule hd hd' hr
  exact ⟨j, hc, h.alt hd hd' hc ha⟩

theorem nextFollow {i : Nat} {b : UInt8} (hf : NextFollow g i b) : ∀ j, Corr g g' i j → NextFollow g' j b := by
  induction hf with
  | start => intro j hc; cases h.corr_zero hd hd' hc; exact .start
  | last ha hs hh _ ih =>
    intro j hc
    obtain ⟨k, hk, hak⟩ := h.corr_alt hd hd' ha
    exact .last hak hs (h.head_corr hd hd' hh hc) (ih k hk)
  | next ha hs hh hf =>
    intro j hc
    obtain ⟨k, hk, hak⟩ := h.corr_alt hd hd' ha
    exact .next hak hs (h.head_corr hd hd' hh hc) (h.firsts hd hd' hf)
  | nextNullable ha hs hh hn _ ih =>
    intro j hc
    obtain ⟨k, hk, hak⟩ := h.corr_alt hd hd' ha
    exact .nextNullable hak hs (h.head_corr hd hd' hh hc) (h.nullable hd hd' hn) (ih k hk)

theorem follow {i : Nat} {b : UInt8} (hf : Follow g i b) : ∀ j, Corr g g' i j → Follow g' j b := by
  induction hf with
  | start => intro j hc; cases h.corr_zero hd hd' hc; exact .start
  | first ha hs hr hf =>
    intro j hc
    obtain ⟨k, hk, hak⟩ := h.corr_alt hd hd' ha
    exact .first hak hs (refers_of_distinct hd' (h.head_corr hd hd' hr.1 hc)) (h.firsts hd hd' hf)
  | last ha hs hr hn _ ih =>
    intro j hc
    obtain ⟨k, hk, hak⟩ := h.corr_alt hd hd' ha
    exact .last hak hs (refers_of_distinct hd' (h.head_corr hd hd' hr.1 hc)) (h.nullable hd hd' hn) (ih k hk)

theorem firstDisjoint (hf : FirstDisjoint g) : FirstDisjoint g' := by
  intro j r' k l a c b hr' hk hl ha hc
  obtain ⟨i, r, hcor, hr, hh, hp⟩ := h.symm.corr_rule hd' hd hr'
  refine oneAt_perm (P := fun s : Sequence => First g s.symbols b) hp (fun k l a c hk hl ha hc =>
    hf i r k l a c b hr hk hl ha hc) k l a c hk hl (h.symm.firsts hd' hd ha) (h.symm.firsts hd' hd hc)

theorem ll1 (hll : IsLL1 g) : IsLL1 g' := by
  refine ⟨h.firstDisjoint hd hd' hll.1, ?_, ?_⟩
  · intro j r' k l a c hr' hk hl ha hc
    obtain ⟨i, r, hcor, hr, hh, hp⟩ := h.symm.corr_rule hd' hd hr'
    exact oneAt_perm (P := fun s : Sequence => Nullable g s.symbols) hp (fun k l a c hk hl ha hc =>
      hll.2.1 i r k l a c hr hk hl ha hc) k l a c hk hl (h.symm.nullable hd' hd ha) (h.symm.nullable hd' hd hc)
  · rintro j b ⟨a, ha, hn⟩ ⟨c, hc, hf⟩ hfol
    obtain ⟨i, hcor, hai⟩ := h.symm.corr_alt hd' hd ha
    exact hll.2.2 i b ⟨a, hai, h.symm.nullable hd' hd hn⟩
      ⟨c, h.symm.alt hd' hd hcor hc, h.symm.firsts hd' hd hf⟩ (h.symm.follow hd' hd hfol i hcor)

theorem noGap (hg : NoNullableGap g) : NoNullableGap g' := by
  intro j a pre name next post ha hs hn
  obtain ⟨i, _, hai⟩ := h.symm.corr_alt hd' hd ha
  exact hg i a pre name next post hai hs (h.symm.nullable hd' hd hn)

theorem wellFormed (hw : g.WellFormed) : g'.WellFormed := by
  refine ⟨?_, ?_, ?_, ?_, ?_⟩
  · intro he
    cases hr : g.rules with
    | nil => exact hw.rules hr
    | cons r rs =>
      obtain ⟨r', hm, _⟩ := h.here r (by rw [hr]; simp)
      rw [he] at hm
      cases hm
  · intro j a t ha
    obtain ⟨i, _, hai⟩ := h.symm.corr_alt hd' hd ha
    exact hw.term i a t hai
  · intro j a ha
    obtain ⟨i, _, hai⟩ := h.symm.corr_alt hd' hd ha
    exact hw.nothing i a hai
  · intro j a ha
    obtain ⟨i, _, hai⟩ := h.symm.corr_alt hd' hd ha
    exact hw.alts i a hai
  · intro j a name ha hm
    obtain ⟨i, _, hai⟩ := h.symm.corr_alt hd' hd ha
    obtain ⟨k, hk⟩ := hw.defined i a name hai hm
    obtain ⟨l, _, hl⟩ := h.head hd hd' hk
    exact ⟨l, hl⟩

theorem nulStartFree (hz : g.NulStartFree) : g'.NulStartFree := by
  intro j a t ha
  obtain ⟨i, _, hai⟩ := h.symm.corr_alt hd' hd ha
  exact hz i a t hai

end

/-! ## The tables -/

/-- The number of a rule in the rearranged grammar. -/
noncomputable def sigma (g g' : Grammar) (n : Int) : Int :=
  open Classical in
  if n < 0 then n
  else if hc : ∃ j, Corr g g' n.toNat j then (Classical.choose hc : Nat)
  else n + g'.rules.length

theorem sigma_corr (h : Rearranged g g') (hd : DistinctHeads g) (hd' : DistinctHeads g') {i j : Nat}
    (hc : Corr g g' i j) : sigma g g' (i : Int) = (j : Int) := by
  unfold sigma
  rw [if_neg (by omega)]
  have he : ∃ j, Corr g g' ((i : Int).toNat) j := ⟨j, hc⟩
  rw [dif_pos he]
  have := h.corr_unique hd hd' (Classical.choose_spec he) hc
  exact_mod_cast this

theorem allPairs_opOf (h : Rearranged g g') (hd : DistinctHeads g) (hd' : DistinctHeads g') {ys : List Symbol}
    {ops ops' : List ParserOp} (ho : AllPairs (OpOf g) ys ops) (ho' : AllPairs (OpOf g') ys ops') :
    ops' = ops.map (ParserOp.renumber (sigma g g')) := by
  induction ho generalizing ops' with
  | nil => cases ho'; rfl
  | @cons y op ys ops hx _ ih =>
    cases ho' with
    | @cons _ op' _ ops' hx' ho' =>
      rw [List.map_cons, ih ho']
      congr 1
      cases y with
      | terminal t =>
        cases (hx : _ = _)
        cases (hx' : _ = _)
        rfl
      | nothing => exact (hx : False).elim
      | nonTerminal name =>
        obtain ⟨i, hi, rfl⟩ := hx
        obtain ⟨j, hj, rfl⟩ := hx'
        simp only [ParserOp.renumber, sigma_corr h hd hd' ⟨name, hi.1, hj.1⟩]

end Rearranged
end LL1
