import Verif.Spec.Remedy
import Verif.Spec.Extract
import Verif.Proofs.GrammarFacts
import Verif.Proofs.Vanish

/-!
# The rewritings keep the language
-/

namespace LL1

variable {g g' : Grammar} {j : Nat} {r : Rule} {alts new : List Sequence} {name : Str}

namespace Rewrites

variable (hx : Rewrites g g' j r alts name new)
include hx

theorem lt : j < g.rules.length := (List.getElem?_eq_some_iff.1 hx.rule).1

theorem length : g'.rules.length = g.rules.length + 1 := by rw [hx.result]; simp

theorem last : g'.rules[g.rules.length]? = some ⟨name, ⟨new⟩⟩ := by
  rw [hx.result, List.getElem?_append_right (by simp)]
  simp

theorem other {i : Nat} (hi : i < g.rules.length) (hj : i ≠ j) : g'.rules[i]? = g.rules[i]? := by
  rw [hx.result, List.getElem?_append_left (by simpa using hi), List.getElem?_set_ne (Ne.symm hj)]

theorem edited : g'.rules[j]? = some ⟨r.head, ⟨alts⟩⟩ := by
  rw [hx.result, List.getElem?_append_left (by simpa using hx.lt), List.getElem?_set_self hx.lt]

/-- The alternatives of the new grammar. -/
theorem alt_iff {i : Nat} {a : Sequence} :
    g'.Alt i a ↔ (i = g.rules.length ∧ a ∈ new) ∨ (i = j ∧ a ∈ alts) ∨ (i ≠ j ∧ g.Alt i a) := by
  constructor
  · rintro ⟨r', hr, ha⟩
    have hlt := (List.getElem?_eq_some_iff.1 hr).1
    rw [hx.length] at hlt
    by_cases hn : i = g.rules.length
    · subst hn; rw [hx.last] at hr; cases hr; exact .inl ⟨rfl, ha⟩
    · by_cases hj : i = j
      · subst hj; rw [hx.edited] at hr; cases hr; exact .inr (.inl ⟨rfl, ha⟩)
      · rw [hx.other (by omega) hj] at hr; exact .inr (.inr ⟨hj, r', hr, ha⟩)
  · rintro (⟨rfl, ha⟩ | ⟨rfl, ha⟩ | ⟨hj, r', hr, ha⟩)
    · exact ⟨_, hx.last, ha⟩
    · exact ⟨_, hx.edited, ha⟩
    · exact ⟨r', by rw [hx.other (List.getElem?_eq_some_iff.1 hr).1 hj]; exact hr, ha⟩

theorem head_iff {i : Nat} {n : Str} : g'.Head i n ↔ g.Head i n ∨ (i = g.rules.length ∧ n = name) := by
  constructor
  · rintro ⟨r', hr, hh⟩
    have hlt := (List.getElem?_eq_some_iff.1 hr).1
    rw [hx.length] at hlt
    by_cases hn : i = g.rules.length
    · subst hn; rw [hx.last] at hr; cases hr; exact .inr ⟨rfl, hh.symm⟩
    · by_cases hj : i = j
      · subst hj; rw [hx.edited] at hr; cases hr; exact .inl ⟨r, hx.rule, hh⟩
      · rw [hx.other (by omega) hj] at hr; exact .inl ⟨r', hr, hh⟩
  · rintro (⟨r', hr, hh⟩ | ⟨rfl, rfl⟩)
    · by_cases hj : i = j
      · subst hj; rw [hx.rule] at hr; cases hr; exact ⟨_, hx.edited, hh⟩
      · exact ⟨r', by rw [hx.other (List.getElem?_eq_some_iff.1 hr).1 hj]; exact hr, hh⟩
    · exact ⟨_, hx.last, rfl⟩

theorem refers_iff {i : Nat} {n : Str} (hn : n ≠ name) : g'.Refers n i ↔ g.Refers n i := by
  unfold Grammar.Refers
  simp only [hx.head_iff, hn, and_false, or_false]

theorem refers_name {i : Nat} : g'.Refers name i ↔ i = g.rules.length := by
  have : ∀ i, g'.Head i name ↔ i = g.rules.length := fun i => by
    rw [hx.head_iff]; simp [hx.fresh.1 i]
  unfold Grammar.Refers
  simp only [this]
  constructor
  · exact fun h => h.1
  · rintro rfl; exact ⟨rfl, fun _ h => by omega⟩

theorem head_ne : r.head ≠ name := fun h => hx.fresh.1 j ⟨r, hx.rule, h⟩

end Rewrites

/-- Strings derivable in `g` where the non-terminal `name` stands for the strings of `M`. -/
inductive GenI (g : Grammar) (name : Str) (M : Str → Prop) : List Symbol → Str → Prop
  | nil : GenI g name M [] []
  | terminal {t : Str} {rest : List Symbol} {w : Str} :
      GenI g name M rest w → GenI g name M (.terminal t :: rest) (t ++ w)
  | nothing {rest : List Symbol} {w : Str} : GenI g name M rest w → GenI g name M (.nothing :: rest) w
  | special {rest : List Symbol} {u w : Str} : M u → GenI g name M rest w → GenI g name M (.nonTerminal name :: rest) (u ++ w)
  | rule {n : Str} {i : Nat} {rest : List Symbol} {u w : Str} : n ≠ name → g.Refers n i → GenRule g i u →
      GenI g name M rest w → GenI g name M (.nonTerminal n :: rest) (u ++ w)

theorem GenI.toGen {M : Str → Prop} {ys : List Symbol} {w : Str} (h : GenI g name M ys w) :
    Symbol.nonTerminal name ∉ ys → Gen g ys w := by
  induction h with
  | nil => exact fun _ => .nil
  | terminal _ ih => exact fun hn => .terminal (ih fun h => hn (List.mem_cons_of_mem _ h))
  | nothing _ ih => exact fun hn => .nothing (ih fun h => hn (List.mem_cons_of_mem _ h))
  | special _ _ _ => exact fun hn => (hn (List.mem_cons_self ..)).elim
  | rule _ hr hg _ ih =>
    intro hn
    obtain ⟨alt, ha, hG⟩ := hg
    exact .nonTerminal hr ha hG (ih fun h => hn (List.mem_cons_of_mem _ h))

theorem GenI.split {M : Str → Prop} {ys zs : List Symbol} : ∀ {w : Str}, GenI g name M (ys ++ zs) w →
    ∃ u v, w = u ++ v ∧ GenI g name M ys u ∧ GenI g name M zs v := by
  induction ys with
  | nil => intro w h; exact ⟨[], w, rfl, .nil, h⟩
  | cons y ys ih =>
    intro w h
    rw [List.cons_append] at h
    cases h with
    | terminal h => obtain ⟨u, v, rfl, h1, h2⟩ := ih h; exact ⟨_, v, (List.append_assoc ..).symm, .terminal h1, h2⟩
    | nothing h => obtain ⟨u, v, rfl, h1, h2⟩ := ih h; exact ⟨u, v, rfl, .nothing h1, h2⟩
    | special hm h => obtain ⟨u, v, rfl, h1, h2⟩ := ih h; exact ⟨_, v, (List.append_assoc ..).symm, .special hm h1, h2⟩
    | rule hn hr hg h =>
      obtain ⟨u, v, rfl, h1, h2⟩ := ih h; exact ⟨_, v, (List.append_assoc ..).symm, .rule hn hr hg h1, h2⟩

theorem GenI.name_inv {M : Str → Prop} {w : Str} (h : GenI g name M [.nonTerminal name] w) : M w := by
  cases h with
  | special hm h => cases h; simpa using hm
  | rule hn => exact (hn rfl).elim

/-- If the new grammar's rules are closed under the old alternatives, it derives what the old one derives. -/
theorem Rewrites.gen_to (hx : Rewrites g g' j r alts name new)
    (hA : ∀ a w, g.Alt j a → Gen g' a.symbols w → GenRule g' j w) {ys : List Symbol} {w : Str} (h : Gen g ys w) :
    Symbol.nonTerminal name ∉ ys → Gen g' ys w := by
  induction h with
  | nil => exact fun _ => .nil
  | terminal _ ih => exact fun hn => .terminal (ih fun h => hn (List.mem_cons_of_mem _ h))
  | nothing _ ih => exact fun hn => .nothing (ih fun h => hn (List.mem_cons_of_mem _ h))
  | @nonTerminal n i alt rest u w hr ha _ _ ih1 ih2 =>
    intro hn
    have hne : n ≠ name := fun h => hn (by rw [h]; exact List.mem_cons_self ..)
    have h2 := ih2 fun h => hn (List.mem_cons_of_mem _ h)
    have h1 := ih1 (hx.fresh.2 _ _ ha)
    by_cases hj : i = j
    · subst hj
      obtain ⟨a', ha', hG⟩ := hA alt u ha h1
      exact .nonTerminal ((hx.refers_iff hne).2 hr) ha' hG h2
    · exact .nonTerminal ((hx.refers_iff hne).2 hr) (hx.alt_iff.2 (.inr (.inr ⟨hj, ha⟩))) h1 h2

/-- If the old grammar's rules are closed under the new alternatives (with `M` for the new name), it derives what the new
one derives. -/
theorem Rewrites.gen_from (hx : Rewrites g g' j r alts name new) {M : Str → Prop}
    (hB : ∀ a ∈ alts, ∀ w, GenI g name M a.symbols w → GenRule g j w)
    (hC : ∀ a ∈ new, ∀ w, GenI g name M a.symbols w → M w) {ys : List Symbol} {w : Str} (h : Gen g' ys w) :
    GenI g name M ys w := by
  induction h with
  | nil => exact .nil
  | terminal _ ih => exact .terminal ih
  | nothing _ ih => exact .nothing ih
  | @nonTerminal n i alt rest u w hr ha _ _ ih1 ih2 =>
    by_cases hn : n = name
    · subst hn
      have hi := hx.refers_name.1 hr
      subst hi
      rcases hx.alt_iff.1 ha with ⟨_, hm⟩ | ⟨h1, _⟩ | ⟨_, h1⟩
      · exact .special (hC alt hm u ih1) ih2
      · exact absurd hx.lt (by omega)
      · exact absurd h1.lt (by omega)
    · have hr' := (hx.refers_iff hn).1 hr
      refine .rule hn hr' ?_ ih2
      rcases hx.alt_iff.1 ha with ⟨rfl, _⟩ | ⟨rfl, hm⟩ | ⟨_, h1⟩
      · obtain ⟨⟨r0, h0, _⟩, _⟩ := hr'
        exact absurd (List.getElem?_eq_some_iff.1 h0).1 (by omega)
      · exact hB alt hm u ih1
      · exact ⟨alt, h1, ih1.toGen (hx.fresh.2 _ _ h1)⟩

theorem Rewrites.genRule_iff (hx : Rewrites g g' j r alts name new) {M : Str → Prop}
    (hA : ∀ a w, g.Alt j a → Gen g' a.symbols w → GenRule g' j w)
    (hB : ∀ a ∈ alts, ∀ w, GenI g name M a.symbols w → GenRule g j w)
    (hC : ∀ a ∈ new, ∀ w, GenI g name M a.symbols w → M w) {i : Nat} (hi : i < g.rules.length) (w : Str) :
    GenRule g' i w ↔ GenRule g i w := by
  constructor
  · rintro ⟨a, ha, h⟩
    have hG := hx.gen_from hB hC h
    rcases hx.alt_iff.1 ha with ⟨rfl, _⟩ | ⟨rfl, hm⟩ | ⟨_, h1⟩
    · omega
    · exact hB a hm w hG
    · exact ⟨a, h1, hG.toGen (hx.fresh.2 _ _ h1)⟩
  · rintro ⟨a, ha, h⟩
    have hG := hx.gen_to hA h (hx.fresh.2 _ _ ha)
    by_cases hj : i = j
    · subst hj; exact hA a w ha hG
    · exact ⟨a, hx.alt_iff.2 (.inr (.inr ⟨hj, ha⟩)), hG⟩

theorem gen_orNothing {ys : List Symbol} {w : Str} : Gen g (orNothing ys) w ↔ Gen g ys w := by
  unfold orNothing
  by_cases h : ys = []
  · rw [if_pos h, h]
    exact ⟨fun h => by cases h with | nothing h => exact h, fun h => .nothing h⟩
  · rw [if_neg h]

theorem mem_orNothing {ys : List Symbol} {n : Str} : Symbol.nonTerminal n ∈ orNothing ys ↔ Symbol.nonTerminal n ∈ ys := by
  unfold orNothing
  by_cases h : ys = []
  · rw [if_pos h, h]; simp
  · rw [if_neg h]

theorem gen_dropNothing {ys : List Symbol} {w : Str} : Gen g (dropNothing ys) w ↔ Gen g ys w := by
  unfold dropNothing
  by_cases h : ys = [.nothing]
  · rw [if_pos h, h]
    exact ⟨fun h => .nothing h, fun h => by cases h with | nothing h => exact h⟩
  · rw [if_neg h]

theorem mem_dropNothing {ys : List Symbol} {n : Str} : Symbol.nonTerminal n ∈ dropNothing ys ↔ Symbol.nonTerminal n ∈ ys := by
  unfold dropNothing
  by_cases h : ys = [.nothing]
  · rw [if_pos h, h]; simp
  · rw [if_neg h]

theorem alt_of_mem (hr : g.rules[j]? = some r) {a : Sequence} (h : a ∈ r.tail.sequences) : g.Alt j a := ⟨r, hr, h⟩

theorem Factors.genRule_iff (h : Factors g g') {i : Nat} (hi : i < g.rules.length) (w : Str) : GenRule g' i w ↔ GenRule g i w := by
  obtain ⟨j, r, alts, name, new, pre, posts, keep, hx, hps, p1, p2, p3⟩ := h
  have hpost : ∀ p ∈ posts, g.Alt j ⟨pre ++ p⟩ := fun p hp =>
    alt_of_mem hx.rule (p1.mem_iff.2 (List.mem_append_left _ (List.mem_map.2 ⟨p, hp, rfl⟩)))
  have hkeep : ∀ a ∈ keep, g.Alt j a := fun a ha => alt_of_mem hx.rule (p1.mem_iff.2 (List.mem_append_right _ ha))
  obtain ⟨p0, hp0⟩ := List.exists_mem_of_ne_nil _ hps
  have hpre : Symbol.nonTerminal name ∉ pre := fun h => hx.fresh.2 _ _ (hpost p0 hp0) (by simp [h])
  refine hx.genRule_iff (M := fun v => ∃ p ∈ posts, Gen g p v) ?_ ?_ ?_ hi w
  · rintro a w ⟨r', hr', ha⟩ hG
    rw [hx.rule] at hr'
    cases hr'
    rcases List.mem_append.1 (p1.mem_iff.1 ha) with ha | ha
    · obtain ⟨p, hp, rfl⟩ := List.mem_map.1 ha
      obtain ⟨u, v, rfl, h1, h2⟩ := Gen.split hG
      refine ⟨_, hx.alt_iff.2 (.inr (.inl ⟨rfl, p2.mem_iff.2 (List.mem_cons_self ..)⟩)), Gen.append h1 ?_⟩
      have := Gen.nonTerminal (rest := []) (w := []) (hx.refers_name.2 rfl) (hx.alt_iff.2 (.inl ⟨rfl, p3.mem_iff.2 (List.mem_map.2 ⟨p, hp, rfl⟩)⟩))
        (gen_orNothing.2 h2) .nil
      simpa using this
    · exact ⟨a, hx.alt_iff.2 (.inr (.inl ⟨rfl, p2.mem_iff.2 (List.mem_cons_of_mem _ ha)⟩)), hG⟩
  · intro a ha w hG
    rcases List.mem_cons.1 (p2.mem_iff.1 ha) with rfl | ha
    · obtain ⟨u, v, rfl, h1, h2⟩ := GenI.split hG
      obtain ⟨p, hp, hv⟩ := h2.name_inv
      exact ⟨_, hpost p hp, Gen.append (h1.toGen hpre) hv⟩
    · exact ⟨a, hkeep a ha, hG.toGen (hx.fresh.2 _ _ (hkeep a ha))⟩
  · intro a ha w hG
    obtain ⟨p, hp, rfl⟩ := List.mem_map.1 (p3.mem_iff.1 ha)
    have hf : Symbol.nonTerminal name ∉ p := fun h => hx.fresh.2 _ _ (hpost p hp) (by simp [h])
    exact ⟨p, hp, gen_orNothing.1 (hG.toGen (fun h => hf (mem_orNothing.1 h)))⟩

/-- Any number of strings, each derived from one of `as`, one after the other. -/
inductive Chain (g : Grammar) (as : List (List Symbol)) : Str → Prop
  | nil : Chain g as []
  | cons {a : List Symbol} {u v : Str} : a ∈ as → Gen g a u → Chain g as v → Chain g as (u ++ v)

theorem Resolves.genRule_iff (h : Resolves g g') {i : Nat} (hi : i < g.rules.length) (w : Str) : GenRule g' i w ↔ GenRule g i w := by
  obtain ⟨j, r, alts, name, new, as, bs, hx, hself, p1, p2, p3⟩ := h
  have has : ∀ a ∈ as, g.Alt j ⟨.nonTerminal r.head :: a⟩ := fun a ha =>
    alt_of_mem hx.rule (p1.mem_iff.2 (List.mem_append_left _ (List.mem_map.2 ⟨a, ha, rfl⟩)))
  have hbs : ∀ b ∈ bs, g.Alt j ⟨b⟩ := fun b hb =>
    alt_of_mem hx.rule (p1.mem_iff.2 (List.mem_append_right _ (List.mem_map.2 ⟨b, hb, rfl⟩)))
  have hself' : g'.Refers r.head j := (hx.refers_iff hx.head_ne).2 hself
  -- derivations of the new non-terminal
  have hnil : Gen g' [.nonTerminal name] [] := by
    have := Gen.nonTerminal (rest := []) (w := []) (hx.refers_name.2 rfl)
      (hx.alt_iff.2 (.inl ⟨rfl, p3.mem_iff.2 (List.mem_cons_self ..)⟩)) (Gen.nothing .nil) .nil
    simpa using this
  have hcons : ∀ a ∈ as, ∀ u v, Gen g' a u → Gen g' [.nonTerminal name] v → Gen g' [.nonTerminal name] (u ++ v) := by
    intro a ha u v h1 h2
    have := Gen.nonTerminal (rest := []) (w := []) (hx.refers_name.2 rfl)
      (hx.alt_iff.2 (.inl ⟨rfl, p3.mem_iff.2 (List.mem_cons_of_mem _ (List.mem_map.2 ⟨a, ha, rfl⟩))⟩)) (Gen.append h1 h2) .nil
    simpa using this
  have hsnoc : ∀ a ∈ as, ∀ x v, Chain g' as x → Gen g' a v → Gen g' [.nonTerminal name] (x ++ v) := by
    intro a ha x v hc hv
    induction hc with
    | nil => simpa using hcons a ha v [] hv hnil
    | cons ha' hu _ ih => rw [List.append_assoc]; exact hcons _ ha' _ _ hu ih
  have hchain : ∀ ys v, Gen g' ys v → ∀ zs, ys = zs ++ [.nonTerminal name] → ∃ x y, v = x ++ y ∧ Gen g' zs x ∧ Chain g' as y := by
    intro ys v h
    induction h with
    | nil => intro zs hz; simp at hz
    | @terminal t rest w hg ih =>
      intro zs hz
      cases zs with
      | nil => simp at hz
      | cons z zs =>
        simp only [List.cons_append, List.cons.injEq] at hz
        obtain ⟨rfl, hz⟩ := hz
        obtain ⟨x, y, rfl, h1, h2⟩ := ih zs hz
        exact ⟨_, y, (List.append_assoc ..).symm, .terminal h1, h2⟩
    | @nothing rest w hg ih =>
      intro zs hz
      cases zs with
      | nil => simp at hz
      | cons z zs =>
        simp only [List.cons_append, List.cons.injEq] at hz
        obtain ⟨rfl, hz⟩ := hz
        obtain ⟨x, y, rfl, h1, h2⟩ := ih zs hz
        exact ⟨x, y, rfl, .nothing h1, h2⟩
    | @nonTerminal n i alt rest u w hr ha hG hrest ih1 ih2 =>
      intro zs hz
      cases zs with
      | nil =>
        simp only [List.nil_append, List.cons.injEq, Symbol.nonTerminal.injEq] at hz
        obtain ⟨rfl, rfl⟩ := hz
        cases hrest
        have hi := hx.refers_name.1 hr
        subst hi
        refine ⟨[], u, by simp, .nil, ?_⟩
        rcases hx.alt_iff.1 ha with ⟨_, hm⟩ | ⟨h1, _⟩ | ⟨_, h1⟩
        · rcases List.mem_cons.1 (p3.mem_iff.1 hm) with rfl | hm
          · cases hG with | nothing h => cases h; exact .nil
          · obtain ⟨a, haa, rfl⟩ := List.mem_map.1 hm
            obtain ⟨x, y, rfl, h1, h2⟩ := ih1 a rfl
            exact .cons haa h1 h2
        · exact absurd hx.lt (by omega)
        · exact absurd h1.lt (by omega)
      | cons z zs =>
        simp only [List.cons_append, List.cons.injEq] at hz
        obtain ⟨rfl, hz⟩ := hz
        obtain ⟨x, y, rfl, h1, h2⟩ := ih2 zs hz
        exact ⟨_, y, (List.append_assoc ..).symm, .nonTerminal hr ha hG h1, h2⟩
  refine hx.genRule_iff (M := Chain g as) ?_ ?_ ?_ hi w
  · rintro a w ⟨r', hr', ha⟩ hG
    rw [hx.rule] at hr'
    cases hr'
    rcases List.mem_append.1 (p1.mem_iff.1 ha) with ha | ha
    · obtain ⟨a, haa, rfl⟩ := List.mem_map.1 ha
      cases hG with
      | @nonTerminal _ i alt _ u v hr halt hu hv =>
        cases hr.det hself'
        rcases hx.alt_iff.1 halt with ⟨h1, _⟩ | ⟨_, hm⟩ | ⟨h1, _⟩
        · exact absurd hx.lt (by omega)
        · obtain ⟨b, hb, rfl⟩ := List.mem_map.1 (p2.mem_iff.1 hm)
          obtain ⟨x, y, rfl, h1, h2⟩ := hchain _ _ hu _ rfl
          refine ⟨_, halt, ?_⟩
          rw [List.append_assoc]
          exact Gen.append h1 (hsnoc a haa y v h2 hv)
        · exact (h1 rfl).elim
    · obtain ⟨b, hb, rfl⟩ := List.mem_map.1 ha
      refine ⟨_, hx.alt_iff.2 (.inr (.inl ⟨rfl, p2.mem_iff.2 (List.mem_map.2 ⟨b, hb, rfl⟩)⟩)), ?_⟩
      have := Gen.append (gen_dropNothing.2 hG) hnil
      simpa using this
  · intro a ha w hG
    obtain ⟨b, hb, rfl⟩ := List.mem_map.1 (p2.mem_iff.1 ha)
    obtain ⟨u, v, rfl, h1, h2⟩ := GenI.split hG
    have hf : Symbol.nonTerminal name ∉ b := fun h => hx.fresh.2 _ _ (hbs b hb) h
    have hu : GenRule g j u := ⟨_, hbs b hb, gen_dropNothing.1 (h1.toGen fun h => hf (mem_dropNothing.1 h))⟩
    have hv := h2.name_inv
    clear h1 h2 hG hi
    induction hv generalizing u with
    | nil => simpa using hu
    | @cons a u1 v1 haa hu1 _ ih =>
      rw [← List.append_assoc]
      obtain ⟨alt, hal, hG⟩ := hu
      exact ih _ ⟨_, has a haa, .nonTerminal hself hal hG hu1⟩
  · intro a ha w hG
    rcases List.mem_cons.1 (p3.mem_iff.1 ha) with rfl | ha
    · cases hG with | nothing h => cases h; exact .nil
    · obtain ⟨a, haa, rfl⟩ := List.mem_map.1 ha
      obtain ⟨u, v, rfl, h1, h2⟩ := GenI.split hG
      have hf : Symbol.nonTerminal name ∉ a := fun h => hx.fresh.2 _ _ (has a haa) (by simp [h])
      exact .cons haa (h1.toGen hf) h2.name_inv

theorem Remedied.le (h : Remedied g g') : g.rules.length ≤ g'.rules.length := by
  induction h with
  | refl => exact Nat.le_refl _
  | factor _ hf ih => obtain ⟨_, _, _, _, _, _, _, _, hx, _⟩ := hf; rw [hx.length]; omega
  | resolve _ hf ih => obtain ⟨_, _, _, _, _, _, _, hx, _⟩ := hf; rw [hx.length]; omega

theorem Remedied.genRule_iff (h : Remedied g g') {i : Nat} (hi : i < g.rules.length) (w : Str) :
    GenRule g' i w ↔ GenRule g i w := by
  induction h with
  | refl => rfl
  | factor hs hf ih => rw [hf.genRule_iff (Nat.lt_of_lt_of_le hi hs.le), ih]
  | resolve hs hf ih => rw [hf.genRule_iff (Nat.lt_of_lt_of_le hi hs.le), ih]

end LL1

namespace LL1

variable {g g' : Grammar} {j : Nat} {r : Rule} {alts new : List Sequence} {name : Str}

namespace Rewrites

variable (hx : Rewrites g g' j r alts name new)
include hx

theorem distinct (hd : DistinctHeads g) : DistinctHeads g' := by
  intro i l n hi hl
  rcases hx.head_iff.1 hi with hi | ⟨rfl, rfl⟩
  · rcases hx.head_iff.1 hl with hl | ⟨rfl, rfl⟩
    · exact hd i l n hi hl
    · exact (hx.fresh.1 _ hi).elim
  · rcases hx.head_iff.1 hl with hl | ⟨rfl, _⟩
    · exact (hx.fresh.1 _ hl).elim
    · rfl

theorem nulFree (hz : g.NulFree)
    (hm : ∀ a, a ∈ alts ∨ a ∈ new → ∀ t, Symbol.terminal t ∈ a.symbols → ∃ a', g.Alt j a' ∧ Symbol.terminal t ∈ a'.symbols) :
    g'.NulFree := by
  intro i alt t ha ht
  rcases hx.alt_iff.1 ha with ⟨_, h⟩ | ⟨_, h⟩ | ⟨_, h⟩
  · obtain ⟨a', h1, h2⟩ := hm alt (.inr h) t ht; exact hz _ _ _ h1 h2
  · obtain ⟨a', h1, h2⟩ := hm alt (.inl h) t ht; exact hz _ _ _ h1 h2
  · exact hz _ _ _ h ht

end Rewrites

theorem terminal_orNothing {ys : List Symbol} {t : Str} (h : Symbol.terminal t ∈ orNothing ys) : Symbol.terminal t ∈ ys := by
  unfold orNothing at h
  split at h
  · simp at h
  · exact h

theorem mem_of_dropNothing {ys : List Symbol} {x : Symbol} (h : x ∈ dropNothing ys) : x ∈ ys := by
  unfold dropNothing at h
  split at h
  · cases h
  · exact h

theorem Factors.keeps (h : Factors g g') : (DistinctHeads g → DistinctHeads g') ∧ (g.NulFree → g'.NulFree) := by
  obtain ⟨j, r, alts, name, new, pre, posts, keep, hx, hps, p1, p2, p3⟩ := h
  have hpost : ∀ p ∈ posts, g.Alt j ⟨pre ++ p⟩ := fun p hp =>
    alt_of_mem hx.rule (p1.mem_iff.2 (List.mem_append_left _ (List.mem_map.2 ⟨p, hp, rfl⟩)))
  refine ⟨hx.distinct, fun hz => hx.nulFree hz ?_⟩
  rintro a (ha | ha) t ht
  · rcases List.mem_cons.1 (p2.mem_iff.1 ha) with rfl | ha
    · obtain ⟨p0, hp0⟩ := List.exists_mem_of_ne_nil _ hps
      refine ⟨_, hpost p0 hp0, ?_⟩
      simp only [List.mem_append, List.mem_singleton, reduceCtorEq, or_false] at ht
      simp [ht]
    · exact ⟨a, alt_of_mem hx.rule (p1.mem_iff.2 (List.mem_append_right _ ha)), ht⟩
  · obtain ⟨p, hp, rfl⟩ := List.mem_map.1 (p3.mem_iff.1 ha)
    exact ⟨_, hpost p hp, by simp [terminal_orNothing ht]⟩

theorem Resolves.keeps (h : Resolves g g') : (DistinctHeads g → DistinctHeads g') ∧ (g.NulFree → g'.NulFree) := by
  obtain ⟨j, r, alts, name, new, as, bs, hx, hself, p1, p2, p3⟩ := h
  have has : ∀ a ∈ as, g.Alt j ⟨.nonTerminal r.head :: a⟩ := fun a ha =>
    alt_of_mem hx.rule (p1.mem_iff.2 (List.mem_append_left _ (List.mem_map.2 ⟨a, ha, rfl⟩)))
  have hbs : ∀ b ∈ bs, g.Alt j ⟨b⟩ := fun b hb =>
    alt_of_mem hx.rule (p1.mem_iff.2 (List.mem_append_right _ (List.mem_map.2 ⟨b, hb, rfl⟩)))
  refine ⟨hx.distinct, fun hz => hx.nulFree hz ?_⟩
  rintro a (ha | ha) t ht
  · obtain ⟨b, hb, rfl⟩ := List.mem_map.1 (p2.mem_iff.1 ha)
    simp only [List.mem_append, List.mem_singleton, reduceCtorEq, or_false] at ht
    exact ⟨_, hbs b hb, mem_of_dropNothing ht⟩
  · rcases List.mem_cons.1 (p3.mem_iff.1 ha) with rfl | ha
    · simp at ht
    · obtain ⟨a, haa, rfl⟩ := List.mem_map.1 ha
      simp only [List.mem_append, List.mem_singleton, reduceCtorEq, or_false] at ht
      exact ⟨_, has a haa, by simp [ht]⟩

theorem Remedied.keeps (h : Remedied g g') : (DistinctHeads g → DistinctHeads g') ∧ (g.NulFree → g'.NulFree) := by
  induction h with
  | refl => exact ⟨id, id⟩
  | factor _ hf ih => exact ⟨hf.keeps.1 ∘ ih.1, hf.keeps.2 ∘ ih.2⟩
  | resolve _ hf ih => exact ⟨hf.keeps.1 ∘ ih.1, hf.keeps.2 ∘ ih.2⟩

theorem perm_set {α : Type} : ∀ {l : List α} {k : Nat} {a b : α}, l[k]? = some a →
    l.Perm (a :: l.eraseIdx k) ∧ (l.set k b).Perm (b :: l.eraseIdx k)
  | [], k, a, b, h => by simp at h
  | x :: l, 0, a, b, h => by
    simp only [List.getElem?_cons_zero, Option.some.injEq] at h
    subst h
    exact ⟨.refl _, .refl _⟩
  | x :: l, k + 1, a, b, h => by
    simp only [List.getElem?_cons_succ] at h
    obtain ⟨h1, h2⟩ := perm_set (b := b) h
    exact ⟨(h1.cons x).trans (.swap ..), (h2.cons x).trans (.swap ..)⟩

/-- The edit of C97 is a case of the first rewriting: one alternative has its beginning in common with itself. -/
theorem Extracts.factors (h : Extracts g g') : Factors g g' := by
  obtain ⟨name, j, k, r, pre, post, hx⟩ := h
  obtain ⟨h1, h2⟩ := perm_set (b := (⟨pre ++ [.nonTerminal name]⟩ : Sequence)) hx.alt
  refine ⟨j, r, _, name, _, pre, [post], r.tail.sequences.eraseIdx k, ⟨hx.rule, hx.result, hx.freshHead, hx.freshUse⟩, by simp,
    by simpa using h1, h2, ?_⟩
  simp [orNothing, hx.nonempty]

theorem Reshaped.remedied (h : Reshaped g g') : Remedied g g' := by
  induction h with
  | refl => exact .refl
  | step _ he ih => exact .factor ih he.factors

end LL1
