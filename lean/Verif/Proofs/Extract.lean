import Verif.Spec.Extract
import Verif.Proofs.GrammarFacts
import Verif.Proofs.Vanish
import Verif.Proofs.LiveFacts

/-!
# Making the end of an alternative a rule of its own: language, FIRST, FOLLOW, LL(1), trees
-/

namespace LL1

variable {g g' : Grammar} {name : Str} {j k : Nat} {r : Rule} {pre post : List Symbol}

/-- The symbols with `name` replaced by `post`. -/
def expand (name : Str) (post : List Symbol) (ys : List Symbol) : List Symbol :=
  ys.flatMap fun x => if x = .nonTerminal name then post else [x]

theorem expand_append (name : Str) (post ys zs : List Symbol) :
    expand name post (ys ++ zs) = expand name post ys ++ expand name post zs := by
  simp [expand]

theorem expand_free {name : Str} {post ys : List Symbol} (h : Symbol.nonTerminal name ∉ ys) : expand name post ys = ys := by
  induction ys with
  | nil => rfl
  | cons y ys ih =>
    simp only [List.mem_cons, not_or] at h
    have := ih h.2
    unfold expand at this ⊢
    rw [List.flatMap_cons, this, if_neg (Ne.symm h.1)]
    rfl

theorem expand_name (name : Str) (post : List Symbol) : expand name post [.nonTerminal name] = post := by
  simp [expand]

theorem expand_cons_ne {name : Str} {post ys : List Symbol} {x : Symbol} (h : x ≠ .nonTerminal name) :
    expand name post (x :: ys) = x :: expand name post ys := by
  simp [expand, h]

theorem expand_cons_name {name : Str} {post ys : List Symbol} :
    expand name post (.nonTerminal name :: ys) = post ++ expand name post ys := by
  simp [expand]

namespace Extract

variable (hx : Extract g g' name j k r pre post)
include hx

theorem lt : j < g.rules.length := (List.getElem?_eq_some_iff.1 hx.rule).1

theorem oldAlt : g.Alt j ⟨pre ++ post⟩ := ⟨r, hx.rule, List.mem_of_getElem? hx.alt⟩

theorem pre_free : Symbol.nonTerminal name ∉ pre := fun h => hx.freshUse _ _ hx.oldAlt (by simp [h])

theorem post_free : Symbol.nonTerminal name ∉ post := fun h => hx.freshUse _ _ hx.oldAlt (by simp [h])

theorem length : g'.rules.length = g.rules.length + 1 := by rw [hx.result]; simp

theorem last : g'.rules[g.rules.length]? = some ⟨name, ⟨[⟨post⟩]⟩⟩ := by
  rw [hx.result, List.getElem?_append_right (by simp)]
  simp

theorem other {i : Nat} (hi : i < g.rules.length) (hj : i ≠ j) : g'.rules[i]? = g.rules[i]? := by
  rw [hx.result, List.getElem?_append_left (by simpa using hi), List.getElem?_set_ne (Ne.symm hj)]

theorem edited : g'.rules[j]? = some ⟨r.head, ⟨r.tail.sequences.set k ⟨pre ++ [.nonTerminal name]⟩⟩⟩ := by
  rw [hx.result, List.getElem?_append_left (by simpa using hx.lt), List.getElem?_set_self hx.lt]

/-- The rules of the new grammar: the added one, or one with the head and the number of alternatives of an old one whose
alternatives are the old ones, except for the edited one. -/
theorem new_rule {i : Nat} {r' : Rule} (h : g'.rules[i]? = some r') :
    (i = g.rules.length ∧ r' = ⟨name, ⟨[⟨post⟩]⟩⟩) ∨
    ∃ r0, g.rules[i]? = some r0 ∧ r'.head = r0.head ∧ ∀ l a', r'.tail.sequences[l]? = some a' →
      ∃ a, r0.tail.sequences[l]? = some a ∧
        ((a' = a) ∨ (i = j ∧ l = k ∧ a = ⟨pre ++ post⟩ ∧ a' = ⟨pre ++ [.nonTerminal name]⟩)) := by
  have hlt := (List.getElem?_eq_some_iff.1 h).1
  rw [hx.length] at hlt
  by_cases hn : i = g.rules.length
  · subst hn
    rw [hx.last] at h
    exact .inl ⟨rfl, (Option.some.inj h).symm⟩
  · right
    by_cases hj : i = j
    · subst hj
      rw [hx.edited] at h
      cases h
      refine ⟨r, hx.rule, rfl, fun l a' ha => ?_⟩
      by_cases hl : l = k
      · subst hl
        have hk := (List.getElem?_eq_some_iff.1 hx.alt).1
        simp only [List.getElem?_set_self hk, Option.some.injEq] at ha
        exact ⟨_, hx.alt, .inr ⟨rfl, rfl, rfl, ha.symm⟩⟩
      · simp only [List.getElem?_set_ne (Ne.symm hl)] at ha
        exact ⟨a', ha, .inl rfl⟩
    · rw [hx.other (by omega) hj] at h
      exact ⟨r', h, rfl, fun l a' ha => ⟨a', ha, .inl rfl⟩⟩

/-- The old rules in the new grammar. -/
theorem old_rule {i : Nat} {r0 : Rule} (h : g.rules[i]? = some r0) :
    ∃ r', g'.rules[i]? = some r' ∧ r'.head = r0.head ∧ ∀ l a, r0.tail.sequences[l]? = some a →
      ∃ a', r'.tail.sequences[l]? = some a' ∧
        ((a' = a) ∨ (i = j ∧ l = k ∧ a = ⟨pre ++ post⟩ ∧ a' = ⟨pre ++ [.nonTerminal name]⟩)) := by
  have hlt := (List.getElem?_eq_some_iff.1 h).1
  by_cases hj : i = j
  · subst hj
    rw [hx.rule] at h
    cases h
    refine ⟨_, hx.edited, rfl, fun l a ha => ?_⟩
    by_cases hl : l = k
    · subst hl
      have hk := (List.getElem?_eq_some_iff.1 hx.alt).1
      rw [hx.alt] at ha
      cases ha
      exact ⟨_, List.getElem?_set_self hk, .inr ⟨rfl, rfl, rfl, rfl⟩⟩
    · exact ⟨a, by simp only [List.getElem?_set_ne (Ne.symm hl)]; exact ha, .inl rfl⟩
  · exact ⟨r0, by rw [hx.other hlt hj]; exact h, rfl, fun l a ha => ⟨a, ha, .inl rfl⟩⟩

theorem new_alt {i : Nat} {a' : Sequence} (h : g'.Alt i a') :
    (i = g.rules.length ∧ a' = ⟨post⟩) ∨
    ∃ a, g.Alt i a ∧ (a' = a ∨ (i = j ∧ a = ⟨pre ++ post⟩ ∧ a' = ⟨pre ++ [.nonTerminal name]⟩)) := by
  obtain ⟨r', hr, ha⟩ := h
  obtain ⟨l, hl⟩ := List.mem_iff_getElem?.1 ha
  rcases hx.new_rule hr with ⟨rfl, rfl⟩ | ⟨r0, hr0, _, hall⟩
  · simp only [List.mem_singleton] at ha
    exact .inl ⟨rfl, ha⟩
  · obtain ⟨a, h1, h2⟩ := hall l a' hl
    exact .inr ⟨a, ⟨r0, hr0, List.mem_of_getElem? h1⟩, h2.imp id fun ⟨h1, _, h2⟩ => ⟨h1, h2⟩⟩

theorem old_alt {i : Nat} {a : Sequence} (h : g.Alt i a) :
    ∃ a', g'.Alt i a' ∧ (a' = a ∨ (i = j ∧ a = ⟨pre ++ post⟩ ∧ a' = ⟨pre ++ [.nonTerminal name]⟩)) := by
  obtain ⟨r0, hr, ha⟩ := h
  obtain ⟨l, hl⟩ := List.mem_iff_getElem?.1 ha
  obtain ⟨r', hr', _, hall⟩ := hx.old_rule hr
  obtain ⟨a', h1, h2⟩ := hall l a hl
  exact ⟨a', ⟨r', hr', List.mem_of_getElem? h1⟩, h2.imp id fun ⟨h1, _, h2⟩ => ⟨h1, h2⟩⟩

theorem last_alt : g'.Alt g.rules.length ⟨post⟩ := ⟨_, hx.last, by simp⟩

theorem edited_alt : g'.Alt j ⟨pre ++ [.nonTerminal name]⟩ :=
  ⟨_, hx.edited, List.mem_of_getElem? (List.getElem?_set_self (List.getElem?_eq_some_iff.1 hx.alt).1)⟩

theorem expand_alt {i : Nat} {a a' : Sequence} (ha : g.Alt i a)
    (h : a' = a ∨ (i = j ∧ a = ⟨pre ++ post⟩ ∧ a' = ⟨pre ++ [.nonTerminal name]⟩)) :
    expand name post a'.symbols = a.symbols := by
  rcases h with rfl | ⟨_, rfl, rfl⟩
  · exact expand_free (hx.freshUse _ _ ha)
  · rw [expand_append, expand_free hx.pre_free, expand_name]

theorem head_iff {i : Nat} {n : Str} (hn : n ≠ name) : g'.Head i n ↔ g.Head i n := by
  constructor
  · rintro ⟨r', hr, hh⟩
    rcases hx.new_rule hr with ⟨rfl, rfl⟩ | ⟨r0, hr0, h0, _⟩
    · exact (hn hh.symm).elim
    · exact ⟨r0, hr0, by rw [← h0]; exact hh⟩
  · rintro ⟨r0, hr, hh⟩
    obtain ⟨r', hr', h0, _⟩ := hx.old_rule hr
    exact ⟨r', hr', by rw [h0]; exact hh⟩

theorem head_name {i : Nat} : g'.Head i name ↔ i = g.rules.length := by
  constructor
  · rintro ⟨r', hr, hh⟩
    rcases hx.new_rule hr with ⟨rfl, rfl⟩ | ⟨r0, hr0, h0, _⟩
    · rfl
    · exact (hx.freshHead i ⟨r0, hr0, by rw [← h0]; exact hh⟩).elim
  · rintro rfl
    exact ⟨_, hx.last, rfl⟩

theorem refers_iff {i : Nat} {n : Str} (hn : n ≠ name) : g'.Refers n i ↔ g.Refers n i := by
  unfold Grammar.Refers
  simp only [hx.head_iff hn]

theorem refers_name {i : Nat} : g'.Refers name i ↔ i = g.rules.length := by
  unfold Grammar.Refers
  simp only [hx.head_name]
  constructor
  · exact fun h => h.1
  · rintro rfl; exact ⟨rfl, fun _ h => by omega⟩

theorem gen_fold {zs : List Symbol} {w : Str} (h : Gen g' (expand name post zs) w) : Gen g' zs w := by
  induction zs generalizing w with
  | nil => exact h
  | cons z zs ih =>
    by_cases hz : z = .nonTerminal name
    · subst hz
      rw [expand_cons_name] at h
      obtain ⟨u, v, rfl, h1, h2⟩ := h.split
      exact .nonTerminal (hx.refers_name.2 rfl) hx.last_alt h1 (ih h2)
    · rw [expand_cons_ne hz] at h
      have : z :: expand name post zs = [z] ++ expand name post zs := rfl
      rw [this] at h
      obtain ⟨u, v, rfl, h1, h2⟩ := h.split
      exact Gen.append h1 (ih h2)

theorem gen_to {ys : List Symbol} {w : Str} (h : Gen g ys w) :
    Symbol.nonTerminal name ∉ ys → Gen g' ys w := by
  induction h with
  | nil => exact fun _ => .nil
  | terminal _ ih => exact fun hn => .terminal (ih fun h => hn (List.mem_cons_of_mem _ h))
  | nothing _ ih => exact fun hn => .nothing (ih fun h => hn (List.mem_cons_of_mem _ h))
  | @nonTerminal n i alt rest u w hr ha _ _ ih1 ih2 =>
    intro hn
    have hne : n ≠ name := fun h => hn (by rw [h]; exact List.mem_cons_self ..)
    obtain ⟨a', ha', hc⟩ := hx.old_alt ha
    refine .nonTerminal ((hx.refers_iff hne).2 hr) ha' (hx.gen_fold ?_) (ih2 fun h => hn (List.mem_cons_of_mem _ h))
    rw [hx.expand_alt ha hc]
    exact ih1 (hx.freshUse _ _ ha)

theorem gen_from {ys : List Symbol} {w : Str} (h : Gen g' ys w) : Gen g (expand name post ys) w := by
  induction h with
  | nil => exact .nil
  | terminal _ ih => rw [expand_cons_ne (by simp)]; exact .terminal ih
  | nothing _ ih => rw [expand_cons_ne (by simp)]; exact .nothing ih
  | @nonTerminal n i a' rest u w hr ha' _ _ ih1 ih2 =>
    by_cases hn : n = name
    · subst hn
      have hi := hx.refers_name.1 hr
      subst hi
      rw [expand_cons_name]
      refine Gen.append ?_ ih2
      rcases hx.new_alt ha' with ⟨_, rfl⟩ | ⟨a, ha, _⟩
      · rw [expand_free hx.post_free] at ih1; exact ih1
      · exact absurd ha.lt (Nat.lt_irrefl _)
    · rw [expand_cons_ne (by simpa using hn)]
      have hr' := (hx.refers_iff hn).1 hr
      rcases hx.new_alt ha' with ⟨rfl, rfl⟩ | ⟨a, ha, hc⟩
      · obtain ⟨⟨r0, h0, _⟩, _⟩ := hr'
        exact absurd (List.getElem?_eq_some_iff.1 h0).1 (Nat.lt_irrefl _)
      · rw [hx.expand_alt ha hc] at ih1
        exact .nonTerminal hr' ha ih1 ih2

theorem genRule_iff {i : Nat} (hi : i < g.rules.length) {w : Str} : GenRule g' i w ↔ GenRule g i w := by
  constructor
  · rintro ⟨a', ha', h⟩
    rcases hx.new_alt ha' with ⟨rfl, _⟩ | ⟨a, ha, hc⟩
    · exact absurd hi (Nat.lt_irrefl _)
    · exact ⟨a, ha, by rw [← hx.expand_alt ha hc]; exact hx.gen_from h⟩
  · rintro ⟨a, ha, h⟩
    obtain ⟨a', ha', hc⟩ := hx.old_alt ha
    exact ⟨a', ha', hx.gen_fold (by rw [hx.expand_alt ha hc]; exact hx.gen_to h (hx.freshUse _ _ ha))⟩

theorem nullable_to {ys : List Symbol} (h : Nullable g (expand name post ys))
    (hf : Symbol.nonTerminal name ∉ expand name post ys) : Nullable g' ys :=
  nullable_iff_gen.2 (hx.gen_fold (hx.gen_to (nullable_iff_gen.1 h) hf))

theorem nullable_from {ys : List Symbol} (h : Nullable g' ys) : Nullable g (expand name post ys) :=
  nullable_iff_gen.2 (hx.gen_from (nullable_iff_gen.1 h))

theorem first_fold {zs : List Symbol} {b : UInt8} (h : First g' (expand name post zs) b) : First g' zs b := by
  induction zs with
  | nil => exact h
  | cons z zs ih =>
    by_cases hz : z = .nonTerminal name
    · subst hz
      rw [expand_cons_name, first_append] at h
      rcases h with h | ⟨hn, h⟩
      · exact .head (hx.refers_name.2 rfl) hx.last_alt h
      · exact .skip (.nonTerminal (hx.refers_name.2 rfl) hx.last_alt hn .nil) (ih h)
    · rw [expand_cons_ne hz] at h
      have : z :: expand name post zs = [z] ++ expand name post zs := rfl
      rw [this, first_append] at h
      have e : z :: zs = [z] ++ zs := rfl
      rw [e, first_append]
      exact h.imp id fun ⟨hn, h⟩ => ⟨hn, ih h⟩

theorem first_to {ys : List Symbol} {b : UInt8} (h : First g ys b) :
    Symbol.nonTerminal name ∉ ys → First g' ys b := by
  induction h with
  | terminal => exact fun _ => .terminal
  | @head n i alt rest b hr ha _ ih =>
    intro hn
    have hne : n ≠ name := fun h => hn (by rw [h]; exact List.mem_cons_self ..)
    obtain ⟨a', ha', hc⟩ := hx.old_alt ha
    refine .head ((hx.refers_iff hne).2 hr) ha' (hx.first_fold ?_)
    rw [hx.expand_alt ha hc]
    exact ih (hx.freshUse _ _ ha)
  | @skip x rest b hn _ ih =>
    intro hf
    simp only [List.mem_cons, not_or] at hf
    have he : expand name post [x] = [x] := expand_free (by simpa using hf.1)
    refine .skip (hx.nullable_to (by rw [he]; exact hn) (by rw [he]; simpa using hf.1)) (ih hf.2)

theorem first_from {ys : List Symbol} {b : UInt8} (h : First g' ys b) : First g (expand name post ys) b := by
  induction h with
  | terminal => rw [expand_cons_ne (by simp)]; exact .terminal
  | @head n i a' rest b hr ha' _ ih =>
    by_cases hn : n = name
    · subst hn
      have hi := hx.refers_name.1 hr
      subst hi
      rw [expand_cons_name, first_append]
      rcases hx.new_alt ha' with ⟨_, rfl⟩ | ⟨a, ha, _⟩
      · rw [expand_free hx.post_free] at ih; exact .inl ih
      · exact absurd ha.lt (Nat.lt_irrefl _)
    · rw [expand_cons_ne (by simpa using hn)]
      have hr' := (hx.refers_iff hn).1 hr
      rcases hx.new_alt ha' with ⟨rfl, rfl⟩ | ⟨a, ha, hc⟩
      · obtain ⟨⟨r0, h0, _⟩, _⟩ := hr'
        exact absurd (List.getElem?_eq_some_iff.1 h0).1 (Nat.lt_irrefl _)
      · rw [hx.expand_alt ha hc] at ih
        exact .head hr' ha ih
  | @skip x rest b hn _ ih =>
    have : x :: rest = [x] ++ rest := rfl
    rw [this, expand_append, first_append]
    exact .inr ⟨hx.nullable_from hn, ih⟩

theorem follow_from {i : Nat} {b : UInt8} (h : Follow g' i b) :
    (i < g.rules.length → Follow g i b) ∧ (i = g.rules.length → Follow g j b) := by
  induction h with
  | start => exact ⟨fun _ => .start, fun h => by have := hx.lt; omega⟩
  | @first j0 i a' p q n b ha' hs hr hf =>
    rcases hx.new_alt ha' with ⟨rfl, rfl⟩ | ⟨a, ha, rfl | ⟨rfl, rfl, rfl⟩⟩
    · simp only at hs
      have hn : n ≠ name := fun h => hx.post_free (by rw [hs, h]; simp)
      have hq : Symbol.nonTerminal name ∉ q := fun h => hx.post_free (by rw [hs]; simp [h])
      have hr' := (hx.refers_iff hn).1 hr
      have hlt := (List.getElem?_eq_some_iff.1 hr'.1.choose_spec.1).1
      refine ⟨fun _ => ?_, fun h => by omega⟩
      have := hx.first_from hf
      rw [expand_free hq] at this
      exact .first hx.oldAlt (pre := pre ++ p) (by simp [hs]) hr' this
    · have hfree := hx.freshUse _ _ ha
      have hn : n ≠ name := fun h => hfree (by rw [hs, h]; simp)
      have hq : Symbol.nonTerminal name ∉ q := fun h => hfree (by rw [hs]; simp [h])
      have hr' := (hx.refers_iff hn).1 hr
      have hlt := (List.getElem?_eq_some_iff.1 hr'.1.choose_spec.1).1
      refine ⟨fun _ => ?_, fun h => by omega⟩
      have := hx.first_from hf
      rw [expand_free hq] at this
      exact .first ha hs hr' this
    · simp only at hs
      rcases List.append_eq_append_iff.1 hs with ⟨c, hp, hc⟩ | ⟨c, hp, hc⟩
      · cases c with
        | nil =>
          simp only [List.nil_append, List.cons.injEq] at hc
          obtain ⟨_, rfl⟩ := hc
          cases hf
        | cons c cs => simp at hc
      · cases c with
        | nil =>
          simp only [List.nil_append, List.cons.injEq] at hc
          obtain ⟨_, rfl⟩ := hc
          cases hf
        | cons c cs =>
          simp only [List.cons_append, List.cons.injEq] at hc
          obtain ⟨rfl, rfl⟩ := hc
          have hn : n ≠ name := fun h => hx.pre_free (by rw [hp, h]; simp)
          have hq : Symbol.nonTerminal name ∉ cs := fun h => hx.pre_free (by rw [hp]; simp [h])
          have hr' := (hx.refers_iff hn).1 hr
          have hlt := (List.getElem?_eq_some_iff.1 hr'.1.choose_spec.1).1
          refine ⟨fun _ => ?_, fun h => by omega⟩
          have := hx.first_from hf
          rw [expand_append, expand_free hq, expand_name] at this
          exact .first hx.oldAlt (pre := p) (by simp [hp]) hr' this
  | @last j0 i a' p q n b ha' hs hr hnu _ ih =>
    rcases hx.new_alt ha' with ⟨rfl, rfl⟩ | ⟨a, ha, rfl | ⟨rfl, rfl, rfl⟩⟩
    · simp only at hs
      have hn : n ≠ name := fun h => hx.post_free (by rw [hs, h]; simp)
      have hq : Symbol.nonTerminal name ∉ q := fun h => hx.post_free (by rw [hs]; simp [h])
      have hr' := (hx.refers_iff hn).1 hr
      have hlt := (List.getElem?_eq_some_iff.1 hr'.1.choose_spec.1).1
      refine ⟨fun _ => ?_, fun h => by omega⟩
      have := hx.nullable_from hnu
      rw [expand_free hq] at this
      exact .last hx.oldAlt (pre := pre ++ p) (by simp [hs]) hr' this (ih.2 rfl)
    · have hfree := hx.freshUse _ _ ha
      have hn : n ≠ name := fun h => hfree (by rw [hs, h]; simp)
      have hq : Symbol.nonTerminal name ∉ q := fun h => hfree (by rw [hs]; simp [h])
      have hr' := (hx.refers_iff hn).1 hr
      have hlt := (List.getElem?_eq_some_iff.1 hr'.1.choose_spec.1).1
      refine ⟨fun _ => ?_, fun h => by omega⟩
      have := hx.nullable_from hnu
      rw [expand_free hq] at this
      exact .last ha hs hr' this (ih.1 ha.lt)
    · simp only at hs
      have self : ∀ {n q}, [Symbol.nonTerminal name] = .nonTerminal n :: q → n = name ∧ q = [] := by
        intro n q h
        simp only [List.cons.injEq, Symbol.nonTerminal.injEq] at h
        exact ⟨h.1.symm, h.2.symm⟩
      rcases List.append_eq_append_iff.1 hs with ⟨c, hp, hc⟩ | ⟨c, hp, hc⟩
      · cases c with
        | nil =>
          simp only [List.nil_append] at hc
          obtain ⟨rfl, rfl⟩ := self hc
          have hi := hx.refers_name.1 hr
          exact ⟨fun h => by omega, fun _ => ih.1 hx.lt⟩
        | cons c cs => simp at hc
      · cases c with
        | nil =>
          simp only [List.nil_append] at hc
          obtain ⟨rfl, rfl⟩ := self hc.symm
          have hi := hx.refers_name.1 hr
          exact ⟨fun h => by omega, fun _ => ih.1 hx.lt⟩
        | cons c cs =>
          simp only [List.cons_append, List.cons.injEq] at hc
          obtain ⟨rfl, rfl⟩ := hc
          have hn : n ≠ name := fun h => hx.pre_free (by rw [hp, h]; simp)
          have hq : Symbol.nonTerminal name ∉ cs := fun h => hx.pre_free (by rw [hp]; simp [h])
          have hr' := (hx.refers_iff hn).1 hr
          have hlt := (List.getElem?_eq_some_iff.1 hr'.1.choose_spec.1).1
          refine ⟨fun _ => ?_, fun h => by omega⟩
          have := hx.nullable_from hnu
          rw [expand_append, expand_free hq, expand_name] at this
          exact .last hx.oldAlt (pre := p) (by simp [hp]) hr' this (ih.1 hx.lt)

end Extract

/-- In an LL(1) grammar no end of an alternative that is nullable can begin with a byte that follows the rule. -/
theorem tail_disjoint (hll : IsLL1 g) {j : Nat} {alt : Sequence} (ha : g.Alt j alt) {b : UInt8} (hf : Follow g j b) :
    ∀ (post pre : List Symbol), alt.symbols = pre ++ post → Nullable g post → ¬ First g post b := by
  intro post
  induction post with
  | nil => intro pre _ _ h; cases h
  | cons x post ih =>
    intro pre hs hn h
    have hsplit : Nullable g [x] ∧ Nullable g post := Nullable.append_inv (xs := [x]) hn
    cases h with
    | terminal => cases hsplit.1
    | @head n i alt' _ _ hr ha' hfst =>
      have hfol : Follow g i b := .last ha hs hr hsplit.2 hf
      have : RuleNullable g i := by
        have h1 := hsplit.1
        cases h1 with
        | nonTerminal hr' ha'' hn'' _ =>
          cases hr.det hr'
          exact ⟨_, ha'', hn''⟩
      exact hll.2.2 _ b this ⟨_, ha', hfst⟩ hfol
    | skip _ h => exact ih (pre ++ [x]) (by rw [hs]; simp) hsplit.2 h

namespace Extract

variable (hx : Extract g g' name j k r pre post)
include hx

theorem isLL1 (hll : IsLL1 g) : IsLL1 g' := by
  refine ⟨?_, ?_, ?_⟩
  · intro i r' l m a c b hr hl hm h1 h2
    rcases hx.new_rule hr with ⟨rfl, rfl⟩ | ⟨r0, hr0, _, hall⟩
    · have e : ∀ {l : Nat} {a : Sequence}, ([⟨post⟩] : List Sequence)[l]? = some a → l = 0 := by
        intro l a h
        have := (List.getElem?_eq_some_iff.1 h).1
        simp at this
        exact this
      rw [e hl, e hm]
    · obtain ⟨a0, ha0, hca⟩ := hall l a hl
      obtain ⟨c0, hc0, hcc⟩ := hall m c hm
      have haa : g.Alt i a0 := ⟨r0, hr0, List.mem_of_getElem? ha0⟩
      have hcc' : g.Alt i c0 := ⟨r0, hr0, List.mem_of_getElem? hc0⟩
      refine hll.1 i r0 l m a0 c0 b hr0 ha0 hc0 ?_ ?_
      · rw [← hx.expand_alt haa (hca.imp id fun ⟨h1, _, h2⟩ => ⟨h1, h2⟩)]; exact hx.first_from h1
      · rw [← hx.expand_alt hcc' (hcc.imp id fun ⟨h1, _, h2⟩ => ⟨h1, h2⟩)]; exact hx.first_from h2
  · intro i r' l m a c hr hl hm h1 h2
    rcases hx.new_rule hr with ⟨rfl, rfl⟩ | ⟨r0, hr0, _, hall⟩
    · have e : ∀ {l : Nat} {a : Sequence}, ([⟨post⟩] : List Sequence)[l]? = some a → l = 0 := by
        intro l a h
        have := (List.getElem?_eq_some_iff.1 h).1
        simp at this
        exact this
      rw [e hl, e hm]
    · obtain ⟨a0, ha0, hca⟩ := hall l a hl
      obtain ⟨c0, hc0, hcc⟩ := hall m c hm
      have haa : g.Alt i a0 := ⟨r0, hr0, List.mem_of_getElem? ha0⟩
      have hcc' : g.Alt i c0 := ⟨r0, hr0, List.mem_of_getElem? hc0⟩
      refine hll.2.1 i r0 l m a0 c0 hr0 ha0 hc0 ?_ ?_
      · rw [← hx.expand_alt haa (hca.imp id fun ⟨h1, _, h2⟩ => ⟨h1, h2⟩)]; exact hx.nullable_from h1
      · rw [← hx.expand_alt hcc' (hcc.imp id fun ⟨h1, _, h2⟩ => ⟨h1, h2⟩)]; exact hx.nullable_from h2
  · rintro i b ⟨a, ha, hn⟩ ⟨c, hc, hf⟩ hfol
    have hfol' := hx.follow_from hfol
    rcases hx.new_alt ha with ⟨rfl, rfl⟩ | ⟨a0, ha0, hca⟩
    · rcases hx.new_alt hc with ⟨_, rfl⟩ | ⟨c0, hc0, hcc⟩
      · have h1 := hx.nullable_from hn
        have h2 := hx.first_from hf
        rw [expand_free hx.post_free] at h1 h2
        exact tail_disjoint hll hx.oldAlt (hfol'.2 rfl) post pre rfl h1 h2
      · exact absurd hc0.lt (Nat.lt_irrefl _)
    · rcases hx.new_alt hc with ⟨rfl, _⟩ | ⟨c0, hc0, hcc⟩
      · exact absurd ha0.lt (Nat.lt_irrefl _)
      · refine hll.2.2 i b ⟨a0, ha0, ?_⟩ ⟨c0, hc0, ?_⟩ (hfol'.1 ha0.lt)
        · rw [← hx.expand_alt ha0 hca]; exact hx.nullable_from hn
        · rw [← hx.expand_alt hc0 hcc]; exact hx.first_from hf

end Extract

end LL1
