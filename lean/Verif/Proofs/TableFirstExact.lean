import Verif.Proofs.TableLoop

/-! # `findFirsts` computes textbook FIRST and nullability -/

namespace LL1
namespace TG

theorem sequenceFirsts_ne_diverge (tg : Gen) (firsts : List ByteSet) (s : Sequence) :
    sequenceFirsts tg firsts s ≠ .diverge := seqLoop_ne_diverge _ _ _

theorem substLoop_ne_diverge (tg : Gen) (firsts : List ByteSet) :
    ∀ (ss : List Sequence) (res : ByteSet), substitutionFirstsLoop tg firsts ss res ≠ .diverge := by
  intro ss
  induction ss with
  | nil => intro res; simp [substitutionFirstsLoop]
  | cons s ss ih =>
    intro res
    simp only [substitutionFirstsLoop]
    rw [ne_eq, Res.bind_eq_diverge]
    rintro (h | ⟨m, _, h⟩)
    · exact sequenceFirsts_ne_diverge _ _ _ h
    · exact ih _ h

theorem ruleFirsts_ne_diverge (tg : Gen) (i : Nat) (st : List ByteSet × Bool) :
    ruleFirsts tg i st ≠ .diverge := by
  unfold ruleFirsts
  split
  · simp
  · intro h
    rw [Res.bind_eq_diverge] at h
    rcases h with h | ⟨r, _, h⟩
    · exact idx_ne_diverge _ _ h
    rw [Res.bind_eq_diverge] at h
    rcases h with h | ⟨t, _, h⟩
    · exact substLoop_ne_diverge _ _ _ _ h
    rw [Res.bind_eq_diverge] at h
    rcases h with h | ⟨c, _, h⟩
    · exact idx_ne_diverge _ _ h
    split at h
    · simp at h
    · rw [Res.bind_eq_diverge] at h
      rcases h with h | ⟨_, _, h⟩
      · exact setIdx_ne_diverge _ _ _ h
      · simp at h

/-- A successful `substitutuionFirsts`. -/
theorem substLoop_ok {tg : Gen} {firsts : List ByteSet} : ∀ (ss : List Sequence) (res S : ByteSet),
    substitutionFirstsLoop tg firsts ss res = .ok S →
    (∀ b, S.contains b = true ↔ res.contains b = true ∨
      ∃ alt ∈ ss, ∃ A, sequenceFirsts tg firsts alt = .ok A ∧ A.contains b = true) ∧
    (∀ alt ∈ ss, ∃ A, sequenceFirsts tg firsts alt = .ok A) := by
  intro ss
  induction ss with
  | nil =>
    intro res S h
    simp only [substitutionFirstsLoop, Res.ok.injEq] at h
    subst h; simp
  | cons s ss ih =>
    intro res S h
    simp only [substitutionFirstsLoop] at h
    rw [Res.bind_eq_ok] at h
    obtain ⟨A, hA, h⟩ := h
    obtain ⟨h1, h2⟩ := ih _ _ h
    refine ⟨?_, ?_⟩
    · intro b
      rw [h1]
      simp only [ByteSet.contains_union, Bool.or_eq_true, List.mem_cons, exists_eq_or_imp]
      constructor
      · rintro ((h3 | h3) | h3)
        · exact .inl h3
        · exact .inr (.inl ⟨A, hA, h3⟩)
        · exact .inr (.inr h3)
      · rintro (h3 | ⟨A', hA', h3⟩ | h3)
        · exact .inl (.inl h3)
        · rw [hA] at hA'; cases hA'; exact .inl (.inr h3)
        · exact .inr h3
    · intro alt halt
      rcases List.mem_cons.1 halt with rfl | halt
      · exact ⟨A, hA⟩
      · exact h2 alt halt

/-- The outcome of a successful `ruleFirsts`. -/
theorem ruleFirsts_ok {tg : Gen} {i : Nat} {st st' : List ByteSet × Bool}
    (h : ruleFirsts tg i st = .ok st') :
    ∃ r T cur, tg.g.rules[i]? = some r ∧ substitutionFirsts tg st.1 r.tail = .ok T ∧
      st.1[i]? = some cur ∧
      ((cur.isSuperSet T = true ∧ st' = st) ∨
        (¬ cur.isSuperSet T = true ∧ st' = (st.1.set i (cur.union T), true))) := by
  unfold ruleFirsts at h
  split at h
  · simp at h
  · rw [Res.bind_eq_ok] at h
    obtain ⟨r, hr, h⟩ := h
    rw [Res.bind_eq_ok] at h
    obtain ⟨T, hT, h⟩ := h
    rw [Res.bind_eq_ok] at h
    obtain ⟨cur, hc, h⟩ := h
    refine ⟨r, T, cur, idx_ok.1 hr, hT, idx_ok.1 hc, ?_⟩
    split at h
    · rename_i hs
      simp only [Res.pure_eq, Res.ok.injEq] at h
      exact .inl ⟨hs, h.symm⟩
    · rename_i hs
      rw [Res.bind_eq_ok] at h
      obtain ⟨f, hf, h⟩ := h
      rw [setIdx_ok] at hf
      simp only [Res.pure_eq, Res.ok.injEq] at h
      exact .inr ⟨hs, by rw [← h, hf.2]⟩

theorem ruleFirsts_grow {tg : Gen} {i : Nat} {st st' : List ByteSet × Bool}
    (h : ruleFirsts tg i st = .ok st') : Grow st st' := by
  obtain ⟨r, T, cur, hr, hT, hc, h1 | h1⟩ := ruleFirsts_ok h
  · rw [h1.2]; exact Grow.refl _
  · rw [h1.2]; exact grow_set hc h1.1

theorem firstsPass_grow {tg : Gen} {s : List ByteSet} {s' : List ByteSet × Bool}
    (h : firstsPass tg s = .ok s') : Grow (s, false) s' :=
  forEach_grow (fun _ _ _ _ => ruleFirsts_grow) _ _ h

theorem findFirsts_ne_diverge (g : Grammar) :
    findFirsts (newGen g) (newSets (newGen g).ruleCount) ≠ .diverge := by
  unfold findFirsts
  rw [findFirstsLoop_eq]
  refine fixLoop_ne_diverge ?_ (fun _ _ h => firstsPass_grow h) _ _ (by simp [newSets]; omega)
  intro s
  exact forEach_ne_diverge (fun _ _ _ => ruleFirsts_ne_diverge _ _ _) _

/-! ## Soundness -/

/-- Everything in the sets is right. -/
structure FSound (g : Grammar) (firsts : List ByteSet) : Prop where
  len : firsts.length = g.rules.length
  first : ∀ i b, b ≠ 0 → Has firsts i b → RRuleFirst g i b
  null : ∀ i, Has firsts i 0 → RRuleNullable g i

theorem nullable_nt {g : Grammar} {name : Str} {i : Nat} {rest : List Symbol} (hr : g.Refers name i)
    (h : RRuleNullable g i) (h' : RNullable g rest) : RNullable g (.nonTerminal name :: rest) := by
  obtain ⟨alt, ha, hn⟩ := h
  exact .nonTerminal hr ha hn h'

theorem FSound.firstC {g : Grammar} {firsts : List ByteSet} (hs : FSound g firsts) {b : UInt8}
    (hb : b ≠ 0) : ∀ syms, FirstC g firsts syms b → RFirst g syms b := by
  intro syms
  induction syms with
  | nil => intro h; exact absurd h (by simp [FirstC])
  | cons x rest ih =>
    intro h
    cases x with
    | terminal t =>
      cases t with
      | nil => simp [FirstC] at h
      | cons c t =>
        simp only [FirstC, List.head?_cons, Option.some.injEq] at h
        subst h; exact .terminal hb
    | nothing => simp [FirstC] at h
    | nonTerminal name =>
      obtain ⟨i, hr, h | ⟨h0, h⟩⟩ := h
      · obtain ⟨alt, ha, hf⟩ := hs.first i b hb h
        exact .head hr ha hf
      · exact .skip (by simp) (nullable_nt hr (hs.null i h0) .nil) (ih h)

theorem FSound.nullC {g : Grammar} {firsts : List ByteSet} (hs : FSound g firsts) :
    ∀ syms, ReadOk g firsts syms → NullC g firsts syms → RNullable g syms := by
  intro syms
  induction syms with
  | nil => intro _ _; exact .nil
  | cons x rest ih =>
    intro hr h
    cases x with
    | terminal t =>
      cases t with
      | nil => simp [NullC] at h
      | cons c t =>
        simp only [NullC, List.head?_cons, Option.some.injEq] at h
        subst h; exact .nul
    | nothing =>
      simp only [ReadOk] at hr
      subst hr; exact .nothing .nil
    | nonTerminal name =>
      obtain ⟨i, href, h0, h⟩ := h
      obtain ⟨i', href', hr⟩ := hr
      have := href.det href'; subst this
      exact nullable_nt href (hs.null i h0) (ih (hr h0) h)

theorem has_set {sets : List ByteSet} {i j : Nat} {s : ByteSet} {b : UInt8}
    (h : Has (sets.set i s) j b) : (i = j ∧ s.contains b = true) ∨ Has sets j b := by
  obtain ⟨u, hu, hb⟩ := h
  rw [List.getElem?_set] at hu
  split at hu
  · rename_i hij
    split at hu
    · cases hu; exact .inl ⟨hij, hb⟩
    · simp at hu
  · exact .inr ⟨u, hu, hb⟩

/-- What `substitutuionFirsts` of rule `i` collects. -/
theorem subst_sound {g : Grammar} {firsts : List ByteSet}
    {i : Nat} {r : Rule} {T : ByteSet} (hr : g.rules[i]? = some r)
    (h : substitutionFirsts (newGen g) firsts r.tail = .ok T) :
    (∀ b, b ≠ 0 → (T.contains b = true ↔ ∃ alt, g.Alt i alt ∧ FirstC g firsts alt.symbols b)) ∧
    (T.contains 0 = true ↔ ∃ alt, g.Alt i alt ∧ NullC g firsts alt.symbols) ∧
    (∀ alt, g.Alt i alt → ReadOk g firsts alt.symbols) := by
  obtain ⟨h1, h2⟩ := substLoop_ok _ _ _ h
  have hA : ∀ alt, g.Alt i alt ↔ alt ∈ r.tail.sequences := by
    intro alt; simp [Grammar.Alt, hr]
  have key : ∀ alt A, g.Alt i alt → sequenceFirsts (newGen g) firsts alt = .ok A → _ :=
    fun alt A _ hA => sequenceFirsts_ok hA
  refine ⟨?_, ?_, ?_⟩
  · intro b hb
    rw [h1]
    simp only [ByteSet.contains_new, List.contains_nil, Bool.false_eq_true, false_or]
    constructor
    · rintro ⟨alt, hm, A, hA', hb'⟩
      exact ⟨alt, (hA alt).2 hm, ((key alt A ((hA alt).2 hm) hA').1 b hb).1 hb'⟩
    · rintro ⟨alt, ha, hf⟩
      obtain ⟨A, hA'⟩ := h2 alt ((hA alt).1 ha)
      exact ⟨alt, (hA alt).1 ha, A, hA', ((key alt A ha hA').1 b hb).2 hf⟩
  · rw [h1]
    simp only [ByteSet.contains_new, List.contains_nil, Bool.false_eq_true, false_or]
    constructor
    · rintro ⟨alt, hm, A, hA', hb'⟩
      exact ⟨alt, (hA alt).2 hm, (key alt A ((hA alt).2 hm) hA').2.1.1 hb'⟩
    · rintro ⟨alt, ha, hf⟩
      obtain ⟨A, hA'⟩ := h2 alt ((hA alt).1 ha)
      exact ⟨alt, (hA alt).1 ha, A, hA', (key alt A ha hA').2.1.2 hf⟩
  · intro alt ha
    obtain ⟨A, hA'⟩ := h2 alt ((hA alt).1 ha)
    exact (key alt A ha hA').2.2

theorem ruleFirsts_sound {g : Grammar} {i : Nat}
    {st st' : List ByteSet × Bool} (hs : FSound g st.1)
    (h : ruleFirsts (newGen g) i st = .ok st') : FSound g st'.1 := by
  obtain ⟨r, T, cur, hr, hT, hc, h1 | h1⟩ := ruleFirsts_ok h
  · rw [h1.2]; exact hs
  · obtain ⟨a, b, c⟩ := subst_sound hr hT
    rw [h1.2]
    refine ⟨by simp [hs.len], ?_, ?_⟩
    · intro j x hx hh
      rcases has_set hh with ⟨rfl, h2⟩ | h2
      · rw [ByteSet.contains_union, Bool.or_eq_true] at h2
        rcases h2 with h2 | h2
        · exact hs.first i x hx ⟨cur, hc, h2⟩
        · obtain ⟨alt, ha, hf⟩ := (a x hx).1 h2
          exact ⟨alt, ha, hs.firstC hx _ hf⟩
      · exact hs.first j x hx h2
    · intro j hh
      rcases has_set hh with ⟨rfl, h2⟩ | h2
      · rw [ByteSet.contains_union, Bool.or_eq_true] at h2
        rcases h2 with h2 | h2
        · exact hs.null i ⟨cur, hc, h2⟩
        · obtain ⟨alt, ha, hf⟩ := b.1 h2
          exact ⟨alt, ha, hs.nullC _ (c alt ha) hf⟩
      · exact hs.null j h2

theorem not_has_newSets {n i : Nat} {b : UInt8} : ¬ Has (newSets n) i b := by
  rintro ⟨s, hs, hb⟩
  have : s = ByteSet.new [] := by
    have := List.mem_of_getElem? hs
    exact List.eq_of_mem_replicate this
  subst this
  simp [ByteSet.contains_new] at hb

/-! ## Exactness -/

/-- The computed sets are textbook FIRST, and every alternative could be read. -/
structure FExact (g : Grammar) (firsts : List ByteSet) : Prop where
  len : firsts.length = g.rules.length
  first : ∀ i b, b ≠ 0 → (Has firsts i b ↔ RRuleFirst g i b)
  null : ∀ i, Has firsts i 0 ↔ RRuleNullable g i
  read : ∀ i alt, g.Alt i alt → ReadOk g firsts alt.symbols
  fine : ∀ i alt, g.Alt i alt → ReadFine g firsts alt.symbols.length alt.symbols

theorem FExact.sound {g : Grammar} {firsts : List ByteSet} (h : FExact g firsts) : FSound g firsts :=
  ⟨h.len, fun i b hb => (h.first i b hb).1, fun i => (h.null i).1⟩

/-- Closedness of the sets under the FIRST rules. -/
structure FClosed (g : Grammar) (firsts : List ByteSet) : Prop where
  first : ∀ i alt b, b ≠ 0 → g.Alt i alt → FirstC g firsts alt.symbols b → Has firsts i b
  null : ∀ i alt, g.Alt i alt → NullC g firsts alt.symbols → Has firsts i 0
  read : ∀ i alt, g.Alt i alt → ReadOk g firsts alt.symbols

theorem FClosed.nullable {g : Grammar} {firsts : List ByteSet} (hc : FClosed g firsts)
    {syms : List Symbol} (h : RNullable g syms) : ReadOk g firsts syms → NullC g firsts syms := by
  induction h with
  | nil => intro _; trivial
  | nothing _ _ => intro _; trivial
  | emptyTerminal _ _ => intro hr; simp [ReadOk] at hr
  | nul => intro _; rfl
  | @nonTerminal name i alt rest hr ha hn h' ih1 ih2 =>
    rintro ⟨i', hr', hrest⟩
    have := hr.det hr'; subst this
    have h0 := hc.null i alt ha (ih1 (hc.read i alt ha))
    exact ⟨i, hr, h0, ih2 (hrest h0)⟩

theorem FClosed.firsts {g : Grammar} {firsts : List ByteSet} (hc : FClosed g firsts)
    {syms : List Symbol} {b : UInt8} (h : RFirst g syms b) (hb : b ≠ 0) :
    ReadOk g firsts syms → FirstC g firsts syms b := by
  induction h with
  | terminal _ => intro _; rfl
  | @head name i alt rest b hr ha hf ih =>
    intro _
    exact ⟨i, hr, .inl (hc.first i alt b hb ha (ih hb (hc.read i alt ha)))⟩
  | @skip x rest b hz hn hf ih =>
    intro hr
    cases x with
    | terminal t =>
      cases t with
      | nil => simp [ReadOk] at hr
      | cons c t => cases hn; exact absurd rfl (hz t)
    | nothing =>
      simp only [ReadOk] at hr; subst hr; cases hf
    | nonTerminal name =>
      obtain ⟨i, href, hrest⟩ := hr
      obtain ⟨i', href', h0, _⟩ := hc.nullable hn ⟨i, href, fun _ => trivial⟩
      have := href.det href'; subst this
      exact ⟨i, href, .inr ⟨h0, ih hb (hrest h0)⟩⟩

theorem FExact.closed {g : Grammar} {firsts : List ByteSet} (h : FExact g firsts) : FClosed g firsts :=
  ⟨fun i alt b hb ha hf => (h.first i b hb).2 ⟨alt, ha, h.sound.firstC hb _ hf⟩,
   fun i alt ha hn => (h.null i).2 ⟨alt, ha, h.sound.nullC _ (h.read i alt ha) hn⟩, h.read⟩

theorem FExact.firstC_iff {g : Grammar} {firsts : List ByteSet} (h : FExact g firsts)
    {syms : List Symbol} {b : UInt8} (hb : b ≠ 0) (hr : ReadOk g firsts syms) :
    FirstC g firsts syms b ↔ RFirst g syms b :=
  ⟨h.sound.firstC hb _, fun hf => h.closed.firsts hf hb hr⟩

theorem FExact.nullC_iff {g : Grammar} {firsts : List ByteSet} (h : FExact g firsts)
    {syms : List Symbol} (hr : ReadOk g firsts syms) : NullC g firsts syms ↔ RNullable g syms :=
  ⟨h.sound.nullC _ hr, fun hf => h.closed.nullable hf hr⟩

theorem first_ne_zero {g : Grammar} {syms : List Symbol} {b : UInt8} (h : RFirst g syms b) : b ≠ 0 := by
  induction h with
  | terminal h => exact h
  | head _ _ _ ih => exact ih
  | skip _ _ _ ih => exact ih

/-- `findFirsts` computes exactly FIRST and nullability. -/
theorem findFirsts_ok {g : Grammar} {firsts : List ByteSet}
    (h : findFirsts (newGen g) (newSets (newGen g).ruleCount) = .ok firsts) : FExact g firsts := by
  unfold findFirsts at h
  rw [findFirstsLoop_eq] at h
  obtain ⟨hs, hp, _, _⟩ := fixLoop_ok (P := FSound g) (fun _ _ h => firstsPass_grow h)
    (fun s s' hs h => forEach_inv (P := fun st => FSound g st.1)
      (fun i _ st st' h1 h2 => ruleFirsts_sound h1 h2) _ _ hs h) _ _ _
    ⟨by simp [newSets], fun i b _ h => absurd h not_has_newSets, fun i h => absurd h not_has_newSets⟩ h
  have hun := forEach_unchanged (fun _ _ _ _ => ruleFirsts_grow) _ _ hp rfl
  have hcl : FClosed g firsts := by
    have key : ∀ i alt, g.Alt i alt → ∃ r T cur, g.rules[i]? = some r ∧
        substitutionFirsts (newGen g) firsts r.tail = .ok T ∧ firsts[i]? = some cur ∧
        cur.isSuperSet T = true := by
      intro i alt ha
      have := hun i (by simpa using ha.lt)
      obtain ⟨r, T, cur, hr, hT, hc, h1 | h1⟩ := ruleFirsts_ok this
      · exact ⟨r, T, cur, hr, hT, hc, h1.1⟩
      · simp at h1
    refine ⟨?_, ?_, ?_⟩
    · intro i alt b hb ha hf
      obtain ⟨r, T, cur, hr, hT, hc, hsup⟩ := key i alt ha
      obtain ⟨a, _, _⟩ := subst_sound hr hT
      exact ⟨cur, hc, (ByteSet.isSuperSet_iff _ _).1 hsup b ((a b hb).2 ⟨alt, ha, hf⟩)⟩
    · intro i alt ha hf
      obtain ⟨r, T, cur, hr, hT, hc, hsup⟩ := key i alt ha
      obtain ⟨_, a, _⟩ := subst_sound hr hT
      exact ⟨cur, hc, (ByteSet.isSuperSet_iff _ _).1 hsup 0 (a.2 ⟨alt, ha, hf⟩)⟩
    · intro i alt ha
      obtain ⟨r, T, cur, hr, hT, hc, hsup⟩ := key i alt ha
      exact (subst_sound hr hT).2.2 alt ha
  have hfine : ∀ i alt, g.Alt i alt → ReadFine g firsts alt.symbols.length alt.symbols := by
    intro i alt ha
    obtain ⟨r, T, cur, hr, hT, _, h1 | h1⟩ := ruleFirsts_ok (hun i (by simpa using ha.lt))
    · obtain ⟨r', hr', hm⟩ := ha
      simp only [newGen_g] at hr
      rw [hr] at hr'; cases hr'
      obtain ⟨A, hA⟩ := (substLoop_ok _ _ _ hT).2 alt hm
      exact seqLoop_fine _ _ _ _ hA
    · simp at h1
  refine ⟨hs.len, ?_, ?_, hcl.read, hfine⟩
  · intro i b hb
    refine ⟨hs.first i b hb, ?_⟩
    rintro ⟨alt, ha, hf⟩
    exact hcl.first i alt b hb ha (hcl.firsts hf hb (hcl.read i alt ha))
  · intro i
    refine ⟨hs.null i, ?_⟩
    rintro ⟨alt, ha, hf⟩
    exact hcl.null i alt ha (hcl.nullable hf (hcl.read i alt ha))

end TG
end LL1
