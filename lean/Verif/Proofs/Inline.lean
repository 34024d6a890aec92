import Verif.Spec.Inline
import Verif.Proofs.Reshape

/-!
# Writing out a rule that has only one alternative: language, FIRST, FOLLOW, LL(1), trees
-/

namespace LL1

/-- `h` has one rule with head `name`: number `q`, with the only alternative `body`. -/
structure OneAlt (h : Grammar) (name : Str) (q : Nat) (body : List Symbol) : Prop where
  refers : ∀ {i}, h.Refers name i ↔ i = q
  alt : ∀ {a}, h.Alt q a ↔ a = ⟨body⟩

namespace OneAlt

variable {h : Grammar} {name : Str} {q : Nat} {body : List Symbol} (ho : OneAlt h name q body)
include ho

theorem gen_expand {ys : List Symbol} {w : Str} : Gen h (expand name body ys) w ↔ Gen h ys w := by
  induction ys generalizing w with
  | nil => exact Iff.rfl
  | cons z zs ih =>
    have e2 : ∀ zs' : List Symbol, z :: zs' = [z] ++ zs' := fun _ => rfl
    by_cases hz : z = .nonTerminal name
    · subst hz
      rw [expand_cons_name]
      constructor
      · intro h
        obtain ⟨u, v, rfl, h1, h2⟩ := h.split
        exact .nonTerminal (ho.refers.2 rfl) (ho.alt.2 rfl) h1 (ih.1 h2)
      · intro h
        cases h with
        | nonTerminal hr ha h1 h2 =>
          have := ho.refers.1 hr
          subst this
          have := ho.alt.1 ha
          subst this
          exact Gen.append h1 (ih.2 h2)
    · rw [expand_cons_ne hz]
      constructor
      · intro h
        rw [e2] at h
        obtain ⟨u, v, rfl, h1, h2⟩ := h.split
        exact Gen.append h1 (ih.1 h2)
      · intro h
        rw [e2] at h
        obtain ⟨u, v, rfl, h1, h2⟩ := h.split
        exact Gen.append h1 (ih.2 h2)

theorem nullable_expand {ys : List Symbol} : Nullable h (expand name body ys) ↔ Nullable h ys := by
  rw [nullable_iff_gen, nullable_iff_gen, ho.gen_expand]

theorem first_name {b : UInt8} : First h [.nonTerminal name] b ↔ First h body b := by
  constructor
  · intro hf
    cases hf with
    | head hr ha hf =>
      have := ho.refers.1 hr
      subst this
      have := ho.alt.1 ha
      subst this
      exact hf
    | skip _ hf => cases hf
  · intro hf
    exact .head (ho.refers.2 rfl) (ho.alt.2 rfl) hf

theorem first_expand {ys : List Symbol} {b : UInt8} : First h (expand name body ys) b ↔ First h ys b := by
  induction ys with
  | nil => exact Iff.rfl
  | cons z zs ih =>
    have e2 : z :: zs = [z] ++ zs := rfl
    rw [e2, expand_append, first_append, first_append, ih]
    by_cases hz : z = .nonTerminal name
    · subst hz
      rw [ho.first_name, ← ho.nullable_expand (ys := [.nonTerminal name]), expand_name]
    · rw [expand_free (by simpa using Ne.symm hz)]

end OneAlt

theorem expand_split {name n : Str} {body p z : List Symbol} : ∀ {ys : List Symbol},
    expand name body ys = p ++ .nonTerminal n :: z → Symbol.nonTerminal name ∉ body →
    (∃ p0 z0, ys = p0 ++ .nonTerminal n :: z0 ∧ z = expand name body z0 ∧ n ≠ name) ∨
    (∃ p0 z0 p1 z1, ys = p0 ++ .nonTerminal name :: z0 ∧ body = p1 ++ .nonTerminal n :: z1 ∧ z = z1 ++ expand name body z0) := by
  intro ys
  induction ys generalizing p with
  | nil => intro h _; simp [expand] at h
  | cons y ys ih =>
    intro h hb
    by_cases hy : y = .nonTerminal name
    · subst hy
      rw [expand_cons_name] at h
      rcases List.append_eq_append_iff.1 h with ⟨c, hp, hc⟩ | ⟨c, hp, hc⟩
      · rcases ih hc hb with ⟨p0, z0, rfl, h2, h3⟩ | ⟨p0, z0, p1, z1, rfl, h2, h3⟩
        · exact .inl ⟨.nonTerminal name :: p0, z0, rfl, h2, h3⟩
        · exact .inr ⟨.nonTerminal name :: p0, z0, p1, z1, rfl, h2, h3⟩
      · cases c with
        | nil =>
          simp only [List.nil_append] at hc
          rcases ih (p := []) (by simpa using hc.symm) hb with ⟨p0, z0, rfl, h2, h3⟩ | ⟨p0, z0, p1, z1, rfl, h2, h3⟩
          · exact .inl ⟨.nonTerminal name :: p0, z0, rfl, h2, h3⟩
          · exact .inr ⟨.nonTerminal name :: p0, z0, p1, z1, rfl, h2, h3⟩
        | cons c cs =>
          simp only [List.cons_append, List.cons.injEq] at hc
          obtain ⟨rfl, rfl⟩ := hc
          exact .inr ⟨[], ys, p, cs, rfl, hp, rfl⟩
    · rw [expand_cons_ne hy] at h
      cases p with
      | nil =>
        simp only [List.nil_append, List.cons.injEq] at h
        obtain ⟨rfl, rfl⟩ := h
        exact .inl ⟨[], ys, rfl, rfl, by simpa using hy⟩
      | cons c p =>
        simp only [List.cons_append, List.cons.injEq] at h
        obtain ⟨rfl, h⟩ := h
        rcases ih h hb with ⟨p0, z0, rfl, h2, h3⟩ | ⟨p0, z0, p1, z1, rfl, h2, h3⟩
        · exact .inl ⟨y :: p0, z0, rfl, h2, h3⟩
        · exact .inr ⟨y :: p0, z0, p1, z1, rfl, h2, h3⟩

/-- In an LL(1) grammar a nullable piece of an alternative cannot begin with a byte that can come behind it. -/
theorem middle_disjoint {g : Grammar} (hll : IsLL1 g) {j : Nat} {alt : Sequence} (ha : g.Alt j alt) {b : UInt8} {z : List Symbol}
    (hz : First g z b ∨ (Nullable g z ∧ Follow g j b)) :
    ∀ (mid pre : List Symbol), alt.symbols = pre ++ (mid ++ z) → Nullable g mid → ¬ First g mid b := by
  intro mid
  induction mid with
  | nil => intro pre _ _ h; cases h
  | cons x mid ih =>
    intro pre hs hn h
    have hsplit : Nullable g [x] ∧ Nullable g mid := Nullable.append_inv (xs := [x]) hn
    cases h with
    | terminal => cases hsplit.1
    | @head n i alt' _ _ hr ha' hfst =>
      have hfol : Follow g i b := by
        rcases hz with hz | ⟨hz, hf⟩
        · exact .first ha hs hr (first_append.2 (.inr ⟨hsplit.2, hz⟩))
        · exact .last ha hs hr (Nullable.append hsplit.2 hz) hf
      have : RuleNullable g i := by
        have h1 := hsplit.1
        cases h1 with
        | nonTerminal hr' ha'' hn'' _ =>
          cases hr.det hr'
          exact ⟨_, ha'', hn''⟩
      exact hll.2.2 _ b this ⟨_, ha', hfst⟩ hfol
    | skip _ h => exact ih (pre ++ [x]) (by rw [hs]; simp) hsplit.2 h

namespace WrittenOut

variable {g g' : Grammar} {name : Str} {q : Nat} {body : List Symbol} (hx : WrittenOut g g' name q body)
include hx

theorem row (i : Nat) : g'.rules[i]? = g.rules[i]?.map fun r =>
    ⟨r.head, ⟨r.tail.sequences.map fun s => ⟨expand name body s.symbols⟩⟩⟩ := by
  rw [hx.result, List.getElem?_map]; rfl

theorem alt_to {i : Nat} {a : Sequence} (h : g.Alt i a) : g'.Alt i ⟨expand name body a.symbols⟩ := by
  obtain ⟨r, hr, ha⟩ := h
  exact ⟨_, by rw [hx.row, hr]; rfl, List.mem_map.2 ⟨a, ha, rfl⟩⟩

theorem alt_from {i : Nat} {a' : Sequence} (h : g'.Alt i a') : ∃ a, g.Alt i a ∧ a' = ⟨expand name body a.symbols⟩ := by
  obtain ⟨r', hr, ha⟩ := h
  rw [hx.row, Option.map_eq_some_iff] at hr
  obtain ⟨r, hr, rfl⟩ := hr
  obtain ⟨a, h1, rfl⟩ := List.mem_map.1 ha
  exact ⟨a, ⟨r, hr, h1⟩, rfl⟩

theorem head_iff {i : Nat} {n : Str} : g'.Head i n ↔ g.Head i n := by
  unfold Grammar.Head
  simp only [hx.row, Option.map_eq_some_iff]
  constructor
  · rintro ⟨_, ⟨r, hr, rfl⟩, h⟩; exact ⟨r, hr, h⟩
  · rintro ⟨r, hr, h⟩; exact ⟨_, ⟨r, hr, rfl⟩, h⟩

theorem refers_iff {i : Nat} {n : Str} : g'.Refers n i ↔ g.Refers n i := by
  unfold Grammar.Refers
  simp only [hx.head_iff]

theorem one : OneAlt g name q body where
  refers := by
    intro i
    constructor
    · exact fun h => hx.only _ h.1
    · rintro rfl
      exact ⟨⟨_, hx.rule, rfl⟩, fun k hk => by rw [hx.only k hk]⟩
  alt := by
    intro a
    constructor
    · rintro ⟨r, hr, ha⟩
      rw [hx.rule] at hr
      cases hr
      simpa using ha
    · rintro rfl
      exact ⟨_, hx.rule, by simp⟩

theorem one' : OneAlt g' name q body where
  refers := by intro i; rw [hx.refers_iff]; exact hx.one.refers
  alt := by
    intro a
    constructor
    · intro h
      obtain ⟨a0, h0, rfl⟩ := hx.alt_from h
      rw [hx.one.alt.1 h0, expand_free hx.free]
    · rintro rfl
      have := hx.alt_to (hx.one.alt.2 rfl)
      rwa [expand_free hx.free] at this

theorem gen_iff {ys : List Symbol} {w : Str} : Gen g' ys w ↔ Gen g ys w := by
  constructor
  · intro h
    induction h with
    | nil => exact .nil
    | terminal _ ih => exact .terminal ih
    | nothing _ ih => exact .nothing ih
    | nonTerminal hr ha _ _ ih1 ih2 =>
      obtain ⟨a, h0, rfl⟩ := hx.alt_from ha
      exact .nonTerminal (hx.refers_iff.1 hr) h0 (hx.one.gen_expand.1 ih1) ih2
  · intro h
    induction h with
    | nil => exact .nil
    | terminal _ ih => exact .terminal ih
    | nothing _ ih => exact .nothing ih
    | nonTerminal hr ha _ _ ih1 ih2 =>
      exact .nonTerminal (hx.refers_iff.2 hr) (hx.alt_to ha) (hx.one'.gen_expand.2 ih1) ih2

theorem nullable_iff {ys : List Symbol} : Nullable g' ys ↔ Nullable g ys := by
  rw [nullable_iff_gen, nullable_iff_gen, hx.gen_iff]

theorem first_iff {ys : List Symbol} {b : UInt8} : First g' ys b ↔ First g ys b := by
  constructor
  · intro h
    induction h with
    | terminal => exact .terminal
    | head hr ha _ ih =>
      obtain ⟨a, h0, rfl⟩ := hx.alt_from ha
      exact .head (hx.refers_iff.1 hr) h0 (hx.one.first_expand.1 ih)
    | skip hn _ ih => exact .skip (hx.nullable_iff.1 hn) ih
  · intro h
    induction h with
    | terminal => exact .terminal
    | head hr ha _ ih => exact .head (hx.refers_iff.2 hr) (hx.alt_to ha) (hx.one'.first_expand.2 ih)
    | skip hn _ ih => exact .skip (hx.nullable_iff.2 hn) ih

theorem genRule_iff {i : Nat} {w : Str} : GenRule g' i w ↔ GenRule g i w := by
  constructor
  · rintro ⟨a', ha', h⟩
    obtain ⟨a, h0, rfl⟩ := hx.alt_from ha'
    exact ⟨a, h0, hx.one.gen_expand.1 (hx.gen_iff.1 h)⟩
  · rintro ⟨a, ha, h⟩
    exact ⟨_, hx.alt_to ha, hx.one'.gen_expand.2 (hx.gen_iff.2 h)⟩

theorem first_alt {a : Sequence} {b : UInt8} : First g' (expand name body a.symbols) b ↔ First g a.symbols b := by
  rw [hx.first_iff, hx.one.first_expand]

theorem nullable_alt {a : Sequence} : Nullable g' (expand name body a.symbols) ↔ Nullable g a.symbols := by
  rw [hx.nullable_iff, hx.one.nullable_expand]

theorem follow_from {i : Nat} {b : UInt8} (h : Follow g' i b) : Follow g i b := by
  induction h with
  | start => exact .start
  | @first j i a' p z n b ha' hs hr hf =>
    obtain ⟨a, ha, rfl⟩ := hx.alt_from ha'
    have hf' := hx.first_iff.1 hf
    have hr' := hx.refers_iff.1 hr
    rcases expand_split hs hx.free with ⟨p0, z0, h1, rfl, _⟩ | ⟨p0, z0, p1, z1, h1, h2, rfl⟩
    · exact .first ha h1 hr' (hx.one.first_expand.1 hf')
    · rcases first_append.1 hf' with h3 | ⟨h3, h4⟩
      · exact .first (hx.one.alt.2 rfl) h2 hr' h3
      · exact .last (hx.one.alt.2 rfl) h2 hr' h3
          (.first ha h1 (hx.one.refers.2 rfl) (hx.one.first_expand.1 h4))
  | @last j i a' p z n b ha' hs hr hn _ ih =>
    obtain ⟨a, ha, rfl⟩ := hx.alt_from ha'
    have hn' := hx.nullable_iff.1 hn
    have hr' := hx.refers_iff.1 hr
    rcases expand_split hs hx.free with ⟨p0, z0, h1, rfl, _⟩ | ⟨p0, z0, p1, z1, h1, h2, rfl⟩
    · exact .last ha h1 hr' (hx.one.nullable_expand.1 hn') ih
    · obtain ⟨h3, h4⟩ := Nullable.append_inv hn'
      exact .last (hx.one.alt.2 rfl) h2 hr' h3
        (.last ha h1 (hx.one.refers.2 rfl) (hx.one.nullable_expand.1 h4) ih)

theorem follow_to {i : Nat} {b : UInt8} (h : Follow g i b) : (i ≠ q → Follow g' i b) ∧
    (i = q → ∃ j a p z, g'.Alt j a ∧ a.symbols = p ++ (body ++ z) ∧ (First g' z b ∨ (Nullable g' z ∧ Follow g' j b))) := by
  have e : ∀ {p z : List Symbol} {n : Str}, n ≠ name → expand name body (p ++ .nonTerminal n :: z) =
      expand name body p ++ .nonTerminal n :: expand name body z := by
    intro p z n hn
    rw [expand_append, expand_cons_ne (by simpa using hn)]
  have e' : ∀ {p z : List Symbol}, expand name body (p ++ .nonTerminal name :: z) =
      expand name body p ++ (body ++ expand name body z) := by
    intro p z
    rw [expand_append, expand_cons_name]
  induction h with
  | start => exact ⟨fun _ => .start, fun h => (hx.notFirst h.symm).elim⟩
  | @first j i a p z n b ha hs hr hf =>
    have hf' := hx.one'.first_expand.2 (hx.first_iff.2 hf)
    by_cases hn : n = name
    · subst hn
      have hi := hx.one.refers.1 hr
      exact ⟨fun h => (h hi).elim, fun _ => ⟨j, _, expand n body p, expand n body z, hx.alt_to ha, by rw [← e', hs], .inl hf'⟩⟩
    · refine ⟨fun _ => ?_, fun hi => ?_⟩
      · exact .first (hx.alt_to ha) (by rw [hs]; exact e hn) (hx.refers_iff.2 hr) hf'
      · subst hi
        obtain ⟨⟨r1, h1, h2⟩, _⟩ := hr
        rw [hx.rule] at h1
        cases h1
        exact (hn h2.symm).elim
  | @last j i a p z n b ha hs hr hnu _ ih =>
    have hn' := hx.one'.nullable_expand.2 (hx.nullable_iff.2 hnu)
    by_cases hn : n = name
    · subst hn
      have hi := hx.one.refers.1 hr
      refine ⟨fun h => (h hi).elim, fun _ => ?_⟩
      have hj : j ≠ q := by
        rintro rfl
        have := hx.one.alt.1 ha
        subst this
        exact hx.free (by simp only at hs; rw [hs]; simp)
      exact ⟨j, _, expand n body p, expand n body z, hx.alt_to ha, by rw [← e', hs], .inr ⟨hn', ih.1 hj⟩⟩
    · refine ⟨fun _ => ?_, fun hi => ?_⟩
      · by_cases hj : j = q
        · subst hj
          have := hx.one.alt.1 ha
          subst this
          simp only at hs
          obtain ⟨j', a', p', z', ha', hs', hc⟩ := ih.2 rfl
          have hnz := hx.nullable_iff.2 hnu
          have hs2 : a'.symbols = (p' ++ p) ++ .nonTerminal n :: (z ++ z') := by rw [hs', hs]; simp
          rcases hc with hc | ⟨h1, h2⟩
          · exact .first ha' hs2 (hx.refers_iff.2 hr) (first_append.2 (.inr ⟨hnz, hc⟩))
          · exact .last ha' hs2 (hx.refers_iff.2 hr) (Nullable.append hnz h1) h2
        · exact .last (hx.alt_to ha) (by rw [hs]; exact e hn) (hx.refers_iff.2 hr) hn' (ih.1 hj)
      · subst hi
        obtain ⟨⟨r1, h1, h2⟩, _⟩ := hr
        rw [hx.rule] at h1
        cases h1
        exact (hn h2.symm).elim

theorem ruleFirst_iff {i : Nat} {b : UInt8} : RuleFirst g' i b ↔ RuleFirst g i b := by
  constructor
  · rintro ⟨a', ha', h⟩
    obtain ⟨a, h0, rfl⟩ := hx.alt_from ha'
    exact ⟨a, h0, hx.first_alt.1 h⟩
  · rintro ⟨a, ha, h⟩
    exact ⟨_, hx.alt_to ha, hx.first_alt.2 h⟩

theorem ruleNullable_iff {i : Nat} : RuleNullable g' i ↔ RuleNullable g i := by
  constructor
  · rintro ⟨a', ha', h⟩
    obtain ⟨a, h0, rfl⟩ := hx.alt_from ha'
    exact ⟨a, h0, hx.nullable_alt.1 h⟩
  · rintro ⟨a, ha, h⟩
    exact ⟨_, hx.alt_to ha, hx.nullable_alt.2 h⟩

theorem isLL1_iff : IsLL1 g' ↔ IsLL1 g := by
  constructor
  · intro hll
    refine ⟨?_, ?_, ?_⟩
    · intro i r l m a c b hr hl hm h1 h2
      exact hll.1 i _ l m _ _ b (by rw [hx.row, hr]; rfl) (by simp only [List.getElem?_map, hl]; rfl)
        (by simp only [List.getElem?_map, hm]; rfl) (hx.first_alt.2 h1) (hx.first_alt.2 h2)
    · intro i r l m a c hr hl hm h1 h2
      exact hll.2.1 i _ l m _ _ (by rw [hx.row, hr]; rfl) (by simp only [List.getElem?_map, hl]; rfl)
        (by simp only [List.getElem?_map, hm]; rfl) (hx.nullable_alt.2 h1) (hx.nullable_alt.2 h2)
    · intro i b hn hf hfol
      have := hx.follow_to hfol
      by_cases hi : i = q
      · subst hi
        obtain ⟨j, a, p, z, ha, hs, hc⟩ := this.2 rfl
        obtain ⟨a1, h1, hn⟩ := hx.ruleNullable_iff.2 hn
        obtain ⟨a2, h2, hf⟩ := hx.ruleFirst_iff.2 hf
        rw [hx.one'.alt] at h1 h2
        subst h1 h2
        exact middle_disjoint hll ha hc body p hs hn hf
      · exact hll.2.2 i b (hx.ruleNullable_iff.2 hn) (hx.ruleFirst_iff.2 hf) (this.1 hi)
  · intro hll
    refine ⟨?_, ?_, ?_⟩
    · intro i r' l m a c b hr hl hm h1 h2
      rw [hx.row, Option.map_eq_some_iff] at hr
      obtain ⟨r, hr, rfl⟩ := hr
      simp only [List.getElem?_map, Option.map_eq_some_iff] at hl hm
      obtain ⟨a0, hl, rfl⟩ := hl
      obtain ⟨c0, hm, rfl⟩ := hm
      exact hll.1 i r l m a0 c0 b hr hl hm (hx.first_alt.1 h1) (hx.first_alt.1 h2)
    · intro i r' l m a c hr hl hm h1 h2
      rw [hx.row, Option.map_eq_some_iff] at hr
      obtain ⟨r, hr, rfl⟩ := hr
      simp only [List.getElem?_map, Option.map_eq_some_iff] at hl hm
      obtain ⟨a0, hl, rfl⟩ := hl
      obtain ⟨c0, hm, rfl⟩ := hm
      exact hll.2.1 i r l m a0 c0 hr hl hm (hx.nullable_alt.1 h1) (hx.nullable_alt.1 h2)
    · intro i b hn hf hfol
      exact hll.2.2 i b (hx.ruleNullable_iff.1 hn) (hx.ruleFirst_iff.1 hf) (hx.follow_from hfol)

theorem distinct (h : DistinctHeads g) : DistinctHeads g' := by
  intro i j n h1 h2
  exact h i j n (hx.head_iff.1 h1) (hx.head_iff.1 h2)

theorem mem_expand {ys : List Symbol} {y : Symbol} (h : y ∈ expand name body ys) : y ∈ ys ∨ y ∈ body := by
  unfold expand at h
  obtain ⟨x, hx, hy⟩ := List.mem_flatMap.1 h
  split at hy
  · exact .inr hy
  · simp only [List.mem_singleton] at hy; subst hy; exact .inl hx

theorem nulFree (h : g.NulFree) : g'.NulFree := by
  intro i a' t ha' ht
  obtain ⟨a, ha, rfl⟩ := hx.alt_from ha'
  rcases hx.mem_expand ht with h1 | h1
  · exact h i a t ha h1
  · exact h q _ t (hx.one.alt.2 rfl) h1

end WrittenOut

/-! ## Trees -/

theorem withouts_append (q : Nat) (a b : List DTree) : DTree.withouts q (a ++ b) = DTree.withouts q a ++ DTree.withouts q b := by
  induction a with
  | nil => simp [DTree.withouts]
  | cons c a ih => simp [DTree.withouts, ih, List.append_assoc]

mutual
theorem yields_without (q : Nat) : ∀ t : DTree, DTree.yields (t.without q) = t.yield
  | .leaf t => by simp [DTree.without, DTree.yields, DTree.yield]
  | .empty => by simp [DTree.without, DTree.yields, DTree.yield]
  | .node i k cs => by
    rw [DTree.without]
    split
    · rw [yields_withouts q cs, DTree.yield]
    · simp [DTree.yields, DTree.yield, yields_withouts q cs]
theorem yields_withouts (q : Nat) : ∀ ts : List DTree, DTree.yields (DTree.withouts q ts) = DTree.yields ts
  | [] => by simp [DTree.withouts]
  | c :: cs => by
    have h : ∀ a b : List DTree, DTree.yields (a ++ b) = DTree.yields a ++ DTree.yields b := by
      intro a b
      induction a with
      | nil => simp [DTree.yields]
      | cons c a ih => simp [DTree.yields, ih, List.append_assoc]
    rw [DTree.withouts, h, yields_without q c, yields_withouts q cs, DTree.yields]
end

namespace WrittenOut

variable {g g' : Grammar} {name : Str} {q : Nat} {body : List Symbol} (hx : WrittenOut g g' name q body)
include hx

theorem not_q {n : Str} {i : Nat} (hn : n ≠ name) (hr : g.Refers n i) : i ≠ q := by
  rintro rfl
  obtain ⟨⟨r1, h1, h2⟩, _⟩ := hr
  rw [hx.rule] at h1
  cases h1
  exact hn h2.symm

theorem dtrees_to {ys : List Symbol} {ts : List DTree} (h : DTrees g ys ts) :
    DTrees g' (expand name body ys) (DTree.withouts q ts) := by
  induction h with
  | nil => exact .nil
  | terminal _ ih => rw [expand_cons_ne (by simp)]; exact .terminal ih
  | nothing _ ih => rw [expand_cons_ne (by simp)]; exact .nothing ih
  | @nonTerminal n i l r a rest cs ts hr hi hl _ _ ih1 ih2 =>
    rw [DTree.withouts, DTree.without]
    by_cases hn : n = name
    · subst hn
      have := hx.one.refers.1 hr
      subst this
      rw [if_pos rfl, expand_cons_name]
      have := hx.one.alt.1 ⟨r, hi, List.mem_of_getElem? hl⟩
      subst this
      rw [expand_free hx.free] at ih1
      exact dtrees_append ih1 ih2
    · rw [if_neg (hx.not_q hn hr), expand_cons_ne (by simpa using hn)]
      exact .nonTerminal (hx.refers_iff.2 hr) (by rw [hx.row, hi]; rfl) (by simp only [List.getElem?_map, hl]; rfl) ih1 ih2

theorem dtrees_fold {zs : List Symbol} {ts : List DTree} (h : DTrees g (expand name body zs) ts) :
    ∃ us, DTrees g zs us ∧ DTree.withouts q us = DTree.withouts q ts := by
  induction zs generalizing ts with
  | nil => exact ⟨ts, h, rfl⟩
  | cons z zs ih =>
    by_cases hz : z = .nonTerminal name
    · subst hz
      rw [expand_cons_name] at h
      obtain ⟨us, vs, rfl, h1, h2⟩ := dtrees_split h
      obtain ⟨ws, h3, h4⟩ := ih h2
      refine ⟨.node q 0 us :: ws,
        .nonTerminal (hx.one.refers.2 rfl) hx.rule (k := 0) (alt := ⟨body⟩) rfl h1 h3, ?_⟩
      rw [DTree.withouts, DTree.without, if_pos rfl, withouts_append, h4]
    · rw [expand_cons_ne hz] at h
      have : z :: expand name body zs = [z] ++ expand name body zs := rfl
      rw [this] at h
      obtain ⟨us, vs, rfl, h1, h2⟩ := dtrees_split h
      obtain ⟨ws, h3, h4⟩ := ih h2
      exact ⟨us ++ ws, dtrees_append (ys := [z]) h1 h3, by rw [withouts_append, withouts_append, h4]⟩

theorem expand_not (ys : List Symbol) : Symbol.nonTerminal name ∉ expand name body ys := by
  intro h
  unfold expand at h
  obtain ⟨x, _, hy⟩ := List.mem_flatMap.1 h
  split at hy
  · exact hx.free hy
  · simp only [List.mem_singleton] at hy
    rename_i hne
    exact hne hy.symm

theorem dtrees_from {ys : List Symbol} {ts : List DTree} (h : DTrees g' ys ts) : Symbol.nonTerminal name ∉ ys →
    ∃ us, DTrees g ys us ∧ DTree.withouts q us = ts := by
  induction h with
  | nil => exact fun _ => ⟨[], .nil, by simp [DTree.withouts]⟩
  | terminal _ ih =>
    intro hn
    obtain ⟨us, h1, h2⟩ := ih fun h => hn (List.mem_cons_of_mem _ h)
    exact ⟨_ :: us, .terminal h1, by simp [DTree.withouts, DTree.without, h2]⟩
  | nothing _ ih =>
    intro hn
    obtain ⟨us, h1, h2⟩ := ih fun h => hn (List.mem_cons_of_mem _ h)
    exact ⟨_ :: us, .nothing h1, by simp [DTree.withouts, DTree.without, h2]⟩
  | @nonTerminal n i l r' a' rest cs ts hr hi hl _ _ ih1 ih2 =>
    intro hn
    have hne : n ≠ name := fun h => hn (by rw [h]; exact List.mem_cons_self ..)
    have hr' := hx.refers_iff.1 hr
    obtain ⟨us, h1, h2⟩ := ih2 fun h => hn (List.mem_cons_of_mem _ h)
    rw [hx.row, Option.map_eq_some_iff] at hi
    obtain ⟨r, hi, rfl⟩ := hi
    simp only [List.getElem?_map, Option.map_eq_some_iff] at hl
    obtain ⟨a, hl, rfl⟩ := hl
    obtain ⟨vs, h3, h4⟩ := ih1 (hx.expand_not _)
    obtain ⟨ws, h5, h6⟩ := hx.dtrees_fold h3
    refine ⟨.node i l ws :: us, .nonTerminal hr' hi hl h5 h1, ?_⟩
    rw [DTree.withouts, DTree.without, if_neg (hx.not_q hne hr'), h6, h4, h2]
    rfl

theorem isDTree_iff {i : Nat} (hi : i ≠ q) {w : Str} {d : DTree} :
    IsDTree g' i w d ↔ ∃ t, IsDTree g i w t ∧ t.without q = [d] := by
  constructor
  · rintro ⟨r', l, a', cs, hr, hl, hd, rfl, hy⟩
    rw [hx.row, Option.map_eq_some_iff] at hr
    obtain ⟨r, hr, rfl⟩ := hr
    simp only [List.getElem?_map, Option.map_eq_some_iff] at hl
    obtain ⟨a, hl, rfl⟩ := hl
    obtain ⟨vs, h3, h4⟩ := hx.dtrees_from hd (hx.expand_not _)
    obtain ⟨ws, h5, h6⟩ := hx.dtrees_fold h3
    refine ⟨.node i l ws, ⟨r, l, a, ws, hr, hl, h5, rfl, ?_⟩, ?_⟩
    · rw [← hy]
      simp only [DTree.yield]
      rw [← yields_withouts q ws, h6, h4]
    · rw [DTree.without, if_neg hi, h6, h4]
  · rintro ⟨t, ⟨r, l, a, cs, hr, hl, hd, rfl, hy⟩, he⟩
    rw [DTree.without, if_neg hi] at he
    cases he
    refine ⟨_, l, _, _, by rw [hx.row, hr]; rfl, by simp only [List.getElem?_map, hl]; rfl, hx.dtrees_to hd, rfl, ?_⟩
    rw [← hy]
    simp only [DTree.yield, yields_withouts]

end WrittenOut

end LL1
