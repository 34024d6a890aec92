import Verif.Proofs.TableTop

/-! # Facts about the textbook notions, and decidable conditions on concrete grammars -/

namespace LL1

/-! ## Conditions on all alternatives are decidable -/

theorem forall_alt {g : Grammar} {P : Sequence → Prop} :
    (∀ i alt, g.Alt i alt → P alt) ↔ ∀ r ∈ g.rules, ∀ alt ∈ r.tail.sequences, P alt := by
  constructor
  · intro h r hr alt ha
    obtain ⟨i, hi⟩ := List.getElem?_of_mem hr
    exact h i alt ⟨r, hi, ha⟩
  · rintro h i alt ⟨r, hr, ha⟩
    exact h r (List.mem_of_getElem? hr) alt ha

def symbolsOk (p : Str → Bool) (alt : Sequence) : Bool :=
  alt.symbols.all fun | .terminal t => p t | _ => true

theorem symbolsOk_iff {p : Str → Bool} {alt : Sequence} :
    symbolsOk p alt = true ↔ ∀ t, Symbol.terminal t ∈ alt.symbols → p t = true := by
  simp only [symbolsOk, List.all_eq_true]
  constructor
  · intro h t ht; exact h _ ht
  · intro h x hx
    cases x with
    | terminal t => exact h t hx
    | nothing => rfl
    | nonTerminal n => rfl

theorem nulStartFree_of {g : Grammar}
    (h : (g.rules.all fun r => r.tail.sequences.all (symbolsOk fun t => t.head? != some 0)) = true) :
    g.NulStartFree := by
  intro i alt t ⟨r, hr, ha⟩ ht
  rw [List.all_eq_true] at h
  have := h r (List.mem_of_getElem? hr)
  rw [List.all_eq_true] at this
  have := symbolsOk_iff.1 (this alt ha) t ht
  simpa using this

theorem nulFree_of {g : Grammar}
    (h : (g.rules.all fun r => r.tail.sequences.all (symbolsOk fun t => !t.contains 0)) = true) :
    g.NulFree := by
  intro i alt t ⟨r, hr, ha⟩ ht
  rw [List.all_eq_true] at h
  have := h r (List.mem_of_getElem? hr)
  rw [List.all_eq_true] at this
  have := symbolsOk_iff.1 (this alt ha) t ht
  simpa using this

theorem Grammar.NulFree.start {g : Grammar} (h : g.NulFree) : g.NulStartFree := by
  intro i alt t ha ht he
  have := h i alt t ha ht
  cases t with
  | nil => simp at he
  | cons c t => simp at he; subst he; simp at this

/-- Boolean version of `WellFormed`. -/
def wellFormedB (g : Grammar) : Bool :=
  !g.rules.isEmpty &&
  g.rules.all fun r => r.tail.sequences.all fun alt =>
    symbolsOk (fun t => !t.isEmpty) alt &&
    (!alt.symbols.contains .nothing || alt.symbols == [.nothing]) &&
    !alt.symbols.isEmpty &&
    alt.symbols.all fun
      | .nonTerminal n => g.rules.any fun r => r.head == n
      | _ => true

theorem wellFormed_of {g : Grammar} (h : wellFormedB g = true) : g.WellFormed := by
  simp only [wellFormedB, Bool.and_eq_true, List.all_eq_true, Bool.not_eq_true',
    List.isEmpty_eq_false_iff] at h
  obtain ⟨h0, h⟩ := h
  have key : ∀ i alt, g.Alt i alt → _ := fun i alt ⟨r, hr, ha⟩ => h r (List.mem_of_getElem? hr) alt ha
  refine ⟨h0, ?_, ?_, ?_, ?_⟩
  · intro i alt t ha ht
    have := symbolsOk_iff.1 (key i alt ha).1.1.1 t ht
    simpa using this
  · intro i alt ha hn
    have := (key i alt ha).1.1.2
    simp only [Bool.or_eq_true, Bool.not_eq_true', beq_iff_eq] at this
    rcases this with h | h
    · rw [← Bool.not_eq_true, List.contains_iff_mem] at h; exact absurd hn h
    · exact h
  · intro i alt ha; exact (key i alt ha).1.2
  · intro i alt name ha hn
    have := (key i alt ha).2 _ hn
    simp only [List.any_eq_true, beq_iff_eq] at this
    obtain ⟨r, hr, he⟩ := this
    obtain ⟨j, hj⟩ := List.getElem?_of_mem hr
    exact ⟨j, r, hj, he⟩

theorem distinctHeads_of {g : Grammar} (h : (g.rules.map Rule.head).Nodup) : DistinctHeads g := by
  rintro i j name ⟨r, hr, hn⟩ ⟨r', hr', hn'⟩
  have hi : i < (g.rules.map Rule.head).length := by
    simpa using (List.getElem?_eq_some_iff.1 hr).1
  refine (List.getElem?_inj hi h).1 ?_
  simp [List.getElem?_map, hr, hr', hn, hn']

theorem refers_of_distinct {g : Grammar} (h : DistinctHeads g) {i : Nat} {name : Str} (hh : g.Head i name) :
    g.Refers name i := ⟨hh, fun j hj => by rw [h i j name hh hj]; exact Nat.le_refl _⟩

/-! ## Generation -/

theorem Gen.append {g : Grammar} {xs ys : List Symbol} {u v : Str} (h : Gen g xs u) (h' : Gen g ys v) :
    Gen g (xs ++ ys) (u ++ v) := by
  induction h with
  | nil => exact h'
  | terminal _ ih => rw [List.append_assoc]; exact .terminal ih
  | nothing _ ih => exact .nothing ih
  | nonTerminal hr ha h1 _ _ ih => rw [List.append_assoc]; exact .nonTerminal hr ha h1 ih

theorem Gen.split {g : Grammar} {xs ys : List Symbol} {w : Str} (h : Gen g (xs ++ ys) w) :
    ∃ u v, w = u ++ v ∧ Gen g xs u ∧ Gen g ys v := by
  induction xs generalizing w with
  | nil => exact ⟨[], w, rfl, .nil, h⟩
  | cons x xs ih =>
    cases h with
    | terminal h =>
      obtain ⟨u, v, rfl, h1, h2⟩ := ih h
      exact ⟨_, v, (List.append_assoc _ _ _).symm, .terminal h1, h2⟩
    | nothing h =>
      obtain ⟨u, v, rfl, h1, h2⟩ := ih h
      exact ⟨u, v, rfl, .nothing h1, h2⟩
    | nonTerminal hr ha h1 h =>
      obtain ⟨u, v, rfl, h3, h4⟩ := ih h
      exact ⟨_, v, (List.append_assoc _ _ _).symm, .nonTerminal hr ha h1 h3, h4⟩

theorem Nullable.append {g : Grammar} {xs ys : List Symbol} (h : Nullable g xs) (h' : Nullable g ys) :
    Nullable g (xs ++ ys) := by
  induction h with
  | nil => exact h'
  | nothing _ ih => exact .nothing ih
  | emptyTerminal _ ih => exact .emptyTerminal ih
  | nonTerminal hr ha h1 _ _ ih => exact .nonTerminal hr ha h1 ih

theorem nullable_cons {g : Grammar} {x : Symbol} {xs : List Symbol} :
    Nullable g (x :: xs) ↔ Nullable g [x] ∧ Nullable g xs := by
  constructor
  · intro h
    cases h with
    | nothing h => exact ⟨.nothing .nil, h⟩
    | emptyTerminal h => exact ⟨.emptyTerminal .nil, h⟩
    | nonTerminal hr ha h1 h => exact ⟨.nonTerminal hr ha h1 .nil, h⟩
  · rintro ⟨h1, h2⟩
    exact h1.append h2

theorem first_cons {g : Grammar} {x : Symbol} {xs : List Symbol} {b : UInt8} :
    First g (x :: xs) b ↔ First g [x] b ∨ (Nullable g [x] ∧ First g xs b) := by
  constructor
  · intro h
    cases h with
    | terminal => exact .inl .terminal
    | head hr ha h => exact .inl (.head hr ha h)
    | skip hn h => exact .inr ⟨hn, h⟩
  · rintro (h | ⟨hn, h⟩)
    · cases h with
      | terminal => exact .terminal
      | head hr ha h => exact .head hr ha h
      | skip hn h => cases h
    · exact .skip hn h

theorem first_append {g : Grammar} {xs ys : List Symbol} {b : UInt8} :
    First g (xs ++ ys) b ↔ First g xs b ∨ (Nullable g xs ∧ First g ys b) := by
  induction xs with
  | nil =>
    simp only [List.nil_append]
    constructor
    · intro h; exact .inr ⟨.nil, h⟩
    · rintro (h | ⟨_, h⟩)
      · cases h
      · exact h
  | cons x xs ih =>
    rw [List.cons_append, first_cons (xs := xs ++ ys), ih, first_cons (xs := xs), nullable_cons (xs := xs)]
    constructor
    · rintro (h | ⟨hn, h | ⟨hn', h⟩⟩)
      · exact .inl (.inl h)
      · exact .inl (.inr ⟨hn, h⟩)
      · exact .inr ⟨⟨hn, hn'⟩, h⟩
    · rintro ((h | ⟨hn, h⟩) | ⟨⟨hn, hn'⟩, h⟩)
      · exact .inl h
      · exact .inr ⟨hn, .inl h⟩
      · exact .inr ⟨hn, .inr ⟨hn', h⟩⟩

theorem nullable_iff_gen {g : Grammar} {syms : List Symbol} : Nullable g syms ↔ Gen g syms [] := by
  constructor
  · intro h
    induction h with
    | nil => exact .nil
    | nothing _ ih => exact .nothing ih
    | emptyTerminal _ ih => exact .terminal (t := []) ih
    | nonTerminal hr ha _ _ ih1 ih2 => exact .nonTerminal (u := []) (w := []) hr ha ih1 ih2
  · intro h
    generalize hw : ([] : Str) = w at h
    induction h with
    | nil => exact .nil
    | @terminal t rest w _ ih =>
      have := List.append_eq_nil_iff.1 hw.symm
      obtain ⟨rfl, rfl⟩ := this
      exact .emptyTerminal (ih rfl)
    | nothing _ ih => exact .nothing (ih hw)
    | nonTerminal hr ha _ _ ih1 ih2 =>
      have := List.append_eq_nil_iff.1 hw.symm
      exact .nonTerminal hr ha (ih1 this.1.symm) (ih2 this.2.symm)

theorem first_of_gen {g : Grammar} {syms : List Symbol} {b : UInt8} {w : Str}
    (h : Gen g syms (b :: w)) : First g syms b := by
  generalize hw : b :: w = v at h
  induction h generalizing w with
  | nil => simp at hw
  | @terminal t rest w' _ ih =>
    cases t with
    | nil => exact .skip (.emptyTerminal .nil) (ih hw)
    | cons c t =>
      simp only [List.cons_append, List.cons.injEq] at hw
      rw [hw.1]; exact .terminal
  | nothing _ ih => exact .skip (.nothing .nil) (ih hw)
  | @nonTerminal name i alt rest u w' hr ha h1 _ ih1 ih2 =>
    cases u with
    | nil => exact .skip (.nonTerminal hr ha (nullable_iff_gen.2 h1) .nil) (ih2 hw)
    | cons c u =>
      simp only [List.cons_append, List.cons.injEq] at hw
      exact .head hr ha (ih1 (w := u) (by rw [hw.1]))

theorem gen_of_productive {g : Grammar} : ∀ (syms : List Symbol),
    (∀ name, Symbol.nonTerminal name ∈ syms → ∃ j w, g.Refers name j ∧ GenRule g j w) →
    ∃ w, Gen g syms w := by
  intro syms
  induction syms with
  | nil => intro _; exact ⟨[], .nil⟩
  | cons x rest ih =>
    intro h
    obtain ⟨w, hw⟩ := ih (fun n hn => h n (List.mem_cons_of_mem _ hn))
    cases x with
    | terminal t => exact ⟨_, .terminal hw⟩
    | nothing => exact ⟨_, .nothing hw⟩
    | nonTerminal name =>
      obtain ⟨j, u, hr, alt, ha, hu⟩ := h name (by simp)
      exact ⟨_, .nonTerminal hr ha hu hw⟩

theorem gen_of_first {g : Grammar} (hp : g.Productive) {syms : List Symbol} {b : UInt8}
    (h : First g syms b) :
    (∀ name, Symbol.nonTerminal name ∈ syms → ∃ j w, g.Refers name j ∧ GenRule g j w) →
    ∃ w, Gen g syms (b :: w) := by
  induction h with
  | @terminal b t rest =>
    intro hs
    obtain ⟨w, hw⟩ := gen_of_productive rest (fun n hn => hs n (List.mem_cons_of_mem _ hn))
    exact ⟨t ++ w, .terminal (t := b :: t) hw⟩
  | @head name i alt rest b hr ha _ ih =>
    intro hs
    obtain ⟨u, hu⟩ := ih (fun n hn => hp i alt n ha hn)
    obtain ⟨w, hw⟩ := gen_of_productive rest (fun n hn => hs n (List.mem_cons_of_mem _ hn))
    exact ⟨u ++ w, .nonTerminal (u := b :: u) hr ha hu hw⟩
  | @skip x rest b hn _ ih =>
    intro hs
    obtain ⟨w, hw⟩ := ih (fun n hn => hs n (List.mem_cons_of_mem _ hn))
    exact ⟨w, (nullable_iff_gen.1 hn).append hw⟩

/-! ## FOLLOW -/

theorem follow_of_nextFollow {g : Grammar} (hg : NoNullableGap g) (hd : DistinctHeads g) {i : Nat}
    {b : UInt8} (h : NextFollow g i b) : Follow g i b := by
  induction h with
  | start => exact .start
  | last ha hs hh _ ih => exact .last ha hs (refers_of_distinct hd hh) .nil ih
  | next ha hs hh hf => exact .first ha hs (refers_of_distinct hd hh) (first_cons.2 (.inl hf))
  | @nextNullable j i alt pre post name next b ha hs hh hn _ ih =>
    have := hg _ _ _ _ _ _ ha hs hn
    subst this
    exact .last ha hs (refers_of_distinct hd hh) hn ih

theorem nextFollow_of_follow {g : Grammar} (hg : NoNullableGap g) {i : Nat}
    {b : UInt8} (h : Follow g i b) : NextFollow g i b := by
  induction h with
  | start => exact .start
  | @first j i alt pre post name b ha hs hr hf =>
    cases post with
    | nil => cases hf
    | cons x post =>
      rcases first_cons.1 hf with h | ⟨hn, h⟩
      · exact .next ha hs hr.1 h
      · have := hg _ _ _ _ _ _ ha hs hn
        subst this; cases h
  | @last j i alt pre post name b ha hs hr hn _ ih =>
    cases post with
    | nil => exact .last ha hs hr.1 ih
    | cons x post =>
      have hx := (nullable_cons.1 hn).1
      exact .nextNullable ha hs hr.1 hx ih

/-! ## Defined references -/

theorem Nullable.refers {g : Grammar} {syms : List Symbol} (h : Nullable g syms) :
    ∀ name, Symbol.nonTerminal name ∈ syms → ∃ i, g.Refers name i := by
  induction h with
  | nil => intro n hn; simp at hn
  | nothing _ ih =>
    intro n hn
    rcases List.mem_cons.1 hn with h | h
    · cases h
    · exact ih n h
  | emptyTerminal _ ih =>
    intro n hn
    rcases List.mem_cons.1 hn with h | h
    · cases h
    · exact ih n h
  | nonTerminal hr _ _ _ _ ih =>
    intro n hn
    rcases List.mem_cons.1 hn with h | h
    · cases h; exact ⟨_, hr⟩
    · exact ih n h

theorem AllPairs.mem_left {α β : Type} {R : α → β → Prop} {as : List α} {bs : List β}
    (h : AllPairs R as bs) {a : α} (ha : a ∈ as) : ∃ b ∈ bs, R a b := by
  induction h with
  | nil => simp at ha
  | cons hr _ ih =>
    rcases List.mem_cons.1 ha with rfl | ha
    · exact ⟨_, by simp, hr⟩
    · obtain ⟨b, hb, hr⟩ := ih ha
      exact ⟨b, List.mem_cons_of_mem _ hb, hr⟩

theorem AllPairs.mem_right {α β : Type} {R : α → β → Prop} {as : List α} {bs : List β}
    (h : AllPairs R as bs) {b : β} (hb : b ∈ bs) : ∃ a ∈ as, R a b := by
  induction h with
  | nil => simp at hb
  | cons hr _ ih =>
    rcases List.mem_cons.1 hb with rfl | hb
    · exact ⟨_, by simp, hr⟩
    · obtain ⟨a, ha, hr⟩ := ih hb
      exact ⟨a, List.mem_cons_of_mem _ ha, hr⟩

theorem AllPairs.length {α β : Type} {R : α → β → Prop} {as : List α} {bs : List β}
    (h : AllPairs R as bs) : as.length = bs.length := by
  induction h with
  | nil => rfl
  | cons _ _ ih => simp [ih]

theorem Predicted.mem {g : Grammar} {b : UInt8} {alts : List Sequence} {ops : List ParserOp}
    (h : Predicted g b alts ops) {op : ParserOp} (hop : op ∈ ops) :
    ∃ alt ∈ alts, ∃ x ∈ alt.symbols, OpOf g x op := by
  induction h with
  | nil => simp at hop
  | take _ h2 _ ih =>
    rcases List.mem_append.1 hop with h | h
    · obtain ⟨x, hx, hr⟩ := h2.mem_right h
      exact ⟨_, by simp, x, hx, hr⟩
    · obtain ⟨a, ha, r⟩ := ih h
      exact ⟨a, List.mem_cons_of_mem _ ha, r⟩
  | skip _ _ ih =>
    obtain ⟨a, ha, r⟩ := ih hop
    exact ⟨a, List.mem_cons_of_mem _ ha, r⟩

theorem Predicted.nonempty {g : Grammar} {b : UInt8} {alts : List Sequence} {ops : List ParserOp}
    (h : Predicted g b alts ops) (hne : ∀ alt ∈ alts, alt.symbols ≠ []) :
    ops ≠ [] ↔ ∃ alt ∈ alts, First g alt.symbols b := by
  induction h with
  | nil => simp
  | @take alt alts ops rest hf h2 _ ih =>
    have hl := h2.length
    have : alt.symbols ≠ [] := hne alt (by simp)
    have : ops ≠ [] := by
      intro he; subst he
      exact this (List.eq_nil_of_length_eq_zero (by simpa using hl))
    simp only [ne_eq, List.append_eq_nil_iff, this, false_and, not_false_eq_true, true_iff]
    exact ⟨alt, by simp, hf⟩
  | @skip alt alts rest hf _ ih =>
    rw [ih (fun a ha => hne a (List.mem_cons_of_mem _ ha))]
    constructor
    · rintro ⟨a, ha, h⟩; exact ⟨a, List.mem_cons_of_mem _ ha, h⟩
    · rintro ⟨a, ha, h⟩
      rcases List.mem_cons.1 ha with rfl | ha
      · exact absurd h hf
      · exact ⟨a, ha, h⟩

/-! ## Cells of generated tables -/

theorem bodyFor_nat {tbl : Table} {i : Nat} {row : Row} (h : tbl.get (i : Int) = some row) (b : UInt8) :
    bodyFor tbl i b = GoMap.get row b := by
  unfold bodyFor
  rw [if_pos (by omega), h]; rfl

/-- The cells of a generated table. -/
theorem TG.TableOk.cell {g : Grammar} {tbl : Table} (h : TG.TableOk g tbl) {i : Nat} {r : Rule}
    (hr : g.rules[i]? = some r) (b : UInt8) :
    (bodyFor tbl i b = none ↔ ¬ (RuleFirst g i b ∨ (RuleNullable g i ∧ NextFollow g i b))) ∧
    (∀ ops, bodyFor tbl i b = some ops → Predicted g b r.tail.sequences ops) := by
  have hi := (List.getElem?_eq_some_iff.1 hr).1
  obtain ⟨row, hrow, hok⟩ := h.rows i hi
  rw [bodyFor_nat hrow]
  obtain ⟨h1, h2⟩ := hok.spec r hr b
  have hsel : TG.Selects g i r.tail.sequences b ↔
      RuleFirst g i b ∨ (RuleNullable g i ∧ NextFollow g i b) := by
    simp only [TG.Selects, RuleFirst, RuleNullable, Grammar.Alt, hr, Option.some.injEq]
    constructor
    · rintro (⟨a, ha, hf⟩ | ⟨⟨a, ha, hf⟩, hb⟩)
      · exact .inl ⟨a, ⟨r, rfl, ha⟩, hf⟩
      · exact .inr ⟨⟨a, ⟨r, rfl, ha⟩, hf⟩, hb⟩
    · rintro (⟨a, ⟨_, rfl, ha⟩, hf⟩ | ⟨⟨a, ⟨_, rfl, ha⟩, hf⟩, hb⟩)
      · exact .inl ⟨a, ha, hf⟩
      · exact .inr ⟨⟨a, ha, hf⟩, hb⟩
  rw [← hsel]
  refine ⟨⟨h1, ?_⟩, fun ops ho => (h2 ops ho).2⟩
  intro hn
  cases hg : GoMap.get row b with
  | none => rfl
  | some ops => exact absurd (h2 ops hg).1 hn

end LL1
