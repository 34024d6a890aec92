import Verif.Proofs.Extract

/-!
# Repairing nullable gaps: preserved conditions, trees, and why the repair ends
-/

namespace LL1

variable {g g' : Grammar} {name : Str} {j k : Nat} {r : Rule} {pre post : List Symbol}

namespace Extract

variable (hx : Extract g g' name j k r pre post)
include hx

theorem sentence_iff (w : Str) : Sentence g' w ↔ Sentence g w :=
  hx.genRule_iff (by have := hx.lt; omega)

/-- Symbols of the new grammar are old ones or the new non-terminal. -/
theorem new_symbol {i : Nat} {a' : Sequence} (h : g'.Alt i a') {x : Symbol} (hm : x ∈ a'.symbols) :
    x = .nonTerminal name ∨ ∃ i a, g.Alt i a ∧ x ∈ a.symbols := by
  rcases hx.new_alt h with ⟨rfl, rfl⟩ | ⟨a, ha, rfl | ⟨rfl, rfl, rfl⟩⟩
  · exact .inr ⟨j, _, hx.oldAlt, by simp only [List.mem_append]; exact .inr hm⟩
  · exact .inr ⟨i, _, ha, hm⟩
  · simp only [List.mem_append, List.mem_singleton] at hm
    rcases hm with hm | hm
    · exact .inr ⟨i, _, hx.oldAlt, by simp only [List.mem_append]; exact .inl hm⟩
    · exact .inl hm

theorem nulFree (hz : g.NulFree) : g'.NulFree := by
  intro i alt t ha hm
  rcases hx.new_symbol ha hm with h | ⟨i, a, h, hm⟩
  · cases h
  · exact hz i a t h hm

theorem distinct (hd : DistinctHeads g) : DistinctHeads g' := by
  intro i l n hi hl
  by_cases hn : n = name
  · subst hn; rw [hx.head_name.1 hi, hx.head_name.1 hl]
  · exact hd i l n ((hx.head_iff hn).1 hi) ((hx.head_iff hn).1 hl)

theorem wellFormed (hw : g.WellFormed) : g'.WellFormed := by
  refine ⟨?_, ?_, ?_, ?_, ?_⟩
  · intro h
    have := hx.length
    rw [h] at this
    simp at this
  · intro i alt t ha hm
    rcases hx.new_symbol ha hm with h | ⟨i, a, h, hm⟩
    · cases h
    · exact hw.term i a t h hm
  · intro i alt ha hm
    rcases hx.new_alt ha with ⟨rfl, rfl⟩ | ⟨a, ha, rfl | ⟨rfl, rfl, rfl⟩⟩
    · have := hw.nothing _ _ hx.oldAlt (by simp only [List.mem_append]; exact .inr hm)
      rcases List.append_eq_singleton_iff.1 this with ⟨_, h⟩ | ⟨_, h⟩
      · exact h
      · exact (hx.nonempty h).elim
    · exact hw.nothing _ _ ha hm
    · simp only [List.mem_append, List.mem_singleton] at hm
      rcases hm with hm | hm
      · have := hw.nothing _ _ hx.oldAlt (by simp only [List.mem_append]; exact .inl hm)
        rcases List.append_eq_singleton_iff.1 this with ⟨h, _⟩ | ⟨_, h⟩
        · rw [h] at hm; cases hm
        · exact (hx.nonempty h).elim
      · cases hm
  · intro i alt ha
    rcases hx.new_alt ha with ⟨rfl, rfl⟩ | ⟨a, ha, rfl | ⟨rfl, rfl, rfl⟩⟩
    · exact hx.nonempty
    · exact hw.alts _ _ ha
    · simp
  · intro i alt n ha hm
    by_cases hn : n = name
    · subst hn; exact ⟨_, hx.head_name.2 rfl⟩
    · rcases hx.new_symbol ha hm with h | ⟨i, a, h, hm⟩
      · cases h; exact (hn rfl).elim
      · obtain ⟨l, hl⟩ := hw.defined i a n h hm
        exact ⟨l, (hx.head_iff hn).2 hl⟩

end Extract

/-! ## Trees -/

theorem splices_append (n : Nat) (ts us : List DTree) :
    DTree.splices n (ts ++ us) = DTree.splices n ts ++ DTree.splices n us := by
  induction ts with
  | nil => simp [DTree.splices]
  | cons t ts ih => simp [DTree.splices, ih]

mutual
theorem splice_splice {n m : Nat} (h : n ≤ m) : ∀ t : DTree, DTree.splices n (t.splice m) = t.splice n
  | .leaf t => by simp [DTree.splice, DTree.splices]
  | .empty => by simp [DTree.splice, DTree.splices]
  | .node i k cs => by
    unfold DTree.splice
    by_cases hm : m ≤ i
    · rw [if_pos hm, if_pos (Nat.le_trans h hm), splices_splices h cs]
    · rw [if_neg hm]
      simp only [DTree.splices, DTree.splice, List.append_nil, splices_splices h cs]
theorem splices_splices {n m : Nat} (h : n ≤ m) : ∀ ts : List DTree,
    DTree.splices n (DTree.splices m ts) = DTree.splices n ts
  | [] => by simp [DTree.splices]
  | t :: ts => by
    rw [DTree.splices, splices_append, splice_splice h t, splices_splices h ts, DTree.splices]
end

theorem yields_append (ts us : List DTree) : DTree.yields (ts ++ us) = DTree.yields ts ++ DTree.yields us := by
  induction ts with
  | nil => simp [DTree.yields]
  | cons t ts ih => simp [DTree.yields, ih]

mutual
theorem yield_splice (n : Nat) : ∀ t : DTree, DTree.yields (t.splice n) = t.yield
  | .leaf t => by simp [DTree.splice, DTree.yields, DTree.yield]
  | .empty => by simp [DTree.splice, DTree.yields, DTree.yield]
  | .node i k cs => by
    unfold DTree.splice
    by_cases hn : n ≤ i
    · rw [if_pos hn, yields_splices n cs, DTree.yield]
    · rw [if_neg hn]
      simp only [DTree.yields, DTree.yield, List.append_nil, yields_splices n cs]
theorem yields_splices (n : Nat) : ∀ ts : List DTree, DTree.yields (DTree.splices n ts) = DTree.yields ts
  | [] => by simp [DTree.splices]
  | t :: ts => by rw [DTree.splices, yields_append, yield_splice n t, yields_splices n ts, DTree.yields]
end

theorem dtrees_append {ys zs : List Symbol} {ts us : List DTree} (h : DTrees g ys ts) (h' : DTrees g zs us) :
    DTrees g (ys ++ zs) (ts ++ us) := by
  induction h with
  | nil => exact h'
  | terminal _ ih => exact .terminal ih
  | nothing _ ih => exact .nothing ih
  | nonTerminal hr h1 h2 h3 _ _ ih => exact .nonTerminal hr h1 h2 h3 ih

theorem dtrees_split {zs : List Symbol} {ts : List DTree} : ∀ {ys : List Symbol}, DTrees g (ys ++ zs) ts →
    ∃ us vs, ts = us ++ vs ∧ DTrees g ys us ∧ DTrees g zs vs := by
  intro ys
  induction ys generalizing ts with
  | nil => intro h; exact ⟨[], ts, rfl, .nil, h⟩
  | cons y ys ih =>
    intro h
    rw [List.cons_append] at h
    cases h with
    | terminal h => obtain ⟨us, vs, rfl, h1, h2⟩ := ih h; exact ⟨_ :: us, vs, rfl, .terminal h1, h2⟩
    | nothing h => obtain ⟨us, vs, rfl, h1, h2⟩ := ih h; exact ⟨_ :: us, vs, rfl, .nothing h1, h2⟩
    | nonTerminal hr a b c h =>
      obtain ⟨us, vs, rfl, h1, h2⟩ := ih h; exact ⟨_ :: us, vs, rfl, .nonTerminal hr a b c h1, h2⟩

/-- The rules of a grammar's own trees are below the number of its rules, so nothing is taken out. -/
theorem splices_own {n : Nat} (hn : g.rules.length ≤ n) {ys : List Symbol} {ts : List DTree} (h : DTrees g ys ts) :
    DTree.splices n ts = ts := by
  induction h with
  | nil => simp [DTree.splices]
  | terminal _ ih => simp [DTree.splices, DTree.splice, ih]
  | nothing _ ih => simp [DTree.splices, DTree.splice, ih]
  | nonTerminal hr hi _ _ _ ih1 ih2 =>
    have := (List.getElem?_eq_some_iff.1 hi).1
    rw [DTree.splices, DTree.splice, if_neg (by omega), ih1, ih2]
    rfl

namespace Extract

variable (hx : Extract g g' name j k r pre post)
include hx

theorem dtrees_from {ys : List Symbol} {ts : List DTree} (h : DTrees g' ys ts) :
    DTrees g (expand name post ys) (DTree.splices g.rules.length ts) := by
  induction h with
  | nil => exact .nil
  | terminal _ ih => rw [expand_cons_ne (by simp)]; exact .terminal ih
  | nothing _ ih => rw [expand_cons_ne (by simp)]; exact .nothing ih
  | @nonTerminal n i l r' a' rest cs ts hr hi hl _ _ ih1 ih2 =>
    rw [DTree.splices, DTree.splice]
    rcases hx.new_rule hi with ⟨rfl, rfl⟩ | ⟨r0, hr0, hh, hall⟩
    · have hn : n = name := by
        obtain ⟨⟨r1, h1, h2⟩, _⟩ := hr
        rw [hx.last] at h1; cases h1; exact h2.symm
      subst hn
      rw [if_pos (Nat.le_refl _), expand_cons_name]
      refine dtrees_append ?_ ih2
      have := List.mem_of_getElem? hl
      simp only [List.mem_singleton] at this
      subst this
      rw [expand_free hx.post_free] at ih1
      exact ih1
    · have hlt := (List.getElem?_eq_some_iff.1 hr0).1
      have hn : n ≠ name := by
        rintro rfl
        exact absurd (hx.refers_name.1 hr) (by omega)
      rw [if_neg (by omega), expand_cons_ne (by simpa using hn)]
      obtain ⟨a, ha, hc⟩ := hall l a' hl
      have haa : g.Alt i a := ⟨r0, hr0, List.mem_of_getElem? ha⟩
      rw [hx.expand_alt haa (hc.imp id fun ⟨h1, _, h2⟩ => ⟨h1, h2⟩)] at ih1
      exact .nonTerminal ((hx.refers_iff hn).1 hr) hr0 ha ih1 ih2

theorem dtrees_fold {zs : List Symbol} {ts : List DTree} (h : DTrees g' (expand name post zs) ts) :
    ∃ us, DTrees g' zs us ∧ DTree.splices g.rules.length us = DTree.splices g.rules.length ts := by
  induction zs generalizing ts with
  | nil => exact ⟨ts, h, rfl⟩
  | cons z zs ih =>
    by_cases hz : z = .nonTerminal name
    · subst hz
      rw [expand_cons_name] at h
      obtain ⟨us, vs, rfl, h1, h2⟩ := dtrees_split h
      obtain ⟨ws, h3, h4⟩ := ih h2
      refine ⟨.node g.rules.length 0 us :: ws,
        .nonTerminal (hx.refers_name.2 rfl) hx.last (k := 0) (alt := ⟨post⟩) rfl h1 h3, ?_⟩
      rw [DTree.splices, DTree.splice, if_pos (Nat.le_refl _), splices_append, h4]
    · rw [expand_cons_ne hz] at h
      have : z :: expand name post zs = [z] ++ expand name post zs := rfl
      rw [this] at h
      obtain ⟨us, vs, rfl, h1, h2⟩ := dtrees_split h
      obtain ⟨ws, h3, h4⟩ := ih h2
      exact ⟨us ++ ws, dtrees_append (ys := [z]) h1 h3, by rw [splices_append, splices_append, h4]⟩

theorem dtrees_to {ys : List Symbol} {ts : List DTree} (h : DTrees g ys ts) : Symbol.nonTerminal name ∉ ys →
    ∃ us, DTrees g' ys us ∧ DTree.splices g.rules.length us = ts := by
  induction h with
  | nil => exact fun _ => ⟨[], .nil, by simp [DTree.splices]⟩
  | terminal _ ih =>
    intro hn
    obtain ⟨us, h1, h2⟩ := ih fun h => hn (List.mem_cons_of_mem _ h)
    exact ⟨_ :: us, .terminal h1, by simp [DTree.splices, DTree.splice, h2]⟩
  | nothing _ ih =>
    intro hn
    obtain ⟨us, h1, h2⟩ := ih fun h => hn (List.mem_cons_of_mem _ h)
    exact ⟨_ :: us, .nothing h1, by simp [DTree.splices, DTree.splice, h2]⟩
  | @nonTerminal n i l r0 a rest cs ts hr hi hl hd1 _ ih1 ih2 =>
    intro hn
    have hne : n ≠ name := fun h => hn (by rw [h]; exact List.mem_cons_self ..)
    obtain ⟨us, h1, h2⟩ := ih2 fun h => hn (List.mem_cons_of_mem _ h)
    have haa : g.Alt i a := ⟨r0, hi, List.mem_of_getElem? hl⟩
    obtain ⟨vs, h3, h4⟩ := ih1 (hx.freshUse _ _ haa)
    obtain ⟨r', hr', _, hall⟩ := hx.old_rule hi
    obtain ⟨a', ha', hc⟩ := hall l a hl
    rw [← hx.expand_alt haa (hc.imp id fun ⟨h1, _, h2⟩ => ⟨h1, h2⟩)] at h3
    obtain ⟨ws, h5, h6⟩ := hx.dtrees_fold h3
    have hlt := (List.getElem?_eq_some_iff.1 hi).1
    refine ⟨.node i l ws :: us, .nonTerminal ((hx.refers_iff hne).2 hr) hr' ha' h5 h1, ?_⟩
    rw [DTree.splices, DTree.splice, if_neg (by omega), h6, h4, h2]
    rfl

theorem isDTree_from {i : Nat} (hi : i < g.rules.length) {w : Str} {t : DTree} (h : IsDTree g' i w t) :
    ∃ d, t.splice g.rules.length = [d] ∧ IsDTree g i w d := by
  obtain ⟨r', l, a', cs, hr, hl, hd, rfl, hy⟩ := h
  rcases hx.new_rule hr with ⟨rfl, _⟩ | ⟨r0, hr0, hh, hall⟩
  · omega
  · obtain ⟨a, ha, hc⟩ := hall l a' hl
    have haa : g.Alt i a := ⟨r0, hr0, List.mem_of_getElem? ha⟩
    refine ⟨.node i l (DTree.splices g.rules.length cs), by rw [DTree.splice, if_neg (by omega)],
      r0, l, a, _, hr0, ha, ?_, rfl, ?_⟩
    · rw [← hx.expand_alt haa (hc.imp id fun ⟨h1, _, h2⟩ => ⟨h1, h2⟩)]; exact hx.dtrees_from hd
    · rw [← hy]; simp only [DTree.yield, yields_splices]

theorem isDTree_to {i : Nat} {w : Str} {d : DTree} (h : IsDTree g i w d) :
    ∃ t, t.splice g.rules.length = [d] ∧ IsDTree g' i w t := by
  obtain ⟨r0, l, a, cs, hr, hl, hd, rfl, hy⟩ := h
  have hlt := (List.getElem?_eq_some_iff.1 hr).1
  have haa : g.Alt i a := ⟨r0, hr, List.mem_of_getElem? hl⟩
  obtain ⟨us, h1, h2⟩ := hx.dtrees_to hd (hx.freshUse _ _ haa)
  obtain ⟨r', hr', _, hall⟩ := hx.old_rule hr
  obtain ⟨a', ha', hc⟩ := hall l a hl
  rw [← hx.expand_alt haa (hc.imp id fun ⟨h1, _, h2⟩ => ⟨h1, h2⟩)] at h1
  obtain ⟨ws, h5, h6⟩ := hx.dtrees_fold h1
  refine ⟨.node i l ws, by rw [DTree.splice, if_neg (by omega), h6, h2], r', l, a', ws, hr', ha', h5, rfl, ?_⟩
  rw [← hy]
  simp only [DTree.yield]
  rw [← yields_splices g.rules.length ws, h6, h2]

end Extract

/-! ## Any number of edits -/

namespace Reshaped

theorem le (h : Reshaped g g') : g.rules.length ≤ g'.rules.length := by
  induction h with
  | refl => exact Nat.le_refl _
  | step _ he ih => obtain ⟨_, _, _, _, _, _, hx⟩ := he; rw [hx.length]; omega

theorem trans {a b c : Grammar} (h : Reshaped a b) (h' : Reshaped b c) : Reshaped a c := by
  induction h' with
  | refl => exact h
  | step _ he ih => exact .step ih he

theorem sentence_iff (h : Reshaped g g') (w : Str) : Sentence g' w ↔ Sentence g w := by
  induction h with
  | refl => rfl
  | step _ he ih => obtain ⟨_, _, _, _, _, _, hx⟩ := he; rw [hx.sentence_iff, ih]

theorem genRule_iff (h : Reshaped g g') {i : Nat} (hi : i < g.rules.length) (w : Str) :
    GenRule g' i w ↔ GenRule g i w := by
  induction h with
  | refl => rfl
  | step hs he ih =>
    obtain ⟨_, _, _, _, _, _, hx⟩ := he
    rw [hx.genRule_iff (Nat.lt_of_lt_of_le hi hs.le), ih]

theorem isLL1 (h : Reshaped g g') (hl : IsLL1 g) : IsLL1 g' := by
  induction h with
  | refl => exact hl
  | step _ he ih => obtain ⟨_, _, _, _, _, _, hx⟩ := he; exact hx.isLL1 ih

theorem nulFree (h : Reshaped g g') (hl : g.NulFree) : g'.NulFree := by
  induction h with
  | refl => exact hl
  | step _ he ih => obtain ⟨_, _, _, _, _, _, hx⟩ := he; exact hx.nulFree ih

theorem distinct (h : Reshaped g g') (hl : DistinctHeads g) : DistinctHeads g' := by
  induction h with
  | refl => exact hl
  | step _ he ih => obtain ⟨_, _, _, _, _, _, hx⟩ := he; exact hx.distinct ih

theorem wellFormed (h : Reshaped g g') (hl : g.WellFormed) : g'.WellFormed := by
  induction h with
  | refl => exact hl
  | step _ he ih => obtain ⟨_, _, _, _, _, _, hx⟩ := he; exact hx.wellFormed ih

theorem isDTree_from (h : Reshaped g g') {i : Nat} (hi : i < g.rules.length) {w : Str} {t : DTree}
    (ht : IsDTree g' i w t) : ∃ d, t.splice g.rules.length = [d] ∧ IsDTree g i w d := by
  induction h generalizing t with
  | refl =>
    have ht' := ht
    obtain ⟨r', l, a', cs, hr, hl, hd, rfl, hy⟩ := ht
    exact ⟨_, by rw [DTree.splice, if_neg (by omega), splices_own (Nat.le_refl _) hd], ht'⟩
  | step hs he ih =>
    obtain ⟨_, _, _, _, _, _, hx⟩ := he
    obtain ⟨d1, e1, h1⟩ := hx.isDTree_from (Nat.lt_of_lt_of_le hi hs.le) ht
    obtain ⟨d, e, h2⟩ := ih h1
    refine ⟨d, ?_, h2⟩
    rw [← splice_splice hs.le t, e1, DTree.splices, e]
    simp [DTree.splices]

theorem isDTree_to (h : Reshaped g g') {i : Nat} {w : Str} {d : DTree}
    (ht : IsDTree g i w d) : ∃ t, t.splice g.rules.length = [d] ∧ IsDTree g' i w t := by
  induction h with
  | refl =>
    have ht' := ht
    obtain ⟨r', l, a', cs, hr, hl, hd, rfl, hy⟩ := ht
    have := (List.getElem?_eq_some_iff.1 hr).1
    exact ⟨_, by rw [DTree.splice, if_neg (by omega), splices_own (Nat.le_refl _) hd], ht'⟩
  | step hs he ih =>
    obtain ⟨_, _, _, _, _, _, hx⟩ := he
    obtain ⟨d1, e1, h1⟩ := ih
    obtain ⟨t, e, h2⟩ := hx.isDTree_to h1
    refine ⟨t, ?_, h2⟩
    rw [← splice_splice hs.le t, e, DTree.splices, e1]
    simp [DTree.splices]

end Reshaped

/-! ## Repairing all gaps ends -/

theorem sum_set {α : Type} (f : α → Nat) : ∀ (l : List α) (i : Nat) (a b : α), l[i]? = some a →
    ((l.set i b).map f).sum + f a = (l.map f).sum + f b
  | [], i, a, b, h => by simp at h
  | x :: l, 0, a, b, h => by
    simp only [List.getElem?_cons_zero, Option.some.injEq] at h
    subst h
    simp only [List.set_cons_zero, List.map_cons, List.sum_cons]
    omega
  | x :: l, i + 1, a, b, h => by
    simp only [List.getElem?_cons_succ] at h
    have := sum_set f l i a b h
    simp only [List.set_cons_succ, List.map_cons, List.sum_cons]
    omega

/-- The sum of the squares of the lengths of the alternatives of a rule. -/
def ruleWeight (r : Rule) : Nat := (r.tail.sequences.map fun a => a.symbols.length * a.symbols.length).sum
def weight (g : Grammar) : Nat := (g.rules.map ruleWeight).sum

theorem Extract.weight_lt (hx : Extract g g' name j k r pre post) (h1 : 1 ≤ pre.length) (h2 : 2 ≤ post.length) :
    weight g' < weight g := by
  unfold weight
  rw [hx.result, List.map_append, List.sum_append]
  have e1 := sum_set ruleWeight g.rules j r ⟨r.head, ⟨r.tail.sequences.set k ⟨pre ++ [.nonTerminal name]⟩⟩⟩ hx.rule
  have e2 := sum_set (fun a : Sequence => a.symbols.length * a.symbols.length) r.tail.sequences k _
    ⟨pre ++ [.nonTerminal name]⟩ hx.alt
  have e3 : ruleWeight ⟨r.head, ⟨r.tail.sequences.set k ⟨pre ++ [.nonTerminal name]⟩⟩⟩ +
      (pre.length + post.length) * (pre.length + post.length) = ruleWeight r + (pre.length + 1) * (pre.length + 1) := by
    simpa [ruleWeight] using e2
  have e4 : ruleWeight ⟨name, ⟨[⟨post⟩]⟩⟩ = post.length * post.length := by simp [ruleWeight]
  simp only [List.map_cons, List.map_nil, List.sum_cons, List.sum_nil, e4]
  have : (pre.length + 1) * (pre.length + 1) + post.length * post.length <
      (pre.length + post.length) * (pre.length + post.length) := by
    have hpq : pre.length * 2 ≤ pre.length * post.length := Nat.mul_le_mul_left _ h2
    have hcomm := Nat.mul_comm post.length pre.length
    simp only [Nat.add_mul, Nat.mul_add]
    omega
  omega

theorem le_sum_of_mem {n : Nat} : ∀ {l : List Nat}, n ∈ l → n ≤ l.sum
  | x :: l, h => by
    rw [List.sum_cons]
    rcases List.mem_cons.1 h with rfl | h
    · omega
    · have := le_sum_of_mem h; omega

/-- There is always a name that the grammar does not use, as long as one likes, of letters `x`. -/
theorem fresh_name (g : Grammar) : ∃ name : Str, (∀ i, ¬ g.Head i name) ∧
    (∀ i alt, g.Alt i alt → Symbol.nonTerminal name ∉ alt.symbols) := by
  let names : List Str := g.rules.flatMap fun r => r.head :: r.tail.sequences.flatMap fun a =>
    a.symbols.flatMap fun | .nonTerminal n => [n] | _ => []
  have hn : ∃ name : Str, name ∉ names := by
    refine ⟨List.replicate ((names.map List.length).sum + 1) 120, fun h => ?_⟩
    have := le_sum_of_mem (List.mem_map_of_mem (f := List.length) h)
    simp at this
    omega
  obtain ⟨name, hn⟩ := hn
  refine ⟨name, ?_, ?_⟩
  · rintro i ⟨r, hr, rfl⟩
    exact hn (List.mem_flatMap.2 ⟨r, List.mem_of_getElem? hr, List.mem_cons_self ..⟩)
  · rintro i alt ⟨r, hr, ha⟩ hm
    exact hn (List.mem_flatMap.2 ⟨r, List.mem_of_getElem? hr, List.mem_cons_of_mem _
      (List.mem_flatMap.2 ⟨alt, ha, List.mem_flatMap.2 ⟨_, hm, by simp⟩⟩)⟩)

/-- The edit is possible at every place of every alternative. -/
theorem extract_exists {i : Nat} {alt : Sequence} (ha : g.Alt i alt) (hs : alt.symbols = pre ++ post) (hp : post ≠ []) :
    ∃ g' name k r, Extract g g' name i k r pre post := by
  obtain ⟨r, hr, hm⟩ := ha
  obtain ⟨k, hk⟩ := List.mem_iff_getElem?.1 hm
  obtain ⟨name, h1, h2⟩ := fresh_name g
  have : alt = ⟨pre ++ post⟩ := by cases alt; simp only at hs; rw [hs]
  subst this
  exact ⟨⟨_⟩, name, k, r, hr, hk, hp, rfl, h1, h2⟩

theorem gap_free (g : Grammar) : ∃ g', Reshaped g g' ∧ NoNullableGap g' := by
  by_cases h : NoNullableGap g
  · exact ⟨g, .refl, h⟩
  · unfold NoNullableGap at h
    push Not at h
    obtain ⟨i, alt, pre, n, next, post, ha, hs, _, hp⟩ := h
    obtain ⟨g1, name, k, r, hx⟩ := extract_exists (pre := pre ++ [.nonTerminal n]) (post := next :: post) ha
      (by rw [hs]; simp) (by simp)
    have hlt : weight g1 < weight g := hx.weight_lt (by simp) (by
      cases post with
      | nil => exact (hp rfl).elim
      | cons _ _ => simp)
    obtain ⟨g', h1, h2⟩ := gap_free g1
    exact ⟨g', Reshaped.trans (.step .refl ⟨_, _, _, _, _, _, hx⟩) h1, h2⟩
termination_by weight g

end LL1
