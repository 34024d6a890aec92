import Verif.Model.Slices
import Verif.Props.FromCst

/-!
# C62: `ToAST` and the caller's `IgnoreNodeTypes` slice
-/

namespace LL1
namespace FC

/-- Two slices do not share an element. -/
def Slice.Disjoint (s t : Slice) : Prop := s.arr ≠ t.arr ∨ s.off + s.len ≤ t.off ∨ t.off + t.len ≤ s.off

theorem insertInt_perm (x : Int) (l : List Int) : (insertInt x l).Perm (x :: l) := by
  induction l with
  | nil => exact .refl _
  | cons y l ih =>
    unfold insertInt
    split
    · exact .refl _
    · exact (ih.cons y).trans (.swap x y l)

theorem sortInts_perm (l : List Int) : (sortInts l).Perm l := by
  induction l with
  | nil => exact .refl _
  | cons x l ih => exact (insertInt_perm x _).trans (ih.cons x)

/-- A list has one sorted rearrangement, so any correct sorting algorithm leaves the same memory. -/
theorem sortInts_unique (l m : List Int) (hp : m.Perm l) (hs : m.Pairwise (· ≤ ·)) : m = sortInts l :=
  List.Perm.eq_of_pairwise (le := (· ≤ ·)) (fun _ _ _ _ h1 h2 => Int.le_antisymm h1 h2) hs
    (sorted_sortInts l) (hp.trans (sortInts_perm l).symm)

theorem Heap.length_write (h : Heap) (s : Slice) (l : List Int) (hv : s.Valid h) (hl : l.length = s.len) (a : Nat) :
    (h.write s l a).length = (h a).length := by
  unfold Heap.write
  split
  · next e =>
    subst e
    unfold Slice.Valid at hv
    simp only [List.length_append, List.length_take, List.length_drop, hl]
    omega
  · rfl

theorem Heap.length_read (h : Heap) (s : Slice) (hv : s.Valid h) : (h.read s).length = s.len := by
  unfold Heap.read Slice.Valid at *
  simp only [List.length_take, List.length_drop]
  omega

theorem Heap.read_write (h : Heap) (s : Slice) (l : List Int) (hv : s.Valid h) (hl : l.length = s.len) :
    (h.write s l).read s = l := by
  unfold Heap.read Heap.write Slice.Valid at *
  rw [if_pos rfl, List.append_assoc, List.drop_append_of_le_length (by simp; omega)]
  rw [List.drop_of_length_le (by simp; omega), List.nil_append, List.take_append_of_le_length (by omega),
    List.take_of_length_le (by omega)]

theorem Heap.getElem_write_outside (h : Heap) (s : Slice) (l : List Int) (hv : s.Valid h) (hl : l.length = s.len)
    (a i : Nat) (hout : a ≠ s.arr ∨ i < s.off ∨ s.off + s.len ≤ i) : (h.write s l a)[i]? = (h a)[i]? := by
  unfold Heap.write Slice.Valid at *
  split
  · next e =>
    subst e
    rcases hout with hout | hout | hout
    · exact absurd rfl hout
    · rw [List.append_assoc, List.getElem?_append_left (by simp; omega), List.getElem?_take_of_lt hout]
    · rw [List.getElem?_append_right (by simp; omega), List.getElem?_drop]
      congr 1
      simp only [List.length_append, List.length_take]
      omega
  · rfl

theorem Heap.read_write_disjoint (h : Heap) (s t : Slice) (l : List Int) (hv : s.Valid h) (hl : l.length = s.len)
    (hd : s.Disjoint t) : (h.write s l).read t = h.read t := by
  unfold Heap.read
  apply List.ext_getElem?
  intro i
  simp only [List.getElem?_take]
  split
  · next hi =>
    rw [List.getElem?_drop, List.getElem?_drop]
    apply Heap.getElem_write_outside h s l hv hl
    rcases hd with hd | hd | hd
    · exact .inl (Ne.symm hd)
    · exact .inr (.inr (by omega))
    · exact .inr (.inl (by omega))
  · rfl

/-- **C62.** What a call returns and what it does to memory: the result is that of `ToAST` on the listed types;
the caller's slice afterwards holds the same elements in ascending order; nothing else in memory changes. -/
theorem C62_effect (b : BindingsRef) (h : Heap) (hv : b.ignore.Valid h) (root : Node) (str : Str) :
    (b.toAST h root str).1 = (b.value h).toAST root str ∧
    ((b.toAST h root str).2.read b.ignore).Perm (h.read b.ignore) ∧
    ((b.toAST h root str).2.read b.ignore).Pairwise (· ≤ ·) ∧
    (∀ a, ((b.toAST h root str).2 a).length = (h a).length) ∧
    ∀ a i, (a ≠ b.ignore.arr ∨ i < b.ignore.off ∨ b.ignore.off + b.ignore.len ≤ i) →
      ((b.toAST h root str).2 a)[i]? = (h a)[i]? := by
  have hl : (sortInts (h.read b.ignore)).length = b.ignore.len := by
    rw [(sortInts_perm _).length_eq, Heap.length_read h _ hv]
  have hr : (h.sort b.ignore).read b.ignore = sortInts (h.read b.ignore) := Heap.read_write h _ _ hv hl
  refine ⟨?_, ?_, ?_, ?_, ?_⟩
  · show ((b.value (h.sort b.ignore)).toASTBody root str) = _
    unfold BindingsRef.value Bindings.toAST
    rw [hr]
  · show ((h.sort b.ignore).read b.ignore).Perm _
    rw [hr]; exact sortInts_perm _
  · show ((h.sort b.ignore).read b.ignore).Pairwise _
    rw [hr]; exact sorted_sortInts _
  · exact fun a => Heap.length_write h _ _ hv hl a
  · exact fun a i hout => Heap.getElem_write_outside h _ _ hv hl a i hout

/-- A list in ascending order is left exactly as it was. -/
theorem C62_sorted_untouched (b : BindingsRef) (h : Heap) (hv : b.ignore.Valid h)
    (hs : (h.read b.ignore).Pairwise (· ≤ ·)) (root : Node) (str : Str) : (b.toAST h root str).2 = h := by
  obtain ⟨-, hp, ho, hlen, hout⟩ := C62_effect b h hv root str
  have he : (b.toAST h root str).2.read b.ignore = h.read b.ignore := by
    rw [sortInts_unique _ _ hp ho, ← sortInts_unique _ _ (.refl _) hs]
  funext a
  apply List.ext_getElem?
  intro i
  by_cases hin : a ≠ b.ignore.arr ∨ i < b.ignore.off ∨ b.ignore.off + b.ignore.len ≤ i
  · exact hout a i hin
  · have ha : a = b.ignore.arr := by
      by_cases e : a = b.ignore.arr
      · exact e
      · exact absurd (.inl e) hin
    subst ha
    have hi : b.ignore.off ≤ i ∧ i < b.ignore.off + b.ignore.len := by
      constructor
      · apply Nat.le_of_not_lt; intro e; exact hin (.inr (.inl e))
      · apply Nat.lt_of_not_le; intro e; exact hin (.inr (.inr e))
    have := congrArg (fun l : List Int => l[i - b.ignore.off]?) he
    simp only [Heap.read, List.getElem?_take, List.getElem?_drop] at this
    rw [if_pos (by omega), if_pos (by omega), Nat.add_sub_cancel' hi.1] at this
    exact this

/-- **C62.** In a sequence of `ToAST` calls whose slices are pairwise identical or disjoint (the bindings may be
shared and reused freely), every call returns what it would return as the first call: no call influences another. -/
theorem C62_history (calls : List Call) (h : Heap)
    (hv : ∀ c ∈ calls, c.bindings.ignore.Valid h)
    (hd : ∀ c ∈ calls, ∀ d ∈ calls,
      c.bindings.ignore = d.bindings.ignore ∨ c.bindings.ignore.Disjoint d.bindings.ignore) :
    (runCalls h calls).1 = calls.map fun c => (c.bindings.value h).toAST c.root c.str := by
  induction calls generalizing h with
  | nil => rfl
  | cons c cs ih =>
    have hvc := hv c (.head _)
    obtain ⟨h1, hp, -, hlen, hout⟩ := C62_effect c.bindings h hvc c.root c.str
    show (c.bindings.toAST h c.root c.str).1 :: (runCalls (c.bindings.toAST h c.root c.str).2 cs).1 = _ :: _
    rw [h1, ih (c.bindings.toAST h c.root c.str).2]
    · congr 1
      apply List.map_congr_left
      intro d hdm
      rcases hd c (.head _) d (.tail _ hdm) with e | e
      · have := C43_set (d.bindings.value h) (((c.bindings.toAST h c.root c.str).2).read d.bindings.ignore)
          (fun t => by rw [← e]; show _ ↔ t ∈ h.read d.bindings.ignore; rw [← e]; exact hp.mem_iff) d.root d.str
        exact this
      · have hl : (sortInts (h.read c.bindings.ignore)).length = c.bindings.ignore.len := by
          rw [(sortInts_perm _).length_eq, Heap.length_read h _ hvc]
        have : ((c.bindings.toAST h c.root c.str).2).read d.bindings.ignore = h.read d.bindings.ignore :=
          Heap.read_write_disjoint h _ _ _ hvc hl e
        unfold BindingsRef.value
        rw [this]
    · intro d hdm
      unfold Slice.Valid
      rw [hlen]
      exact hv d (.tail _ hdm)
    · exact fun x hx y hy => hd x (.tail _ hx) y (.tail _ hy)

/-- One binding shared by three calls and another with its own array: the hypotheses hold. -/
example : let h : Heap := fun a => if a = 0 then [25, 3, 24] else if a = 1 then [7, 25] else []
    let b : BindingsRef := ⟨⟨0, 0, 3⟩, selfBindings⟩
    let b' : BindingsRef := ⟨⟨1, 0, 2⟩, selfBindings⟩
    let n : Node := .mk 0 0 0 []
    let calls : List Call := [⟨b, n, []⟩, ⟨b', n, []⟩, ⟨b, n, []⟩, ⟨b, n, []⟩]
    (∀ c ∈ calls, c.bindings.ignore.Valid h) ∧
    (∀ c ∈ calls, ∀ d ∈ calls,
      c.bindings.ignore = d.bindings.ignore ∨ c.bindings.ignore.Disjoint d.bindings.ignore) ∧
    (runCalls h calls).2 0 = [3, 24, 25] := by
  refine ⟨?_, ?_, by decide⟩ <;> simp [Slice.Valid, Slice.Disjoint]

/-- The tree of the last example of `Props/FromCst.lean`: one rule, and a second rule below a node of type 25. -/
def overlapTree : Node :=
  .mk 0 0 9 [.mk 4 0 9 [.mk 18 1 2 [], .mk 5 6 9 [.mk 7 6 9 [.mk 9 6 9
      [.mk 11 7 8 [.mk (-1) 7 8 []]]]]], .mk 25 9 9 [.mk 4 0 9 []]]

/-- **C62.** The condition on sharing is needed.  Two bindings whose lists are overlapping parts of one array
`[30, 25, 26]` — the first two and the last two elements: after a call with the first binding, a call with the second
one, which used to succeed, fails, because sorting moved 25 out of its list. -/
theorem C62_overlap : let h : Heap := fun a => if a = 0 then [30, 25, 26] else []
    let b₁ : BindingsRef := ⟨⟨0, 0, 2⟩, selfBindings⟩
    let b₂ : BindingsRef := ⟨⟨0, 1, 2⟩, selfBindings⟩
    (b₂.toAST h overlapTree b!"<a>::=\"b\"").1 = .ok ⟨[⟨b!"a", ⟨[⟨[.terminal b!"b"]⟩]⟩⟩]⟩ ∧
    (b₂.toAST (b₁.toAST h overlapTree b!"<a>::=\"b\"").2 overlapTree b!"<a>::=\"b\"").1 =
      .err (.noRuleName b!"<a>::=\"b\"") := by
  decide +kernel

end FC
end LL1
