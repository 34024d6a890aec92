import Verif.Proofs.TableFirst

/-! # The fix-point loops of the table generator: growth and termination -/

namespace LL1
namespace TG

/-! ## Size of a list of sets -/

def card (s : ByteSet) : Nat := (ByteSet.allBytes.filter s.contains).length

theorem card_le (s : ByteSet) : card s ≤ 256 := by
  have := List.length_filter_le s.contains ByteSet.allBytes
  have h : ByteSet.allBytes.length = 256 := by decide +kernel
  unfold card; omega

theorem filter_length_lt {α : Type} {p q : α → Bool} {l : List α} (hpq : ∀ a, p a = true → q a = true)
    {a : α} (ha : a ∈ l) (hq : q a = true) (hp : p a = false) :
    (l.filter p).length < (l.filter q).length := by
  have hle : ∀ m : List α, (m.filter p).length ≤ (m.filter q).length := by
    intro m
    induction m with
    | nil => simp
    | cons x m ih =>
      by_cases hx : p x = true
      · simp [hx, hpq x hx]; exact ih
      · by_cases hx' : q x = true
        · simp [hx, hx']; omega
        · simp [hx, hx']; exact ih
  induction l with
  | nil => simp at ha
  | cons x l ih =>
    rcases List.mem_cons.1 ha with rfl | ha'
    · have := hle l
      simp [hq, hp]; omega
    · have := ih ha'
      by_cases hx : p x = true
      · simp [hx, hpq x hx]; exact this
      · by_cases hx' : q x = true
        · simp [hx, hx']; omega
        · simp [hx, hx']; exact this

theorem card_union_lt {s t : ByteSet} (h : ¬ s.isSuperSet t = true) : card s < card (s.union t) := by
  rw [ByteSet.isSuperSet_iff] at h
  simp only [Classical.not_forall] at h
  obtain ⟨b, hb, hb'⟩ := h
  refine filter_length_lt ?_ (ByteSet.mem_allBytes b) ?_ (by simpa using hb')
  · intro a ha; rw [ByteSet.contains_union]; simp [ha]
  · rw [ByteSet.contains_union]; simp [hb]

def total (sets : List ByteSet) : Nat := (sets.map card).sum

theorem total_le (sets : List ByteSet) : total sets ≤ 256 * sets.length := by
  induction sets with
  | nil => simp [total]
  | cons s ss ih =>
    have := card_le s
    simp only [total, List.map_cons, List.sum_cons, List.length_cons] at *
    omega

theorem total_set {sets : List ByteSet} {i : Nat} {s a : ByteSet} (h : sets[i]? = some s) :
    total (sets.set i a) + card s = total sets + card a := by
  induction sets generalizing i with
  | nil => simp at h
  | cons x xs ih =>
    cases i with
    | zero =>
      simp only [List.getElem?_cons_zero, Option.some.injEq] at h
      subst h
      simp only [total, List.set_cons_zero, List.map_cons, List.sum_cons]; omega
    | succ i =>
      simp only [List.getElem?_cons_succ] at h
      have := ih h
      simp only [total, List.set_cons_succ, List.map_cons, List.sum_cons] at *
      omega

/-! ## Growth -/

/-- One piece of work on `(sets, changed)`. -/
structure Grow (st st' : List ByteSet × Bool) : Prop where
  len : st'.1.length = st.1.length
  sub : ∀ i b, Has st.1 i b → Has st'.1 i b
  eqOrLt : st' = st ∨ st'.2 = true ∧ total st.1 < total st'.1

theorem Grow.refl (st : List ByteSet × Bool) : Grow st st := ⟨rfl, fun _ _ h => h, .inl rfl⟩

theorem Grow.trans {a b c : List ByteSet × Bool} (h : Grow a b) (h' : Grow b c) : Grow a c := by
  refine ⟨h'.len.trans h.len, fun i x hx => h'.sub i x (h.sub i x hx), ?_⟩
  rcases h.eqOrLt with rfl | ⟨h1, h2⟩
  · exact h'.eqOrLt
  · rcases h'.eqOrLt with rfl | ⟨h3, h4⟩
    · exact .inr ⟨h1, h2⟩
    · exact .inr ⟨h3, Nat.lt_trans h2 h4⟩

/-- If the flag is down at the end nothing happened. -/
theorem Grow.unchanged {a b : List ByteSet × Bool} (h : Grow a b) (hb : b.2 = false) : b = a := by
  rcases h.eqOrLt with h | ⟨h, _⟩
  · exact h
  · simp [hb] at h

/-- Enlarging one of the sets. -/
theorem grow_set {sets : List ByteSet} {flag : Bool} {i : Nat} {s t : ByteSet} (h : sets[i]? = some s)
    (hn : ¬ s.isSuperSet t = true) : Grow (sets, flag) (sets.set i (s.union t), true) := by
  refine ⟨by simp, ?_, .inr ⟨rfl, ?_⟩⟩
  · rintro j b ⟨u, hu, hb⟩
    have hi : i < sets.length := (List.getElem?_eq_some_iff.1 h).1
    by_cases hij : i = j
    · subst hij
      refine ⟨s.union t, by simp [hi], ?_⟩
      rw [h] at hu; cases hu
      rw [ByteSet.contains_union]; simp [hb]
    · exact ⟨u, by simp [hij, hu], hb⟩
  · have := total_set (a := s.union t) h
    have := card_union_lt hn
    simp only; omega

/-! ## `forEach` -/

theorem forEach_grow {f : Nat → (List ByteSet × Bool) → R (List ByteSet × Bool)} {is : List Nat}
    (hf : ∀ i ∈ is, ∀ s s', f i s = .ok s' → Grow s s') :
    ∀ s s', forEach f is s = .ok s' → Grow s s' := by
  induction is with
  | nil =>
    intro s s' h
    simp only [forEach, Res.ok.injEq] at h; subst h; exact Grow.refl _
  | cons i is ih =>
    intro s s' h
    simp only [forEach] at h
    rw [Res.bind_eq_ok] at h
    obtain ⟨m, hm, h⟩ := h
    exact (hf i (by simp) s m hm).trans
      (ih (fun j hj => hf j (List.mem_cons_of_mem _ hj)) m s' h)

theorem forEach_unchanged {f : Nat → (List ByteSet × Bool) → R (List ByteSet × Bool)} {is : List Nat}
    (hf : ∀ i ∈ is, ∀ s s', f i s = .ok s' → Grow s s') :
    ∀ s s', forEach f is s = .ok s' → s'.2 = false → ∀ i ∈ is, f i s = .ok s := by
  induction is with
  | nil => intro s s' _ _ i hi; simp at hi
  | cons i is ih =>
    intro s s' h hs' j hj
    simp only [forEach] at h
    rw [Res.bind_eq_ok] at h
    obtain ⟨m, hm, h⟩ := h
    have g1 := hf i (by simp) s m hm
    have hf' := fun j hj => hf j (List.mem_cons_of_mem i hj)
    have g2 := forEach_grow hf' m s' h
    have e2 := g2.unchanged hs'
    have e1 := g1.unchanged (by rw [← e2]; exact hs')
    rcases List.mem_cons.1 hj with rfl | hj'
    · rw [hm, e1]
    · have := ih hf' m s' h hs' j hj'
      rwa [e1] at this

theorem forEach_inv {σ : Type} {f : Nat → σ → R σ} {is : List Nat} {P : σ → Prop}
    (hf : ∀ i ∈ is, ∀ s s', P s → f i s = .ok s' → P s') :
    ∀ s s', P s → forEach f is s = .ok s' → P s' := by
  induction is with
  | nil =>
    intro s s' hp h
    simp only [forEach, Res.ok.injEq] at h; subst h; exact hp
  | cons i is ih =>
    intro s s' hp h
    simp only [forEach] at h
    rw [Res.bind_eq_ok] at h
    obtain ⟨m, hm, h⟩ := h
    exact ih (fun j hj => hf j (List.mem_cons_of_mem _ hj)) m s' (hf i (by simp) s m hp hm) h

theorem forEach_total {σ : Type} {f : Nat → σ → R σ} {is : List Nat} {P : σ → Prop}
    (hf : ∀ i ∈ is, ∀ s, P s → ∃ s', f i s = .ok s' ∧ P s') :
    ∀ s, P s → ∃ s', forEach f is s = .ok s' ∧ P s' := by
  induction is with
  | nil => intro s hp; exact ⟨s, rfl, hp⟩
  | cons i is ih =>
    intro s hp
    obtain ⟨m, hm, hp'⟩ := hf i (by simp) s hp
    obtain ⟨s', hs', hp''⟩ := ih (fun j hj => hf j (List.mem_cons_of_mem _ hj)) m hp'
    exact ⟨s', by simp [forEach, hm, hs'], hp''⟩

theorem forEach_ne_diverge {σ : Type} {f : Nat → σ → R σ} {is : List Nat}
    (hf : ∀ i ∈ is, ∀ s, f i s ≠ .diverge) : ∀ s, forEach f is s ≠ .diverge := by
  induction is with
  | nil => intro s; simp [forEach]
  | cons i is ih =>
    intro s
    simp only [forEach]
    rw [ne_eq, Res.bind_eq_diverge]
    rintro (h | ⟨m, _, h⟩)
    · exact hf i (by simp) s h
    · exact ih (fun j hj => hf j (List.mem_cons_of_mem _ hj)) m h

/-! ## The `for changed` loop -/

/-- Common shape of `findFirstsLoop` and `findFollowsLoop`. -/
def fixLoop (pass : List ByteSet → R (List ByteSet × Bool)) : Nat → List ByteSet → R (List ByteSet)
  | 0, _ => .diverge
  | fuel + 1, sets => do
    let (sets, changed) ← pass sets
    if changed then fixLoop pass fuel sets else return sets

theorem findFirstsLoop_eq (tg : Gen) (fuel : Nat) (sets : List ByteSet) :
    findFirstsLoop tg fuel sets = fixLoop (firstsPass tg) fuel sets := by
  induction fuel generalizing sets with
  | zero => rfl
  | succ n ih =>
    simp only [findFirstsLoop, fixLoop]
    congr 1; funext p; rw [ih]

theorem findFollowsLoop_eq (tg : Gen) (firsts : List ByteSet) (fuel : Nat) (sets : List ByteSet) :
    findFollowsLoop tg firsts fuel sets = fixLoop (followsPass tg firsts) fuel sets := by
  induction fuel generalizing sets with
  | zero => rfl
  | succ n ih =>
    simp only [findFollowsLoop, fixLoop]
    congr 1; funext p; rw [ih]

theorem fixLoop_ne_diverge {pass : List ByteSet → R (List ByteSet × Bool)}
    (hd : ∀ s, pass s ≠ .diverge) (hg : ∀ s s', pass s = .ok s' → Grow (s, false) s') :
    ∀ (fuel : Nat) (sets : List ByteSet), 256 * sets.length < fuel + total sets →
      fixLoop pass fuel sets ≠ .diverge := by
  intro fuel
  induction fuel with
  | zero => intro sets h; have := total_le sets; omega
  | succ n ih =>
    intro sets h
    simp only [fixLoop]
    rw [ne_eq, Res.bind_eq_diverge]
    rintro (h1 | ⟨⟨s', ch⟩, h1, h2⟩)
    · exact hd _ h1
    · have hgr := hg _ _ h1
      cases ch with
      | false => simp at h2
      | true =>
        simp only [if_true] at h2
        rcases hgr.eqOrLt with h3 | ⟨_, h3⟩
        · simp at h3
        · have hl := hgr.len
          simp only at h3 hl
          exact ih s' (by rw [hl]; omega) h2

/-- A successful fix-point loop ends in an unchanged pass, and preserves invariants. -/
theorem fixLoop_ok {pass : List ByteSet → R (List ByteSet × Bool)} {P : List ByteSet → Prop}
    (hg : ∀ s s', pass s = .ok s' → Grow (s, false) s')
    (hP : ∀ s s', P s → pass s = .ok s' → P s'.1) :
    ∀ (fuel : Nat) (sets res : List ByteSet), P sets → fixLoop pass fuel sets = .ok res →
      P res ∧ pass res = .ok (res, false) ∧ res.length = sets.length ∧
      (∀ i b, Has sets i b → Has res i b) := by
  intro fuel
  induction fuel with
  | zero => intro sets res _ h; simp [fixLoop] at h
  | succ n ih =>
    intro sets res hp h
    simp only [fixLoop] at h
    rw [Res.bind_eq_ok] at h
    obtain ⟨⟨s', ch⟩, h1, h2⟩ := h
    have hgr := hg _ _ h1
    cases ch with
    | false =>
      have := hgr.unchanged rfl
      simp only [Bool.false_eq_true, if_false, Res.pure_eq, Res.ok.injEq] at h2
      subst h2
      simp only [Prod.mk.injEq, and_true] at this
      subst this
      exact ⟨hp, h1, rfl, fun _ _ h => h⟩
    | true =>
      simp only [if_true] at h2
      obtain ⟨a, b, c, d⟩ := ih s' res (hP _ _ hp h1) h2
      exact ⟨a, b, c.trans hgr.len, fun i x hx => d i x (hgr.sub i x hx)⟩

theorem fixLoop_total {pass : List ByteSet → R (List ByteSet × Bool)} {P : List ByteSet → Prop}
    (hP : ∀ s, P s → ∃ s', pass s = .ok s' ∧ P s'.1) :
    ∀ (fuel : Nat) (sets : List ByteSet), P sets →
      (∃ res, fixLoop pass fuel sets = .ok res ∧ P res) ∨ fixLoop pass fuel sets = .diverge := by
  intro fuel
  induction fuel with
  | zero => intro sets _; exact .inr rfl
  | succ n ih =>
    intro sets hp
    obtain ⟨⟨s', ch⟩, h1, h2⟩ := hP sets hp
    simp only [fixLoop, h1, Res.ok_bind]
    cases ch with
    | false => left; exact ⟨s', by simp, h2⟩
    | true => simpa using ih s' h2

end TG
end LL1
