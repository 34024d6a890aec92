import Verif.Proofs.ToAstGraph
import Verif.Props.Slices
import Verif.Props.WalkGraph

/-!
# C84: `ToAST` on any nodes: shared, cyclic, nil, with any positions
-/

namespace LL1
namespace FC

variable {N N' : Type}

/-! ## Ways down -/

theorem seen_nil (V : NodeView N) (x : Option N) :
    V.seen x [] = match x with | none => some none | some n => some (some (V.type n, V.pos n, V.stop n)) := by
  cases x <;> rfl

theorem seen_cons (V : NodeView N) (n : N) (i : Nat) (path : List Nat) :
    V.seen (some n) (i :: path) = match (V.kids n)[i]? with | none => none | some c => V.seen c path := by
  unfold NodeView.seen
  simp only [entryAt]
  cases (V.kids n)[i]? <;> rfl

theorem seen_ne_none (V : NodeView N) (x : Option N) : V.seen x [] ≠ none := by
  rw [seen_nil]; cases x <;> simp

theorem allPairs_of_get {α β : Type} {R : α → β → Prop} : ∀ {xs : List α} {ys : List β},
    (∀ i : Nat, xs[i]? = none ↔ ys[i]? = none) → (∀ (i : Nat) x y, xs[i]? = some x → ys[i]? = some y → R x y) → AllPairs R xs ys
  | [], [], _, _ => .nil
  | [], y :: ys, h, _ => by have := (h 0).1 rfl; simp at this
  | x :: xs, [], h, _ => by have := (h 0).2 rfl; simp at this
  | x :: xs, y :: ys, h, h' => .cons (h' 0 x y rfl rfl)
      (allPairs_of_get (fun i => by simpa using h (i + 1)) fun i x y hx hy => h' (i + 1) x y (by simpa using hx) (by simpa using hy))

theorem LooksLike.kids {V : NodeView N} {V' : NodeView N'} {n : N} {n' : N'} (h : LooksLike V (some n) V' (some n')) :
    AllPairs (fun x x' => LooksLike V x V' x') (V.kids n) (V'.kids n') := by
  have hc : ∀ (i : Nat) path, (match (V.kids n)[i]? with | none => none | some c => V.seen c path) =
      (match (V'.kids n')[i]? with | none => none | some c => V'.seen c path) := by
    intro i path
    have := h (i :: path)
    rwa [seen_cons, seen_cons] at this
  refine allPairs_of_get (fun i => ?_) (fun i x y hx hy path => ?_)
  · have := hc i []
    cases hx : (V.kids n)[i]? <;> cases hy : (V'.kids n')[i]? <;> simp only [hx, hy] at this ⊢
    · exact absurd this.symm (seen_ne_none _ _)
    · exact absurd this (seen_ne_none _ _)
    · simp
  · have := hc i path
    simpa only [hx, hy] using this

/-- Both conversions give the same. -/
def lookSim (V : NodeView N) (V' : NodeView N') (str : Str) : Sim V V' str where
  Rel x y := x = y
  S _ d d' x x' := d = d' ∧ LooksLike V x V' x'
  rel_pure _ := rfl
  rel_bind h h' := by subst h; exact congrArg _ (funext h')
  zero h _ _ hy := (hy h.1.symm).symm
  zero' h := by simp at h
  nil _ _ := rfl
  nil_left h := by have := h.2 []; simp [seen_nil] at this
  nil_right h := by have := h.2 []; simp [seen_nil] at this
  type h := by have := h.2 []; simp [seen_nil] at this; exact this.1
  slice h := by have := h.2 []; simp only [seen_nil, Option.some.injEq, Prod.mk.injEq] at this; rw [this.2.1, this.2.2]
  kids h := by
    have h1 := h.1
    have hk := h.2.kids
    simp only [Nat.add_right_cancel_iff] at h1
    subst h1
    exact allPairs_of_get (fun i => (allPairs_get hk i).1) fun i x y hx hy => ⟨rfl, (allPairs_get hk i).2 x y hx hy⟩
  nest h := ⟨by have := h.1; omega, h.2⟩
where
  allPairs_get {α β : Type} {R : α → β → Prop} {xs : List α} {ys : List β} (h : AllPairs R xs ys) : ∀ i : Nat,
      (xs[i]? = none ↔ ys[i]? = none) ∧ ∀ x y, xs[i]? = some x → ys[i]? = some y → R x y := by
    induction h with
    | nil => intro i; simp
    | cons h1 _ ih =>
      intro i
      cases i with
      | zero => simp; exact h1
      | succ i => simpa using ih i

/-- **C84.** `ToAST` sees of its nodes only what the ways down from the root show: for two roots, of whatever
implementations, that look the same along every way — for example a graph with shared nodes and the tree it unfolds to —
it returns the same, or panics the same way, or overflows the stack for the same stack sizes. -/
theorem C84_sharing_invisible (b : Bindings) (V : NodeView N) (x : Option N) (V' : NodeView N') (x' : Option N')
    (h : LooksLike V x V' x') (str : Str) (depth : Nat) : b.toASTG V depth x str = b.toASTG V' depth x' str :=
  (lookSim V V' str).toAST b (k := 0) ⟨rfl, h⟩

/-- **C84.** On trees made by `NewNode` this is the `ToAST` of the other properties, as soon as the stack holds six more
calls of `Walk` than the tree is high. -/
theorem C84_own_nodes (b : Bindings) (t : Node) (str : Str) (h : Nat) (hh : IsHeight t h) (depth : Nat)
    (hd : h + 6 ≤ depth) :
    b.toASTG ownView depth (some t) str = asD (b.toAST t str) ∧ b.toAST t str ≠ .diverge := by
  refine toASTG_own b str t depth ?_
  obtain ⟨⟨p, n, f1, f2⟩, _⟩ := isHeight_heightOf t
  have := hh.2 _ _ f1
  omega

/-- With more stack the result stays the same. -/
def deepSim (V : NodeView N) (str : Str) : Sim V V str where
  Rel x y := x = overflow ∨ x = y
  S _ d d' x x' := d ≤ d' ∧ x = x'
  rel_pure _ := .inr rfl
  rel_bind {α β x y f g} h h' := by
    rcases h with rfl | rfl
    · exact .inl rfl
    · rcases x with _ | p | a
      · exact .inl rfl
      · exact .inr rfl
      · exact h' a
  zero _ _ _ _ := .inl rfl
  zero' h := by have := h.1; omega
  nil _ _ := .inr rfl
  nil_left h := by cases h.2
  nil_right h := by cases h.2
  type h := by cases h.2; rfl
  slice h := by cases h.2; exact .inr rfl
  kids {k d d' n n'} h := by
    cases h.2
    have : d ≤ d' := by have := h.1; omega
    generalize V.kids n = l
    induction l with
    | nil => exact .nil
    | cons a l ih => exact .cons ⟨this, rfl⟩ ih
  nest h := ⟨by have := h.1; omega, h.2⟩

/-- **C84.** The result does not depend on the size of the stack: if `ToAST` does not overflow it, it gives the same with
every larger one. -/
theorem C84_stack_size (b : Bindings) (V : NodeView N) (x : Option N) (str : Str) (depth depth' : Nat)
    (hd : depth ≤ depth') (h : ¬ (b.toASTG V depth x str).Overflows) :
    b.toASTG V depth' x str = b.toASTG V depth x str := by
  rcases (deepSim V str).toAST b (k := 0) (x := x) (x' := x) ⟨hd, rfl⟩ with h' | h'
  · exact absurd (congrArg ExceptT.run h') h
  · exact h'.symm

/-! ## Panics -/

theorem entryAt_kid {kids : N → List (Option N)} {n : N} {c : Option N} (hc : c ∈ kids n) :
    ∃ i, ∀ path, entryAt kids (some n) (i :: path) = entryAt kids c path := by
  obtain ⟨i, hi⟩ := List.mem_iff_getElem?.1 hc
  exact ⟨i, fun path => by simp [entryAt, hi]⟩

theorem allPairs_self {α : Type} {R : α → α → Prop} {l : List α} (h : ∀ a ∈ l, R a a) : AllPairs R l l := by
  induction l with
  | nil => exact .nil
  | cons a l ih => exact .cons (h a (.head _)) (ih fun a ha => h a (.tail _ ha))

/-- A property of one conversion. -/
def oneSim (V : NodeView N) (str : Str) (P : ∀ {α : Type}, D α → Prop) (I : Nat → Nat → Option N → Prop)
    (h_pure : ∀ {α : Type} (a : α), P (pure a)) (h_bind : ∀ {α β : Type} (x : D α) (f : α → D β), P x → (∀ a, P (f a)) → P (x >>= f))
    (h_zero : ∀ {k x}, I k 0 x → ∀ {α : Type}, P (overflow : D α))
    (h_nil : ∀ {k d}, I k (d + 1) none → ∀ {α : Type}, P (throw .nilNode : D α))
    (h_slice : ∀ {k d n}, I k d (some n) → P (sliceG str (V.pos n) (V.stop n)))
    (h_kids : ∀ {k d n c}, I k (d + 1) (some n) → c ∈ V.kids n → I k d c)
    (h_nest : ∀ {k d n}, I (k + 1) (d + 1) (some n) → I k d (some n)) : Sim V V str where
  Rel x _ := P x
  S k d d' x x' := d = d' ∧ x = x' ∧ I k d x
  rel_pure a := h_pure a
  rel_bind h h' := h_bind _ _ h h'
  zero h _ _ _ := h_zero h.2.2
  zero' h := by simp at h
  nil h _ := h_nil h.2.2
  nil_left h := by cases h.2.1
  nil_right h := by cases h.2.1
  type h := by cases h.2.1; rfl
  slice h := h_slice h.2.2
  kids {k d d' n n'} h := by
    obtain ⟨h1, h2, h3⟩ := h
    cases h1
    cases h2
    exact allPairs_self fun c hc => ⟨rfl, rfl, h_kids h3 hc⟩
  nest {k d d' n n'} h := ⟨by have := h.1; omega, h.2.1, h_nest h.2.2⟩

theorem not_panics_bind {α β : Type} {p : PanicG} (x : D α) (f : α → D β) (hx : ¬ x.Panics p) (hf : ∀ a, ¬ (f a).Panics p) :
    ¬ (x >>= f).Panics p := by
  rcases x with _ | q | a
  · intro h; cases h
  · intro h; exact hx (by cases h; rfl)
  · exact hf a

theorem not_overflows_bind {α β : Type} (x : D α) (f : α → D β) (hx : ¬ x.Overflows) (hf : ∀ a, ¬ (f a).Overflows) :
    ¬ (x >>= f).Overflows := by
  rcases x with _ | q | a
  · exact absurd rfl hx
  · intro h; cases h
  · exact hf a

/-- **C84.** `ToAST` panics only because of what it was given: a method call on nil only if some way down ends at a nil
node, an index out of range only if some way down ends at a node whose span does not lie in the text. -/
theorem C84_panic_causes (b : Bindings) (V : NodeView N) (x : Option N) (str : Str) (depth : Nat) :
    ((b.toASTG V depth x str).Panics .nilNode → ∃ path, entryAt V.kids x path = some none) ∧
    ((b.toASTG V depth x str).Panics .sliceBounds →
      ∃ path n, entryAt V.kids x path = some (some n) ∧ ¬ V.Fits str n) := by
  constructor
  · intro h
    apply Classical.byContradiction
    intro hn
    have := (oneSim V str (fun y => ¬ y.Panics .nilNode) (fun _ _ y => ∀ path, entryAt V.kids y path ≠ some none)
      (fun a h => by cases h) (fun x f hx hf => not_panics_bind x f hx hf) (fun _ _ h => by cases h)
      (fun h => absurd rfl (h [])) (fun {k d n} _ h => by unfold sliceG at h; split at h <;> cases h)
      (fun {k d n c} h hc path hp => by
        obtain ⟨i, hi⟩ := entryAt_kid hc
        exact h (i :: path) (by rw [hi]; exact hp))
      (fun h => h)).toAST b (k := 0) (d := depth) (d' := depth) (x := x) (x' := x)
        ⟨rfl, rfl, fun path hp => hn ⟨path, hp⟩⟩
    exact this h
  · intro h
    apply Classical.byContradiction
    intro hn
    have := (oneSim V str (fun y => ¬ y.Panics .sliceBounds)
      (fun _ _ y => ∀ path n, entryAt V.kids y path = some (some n) → V.Fits str n)
      (fun a h => by cases h) (fun x f hx hf => not_panics_bind x f hx hf) (fun _ _ h => by cases h)
      (fun _ _ h => by cases h)
      (fun {k d n} hI h => by
        have hf : V.Fits str n := hI [] n rfl
        unfold NodeView.Fits at hf
        unfold sliceG at h
        rw [if_pos hf] at h
        cases h)
      (fun {k d n c} h hc path m hp => by
        obtain ⟨i, hi⟩ := entryAt_kid hc
        exact h (i :: path) m (by rw [hi]; exact hp))
      (fun h => h)).toAST b (k := 0) (d := depth) (d' := depth) (x := x) (x' := x)
        ⟨rfl, rfl, fun path n hp => Classical.byContradiction fun hf => hn ⟨path, n, hp, hf⟩⟩
    exact this h

/-- **C84.** `ToAST` overflows the stack only if there are arbitrarily long ways down: if none is longer than `B` steps, a
stack for `B + 7` calls of `Walk` suffices. -/
theorem C84_no_overflow (b : Bindings) (V : NodeView N) (x : Option N) (str : Str) (B : Nat)
    (hB : ∀ path y, entryAt V.kids x path = some y → path.length ≤ B) (depth : Nat) (hd : B + 7 ≤ depth) :
    ¬ (b.toASTG V depth x str).Overflows :=
  (oneSim V str (fun y => ¬ y.Overflows) (fun k d y => ∀ path z, entryAt V.kids y path = some z → path.length + k < d)
    (fun a h => by cases h) (fun x f hx hf => not_overflows_bind x f hx hf)
    (fun {k x} h => by have := h [] x (by cases x <;> rfl); omega)
    (fun _ _ h => by cases h)
    (fun {k d n} _ h => by unfold sliceG at h; split at h <;> cases h)
    (fun {k d n c} h hc path z hp => by
      obtain ⟨i, hi⟩ := entryAt_kid hc
      have := h (i :: path) z (by rw [hi]; exact hp)
      simp only [List.length_cons] at this
      omega)
    (fun h path z hp => by have := h path z hp; omega)).toAST b (k := 0) (d := depth) (d' := depth)
      ⟨rfl, rfl, fun path z hp => by have := hB path z hp; omega⟩

/-! ## Graphs that unfold to a tree -/

/-- The tree a graph unfolds to, cut off after `B` steps. -/
def unfoldTree (V : NodeView N) : Nat → N → Node
  | 0, n => .mk (V.type n) (V.pos n).toNat (V.stop n).toNat []
  | B + 1, n => .mk (V.type n) (V.pos n).toNat (V.stop n).toNat
      ((V.kids n).map fun c => match c with | some m => unfoldTree V B m | none => .mk 0 0 0 [])

theorem unfoldTree_looksLike (V : NodeView N) (str : Str) : ∀ (B : Nat) (n : N),
    (∀ path y, entryAt V.kids (some n) path = some y → path.length ≤ B) →
    (∀ path, entryAt V.kids (some n) path ≠ some none) →
    (∀ path m, entryAt V.kids (some n) path = some (some m) → V.Fits str m) →
    LooksLike V (some n) ownView (some (unfoldTree V B n)) := by
  intro B
  induction B with
  | zero =>
    intro n hB hn hf path
    have hfit : V.Fits str n := hf [] n rfl
    have hk : V.kids n = [] := by
      cases hk : V.kids n with
      | nil => rfl
      | cons c cs =>
        have := hB [0] c (by simp [entryAt, hk])
        simp at this
    cases path with
    | nil =>
      unfold NodeView.Fits at hfit
      simp only [seen_nil, ownView, unfoldTree, Node.type_mk, Node.pos_mk, Node.stop_mk]
      rw [Int.toNat_of_nonneg (by omega), Int.toNat_of_nonneg (by omega)]
    | cons i path => simp [seen_cons, hk, ownView, unfoldTree]
  | succ B ih =>
    intro n hB hn hf path
    have hfit : V.Fits str n := hf [] n rfl
    cases path with
    | nil =>
      unfold NodeView.Fits at hfit
      simp only [seen_nil, ownView, unfoldTree, Node.type_mk, Node.pos_mk, Node.stop_mk]
      rw [Int.toNat_of_nonneg (by omega), Int.toNat_of_nonneg (by omega)]
    | cons i path =>
      rw [seen_cons, seen_cons]
      have e : (ownView.kids (unfoldTree V (B + 1) n))[i]? =
          (V.kids n)[i]?.map fun c => some (match c with | some m => unfoldTree V B m | none => .mk 0 0 0 []) := by
        simp only [ownView, unfoldTree, Node.childs_mk, List.map_map, List.getElem?_map]
        rfl
      rw [e]
      cases hi : (V.kids n)[i]? with
      | none => rfl
      | some c =>
        have hp : ∀ path, entryAt V.kids (some n) (i :: path) = entryAt V.kids c path := by
          intro path; simp [entryAt, hi]
        cases c with
        | none => exact absurd (by rw [hp]; rfl) (hn [i])
        | some m =>
          refine ih m (fun path y h => ?_) (fun path h => ?_) (fun path y h => ?_) path
          · have := hB (i :: path) y (by rw [hp]; exact h)
            simpa using this
          · exact hn (i :: path) (by rw [hp]; exact h)
          · exact hf (i :: path) y (by rw [hp]; exact h)

/-- **C84.** If no way down from the root is endless, none ends at nil and every node's span lies in the text, then `ToAST`
returns a grammar or an error, namely that for the tree the nodes unfold to. -/
theorem C84_unfolds (b : Bindings) (V : NodeView N) (root : N) (str : Str) (hu : Unfolds V.kids (some root))
    (hn : ∀ path, entryAt V.kids (some root) path ≠ some none)
    (hf : ∀ path n, entryAt V.kids (some root) path = some (some n) → V.Fits str n) :
    ∃ t, LooksLike V (some root) ownView (some t) ∧ ∃ (d : Nat) (r : Except Err Grammar), ∀ depth, d ≤ depth →
      (b.toASTG V depth (some root) str).Returns r ∧
      b.toAST t str = match r with | .ok g => .ok g | .error e => .err e := by
  obtain ⟨B, hB⟩ := hu
  have hl := unfoldTree_looksLike V str B root hB hn hf
  refine ⟨_, hl, max (B + 7) (heightOf (unfoldTree V B root) + 6), ?_⟩
  have h1 : ∀ depth, max (B + 7) (heightOf (unfoldTree V B root) + 6) ≤ depth →
      b.toASTG V depth (some root) str = asD (b.toAST (unfoldTree V B root) str) := by
    intro depth hd
    rw [C84_sharing_invisible b V _ ownView _ hl str depth]
    exact (toASTG_own b str _ depth (by omega)).1
  have h2 := C84_no_overflow b V (some root) str B hB _ (Nat.le_refl _)
  have h3 := h1 _ (Nat.le_refl _)
  have h4 := C84_panic_causes b V (some root) str (max (B + 7) (heightOf (unfoldTree V B root) + 6))
  have h5 := (toASTG_own b str (unfoldTree V B root) _ (Nat.le_refl _)).2
  cases hr : b.toAST (unfoldTree V B root) str with
  | ok g => exact ⟨.ok g, fun depth hd => ⟨by rw [h1 depth hd, hr]; rfl, rfl⟩⟩
  | err e => exact ⟨.error e, fun depth hd => ⟨by rw [h1 depth hd, hr]; rfl, rfl⟩⟩
  | panic p =>
    rw [h3, hr] at h4
    obtain ⟨path, n, h6, h7⟩ := h4.2 rfl
    exact absurd (hf path n h6) h7
  | diverge => exact absurd hr h5

/-! ## Cycles -/

theorem walkG_done {σ : Type} {V : NodeView N} {ig sr : Int → Bool} {f : OnNodeG N σ} (d : Nat) (x : Option N)
    (s s' : σ × Option Err) (hs : s.2 ≠ none) (h : (walkG V ig sr f d x s).Returns s') : s' = s := by
  cases d with
  | zero => cases h
  | succ d =>
    unfold walkG flexVisitG at h
    rw [if_pos hs] at h
    simp only [pure_bind] at h
    cases h
    rfl

theorem rangeG_done {σ : Type} {body : Option N → σ × Option Err → D (σ × Option Err)}
    (hb : ∀ c s s', s.2 ≠ none → (body c s).Returns s' → s' = s) : ∀ (cs : List (Option N)) (s s' : σ × Option Err),
    (rangeG body cs s).Returns s' → s'.2 = none → s.2 = none ∧
      ∀ c ∈ cs, ∃ s₁ s₂, s₁.2 = none ∧ s₂.2 = none ∧ (body c s₁).Returns s₂
  | [], s, s', h, h' => by
    have : s = s' := by
      have h : some (Except.ok s) = some (Except.ok (ε := PanicG) s') := h
      simpa using h
    subst this
    exact ⟨h', fun c hc => by cases hc⟩
  | c :: cs, s, s', h, h' => by
    unfold rangeG at h
    have : ∃ s₁, (body c s).Returns s₁ ∧ (rangeG body cs s₁).Returns s' := by
      cases hx : (body c s).run with
      | none =>
        have e : body c s = overflow := hx
        rw [e] at h; cases h
      | some r =>
        cases r with
        | error p =>
          have e : body c s = throw p := hx
          rw [e] at h; cases h
        | ok s₁ =>
          have e : body c s = pure s₁ := hx
          rw [e, pure_bind] at h
          exact ⟨s₁, hx, h⟩
    obtain ⟨s₁, h1, h2⟩ := this
    obtain ⟨h3, h4⟩ := rangeG_done hb cs s₁ s' h2 h'
    have h5 : s.2 = none := by
      apply Classical.byContradiction
      intro hne
      have := hb c s s₁ hne h1
      subst this
      exact hne h3
    refine ⟨h5, fun d hd => ?_⟩
    rcases List.mem_cons.1 hd with rfl | hd
    · exact ⟨s, s₁, h5, h3, h1⟩
    · exact h4 d hd

/-- A way down which the walk takes. -/
def Way (V : NodeView N) (ig sr : Int → Bool) (x : Option N) (path : List Nat) : Prop :=
  (∃ y, entryAt V.kids x path = some y) ∧
  ∀ k, k < path.length → ∀ n, entryAt V.kids x (path.take k) = some (some n) → ig (V.type n) = false ∧ sr (V.type n) = false

theorem Way.cons {V : NodeView N} {ig sr : Int → Bool} {n : N} {i : Nat} {path : List Nat}
    (h : Way V ig sr (some n) (i :: path)) : ig (V.type n) = false ∧ sr (V.type n) = false ∧
      ∃ c, (V.kids n)[i]? = some c ∧ Way V ig sr c path := by
  obtain ⟨⟨y, h1⟩, h2⟩ := h
  have h0 := h2 0 (by simp) n rfl
  refine ⟨h0.1, h0.2, ?_⟩
  cases hi : (V.kids n)[i]? with
  | none => simp [entryAt, hi] at h1
  | some c =>
    simp only [entryAt, hi] at h1
    refine ⟨c, rfl, ⟨y, h1⟩, fun k hk m hm => h2 (k + 1) (by simpa using hk) m ?_⟩
    simpa [entryAt, hi] using hm

theorem walkG_way {σ : Type} {V : NodeView N} {ig sr : Int → Bool} {f : OnNodeG N σ} : ∀ (d : Nat) (x : Option N)
    (s s' : σ × Option Err), (walkG V ig sr f d x s).Returns s' → s.2 = none → s'.2 = none → ∀ path, Way V ig sr x path →
      path.length < d ∧ entryAt V.kids x path ≠ some none := by
  intro d
  induction d with
  | zero => intro x s s' h; cases h
  | succ d ih =>
    intro x s s' h hs hs' path hw
    cases x with
    | none =>
      unfold walkG flexVisitG at h
      simp only [hs, ne_eq, not_true_eq_false, if_false] at h
      cases h
    | some n =>
      cases path with
      | nil => exact ⟨by simp, by simp [entryAt]⟩
      | cons i path =>
        obtain ⟨h1, h2, c, hc, hw'⟩ := hw.cons
        unfold walkG flexVisitG at h
        simp only [hs, ne_eq, not_true_eq_false, if_false, h1, h2, Bool.false_eq_true, pure_bind] at h
        obtain ⟨-, h3⟩ := rangeG_done (fun c s s' hs hr => walkG_done d c s s' hs hr) _ _ _ h hs'
        obtain ⟨s₁, s₂, e1, e2, e3⟩ := h3 c (List.mem_iff_getElem?.2 ⟨i, hc⟩)
        have := ih c s₁ s₂ e3 e1 e2 path hw'
        refine ⟨by simp only [List.length_cons]; omega, ?_⟩
        simp only [entryAt, hc]
        exact this.2

theorem walkG_nothing {σ : Type} {V : NodeView N} {ig sr : Int → Bool} {f : OnNodeG N σ} : ∀ (d : Nat) (x : Option N)
    (s : σ × Option Err), s.2 = none → (∀ path, Way V ig sr x path → entryAt V.kids x path ≠ some none) →
      (∀ path n, Way V ig sr x path → entryAt V.kids x path = some (some n) → ig (V.type n) = true ∨ sr (V.type n) = false) →
      walkG V ig sr f d x s = overflow ∨ walkG V ig sr f d x s = pure s := by
  intro d
  induction d with
  | zero => intro x s _ _ _; exact .inl rfl
  | succ d ih =>
    intro x s hs hn hr
    have w0 : Way V ig sr x [] := ⟨⟨x, by cases x <;> rfl⟩, fun k hk => by simp at hk⟩
    cases x with
    | none => exact absurd rfl (hn [] w0)
    | some n =>
      have hr0 := hr [] n w0 rfl
      unfold walkG flexVisitG
      simp only [hs, ne_eq, not_true_eq_false, if_false]
      by_cases hi : ig (V.type n) = true
      · right; simp only [hi, if_true, pure_bind]
      · have hi' : ig (V.type n) = false := by simpa using hi
        have hsr : sr (V.type n) = false := by
          rcases hr0 with h | h
          · exact absurd h hi
          · exact h
        simp only [hi', hsr, Bool.false_eq_true, if_false, pure_bind]
        have hk : ∀ c ∈ V.kids n, walkG V ig sr f d c s = overflow ∨ walkG V ig sr f d c s = pure s := by
          intro c hc
          obtain ⟨i, hci⟩ := List.mem_iff_getElem?.1 hc
          have hway : ∀ path, Way V ig sr c path → Way V ig sr (some n) (i :: path) := by
            rintro path ⟨⟨y, h1⟩, h2⟩
            refine ⟨⟨y, by simpa [entryAt, hci] using h1⟩, fun k hk m hm => ?_⟩
            cases k with
            | zero =>
              simp only [List.take_zero, entryAt, Option.some.injEq] at hm
              subst hm
              exact ⟨hi', hsr⟩
            | succ k =>
              simp only [List.take_succ_cons, entryAt, hci] at hm
              exact h2 k (by simpa using hk) m hm
          have hent : ∀ path, entryAt V.kids (some n) (i :: path) = entryAt V.kids c path := fun path => by
            simp [entryAt, hci]
          exact ih c s hs (fun path hw => by rw [← hent]; exact hn _ (hway path hw))
            (fun path m hw hm => hr _ m (hway path hw) (by rw [hent]; exact hm))
        generalize V.kids n = l at hk
        induction l with
        | nil => exact .inr rfl
        | cons c l ihl =>
          unfold rangeG
          rcases hk c (.head _) with h | h
          · rw [h]; exact .inl rfl
          · rw [h, pure_bind]; exact ihl fun c hc => hk c (.tail _ hc)

theorem way_iff (V : NodeView N) (b : Bindings) (x : Option N) (path : List Nat) :
    Way V ({ b with ignoreNodeTypes := sortInts b.ignoreNodeTypes } : Bindings).isNodeIgnored
      (fun t => decide (t = b.ruleType)) x path ↔ OpenWay V b x path := by
  unfold Way OpenWay
  have h := fun t => isNodeIgnored_sorted { b with ignoreNodeTypes := sortInts b.ignoreNodeTypes }
    (sorted_sortInts b.ignoreNodeTypes) t
  simp only [h, mem_sortInts, decide_eq_false_iff_not]

/-- **C84.** If `ToAST` returns a grammar, the ways down that avoid passing through rules and ignored nodes are all short
enough for the stack, and none ends at nil: ignored nodes and rules are the only places where the rest of the graph may be
anything. -/
theorem C84_grammar_ways (b : Bindings) (V : NodeView N) (x : Option N) (str : Str) (depth : Nat) (g : Grammar)
    (h : (b.toASTG V depth x str).Returns (.ok g)) (path : List Nat) (hw : OpenWay V b x path) :
    path.length < depth ∧ entryAt V.kids x path ≠ some none := by
  rw [← way_iff] at hw
  unfold Bindings.toASTG Bindings.toASTBodyG Bindings.lrTraverseG lrTraverseG at h
  generalize hx : walkG V _ _ _ depth x (([] : List Rule), none) = y at h
  rcases y with _ | p | ⟨rules, e⟩
  · cases h
  · cases h
  · cases e with
    | none => exact walkG_way depth x _ _ (congrArg ExceptT.run hx) rfl rfl path hw
    | some e => cases h

/-- Endless open ways: see `C84_cycle`. -/
theorem long_ways (b : Bindings) (V : NodeView N) (x : Option N) (str : Str)
    (hlong : ∀ l, ∃ path, l ≤ path.length ∧ OpenWay V b x path) (depth : Nat) :
    (∀ g, ¬ (b.toASTG V depth x str).Returns (.ok g)) ∧
    ((∀ path, OpenWay V b x path → entryAt V.kids x path ≠ some none) →
      (∀ path n, OpenWay V b x path → entryAt V.kids x path = some (some n) →
        V.type n ∈ b.ignoreNodeTypes ∨ V.type n ≠ b.ruleType) → (b.toASTG V depth x str).Overflows) := by
  have h0 : ∀ g, ¬ (b.toASTG V depth x str).Returns (.ok g) := by
    intro g h
    obtain ⟨path, hl, hw⟩ := hlong depth
    have := (C84_grammar_ways b V x str depth g h path hw).1
    omega
  refine ⟨h0, fun hn hr => ?_⟩
  have key := walkG_nothing (V := V)
    (ig := ({ b with ignoreNodeTypes := sortInts b.ignoreNodeTypes } : Bindings).isNodeIgnored)
    (sr := fun t => decide (t = b.ruleType))
    (f := ({ b with ignoreNodeTypes := sortInts b.ignoreNodeTypes } : Bindings).doOnRuleG V str) depth x
    (([] : List Rule), none) rfl (fun path hw => hn path ((way_iff V b x path).1 hw))
    (fun path n hw hm => by
      have := hr path n ((way_iff V b x path).1 hw) hm
      have hs := isNodeIgnored_sorted { b with ignoreNodeTypes := sortInts b.ignoreNodeTypes }
        (sorted_sortInts b.ignoreNodeTypes) (V.type n)
      simp only [hs, mem_sortInts, decide_eq_true_eq, decide_eq_false_iff_not]
      exact this)
  have e : b.toASTG V depth x str = (walkG V
      ({ b with ignoreNodeTypes := sortInts b.ignoreNodeTypes } : Bindings).isNodeIgnored
      (fun t => decide (t = b.ruleType))
      (({ b with ignoreNodeTypes := sortInts b.ignoreNodeTypes } : Bindings).doOnRuleG V str) depth x ([], none) >>=
      fun r => match r with
        | (rules, none) => pure (.ok ⟨rules⟩)
        | (_, some e) => pure (.error e)) := rfl
  rcases key with h | h
  · rw [e, h]; rfl
  · rw [h, pure_bind] at e
    exact absurd (by rw [e]; rfl) (h0 ⟨[]⟩)

theorem OpenWay.append {V : NodeView N} {b : Bindings} {x : Option N} {p q : List Nat} {n : N}
    (hp : OpenWay V b x p) (hn : entryAt V.kids x p = some (some n)) (hq : OpenWay V b (some n) q) :
    OpenWay V b x (p ++ q) := by
  obtain ⟨⟨y, hy⟩, h2⟩ := hq
  refine ⟨⟨y, by rw [entryAt_append V.kids x p q _ hn]; exact hy⟩, fun k hk m hm => ?_⟩
  by_cases hk' : k < p.length
  · rw [List.take_append_of_le_length (by omega)] at hm
    exact hp.2 k hk' m hm
  · have e : (p ++ q).take k = p ++ q.take (k - p.length) := by
      rw [List.take_append, List.take_of_length_le (by omega)]
    rw [e, entryAt_append V.kids x p _ _ hn] at hm
    exact h2 (k - p.length) (by simp only [List.length_append] at hk; omega) m hm

/-- **C84.** A cycle the search for rules runs into — a node `n` reached without passing through a rule or an ignored node,
from which a way of the same kind leads back to `n` — keeps `ToAST` from ever returning a grammar; and if moreover no such
way ends at a nil or at a rule, every stack overflows. -/
theorem C84_cycle (b : Bindings) (V : NodeView N) (x : Option N) (str : Str) (n : N) (p q : List Nat) (hq : q ≠ [])
    (h1 : OpenWay V b x p) (h1' : entryAt V.kids x p = some (some n)) (h2 : OpenWay V b (some n) q)
    (h2' : entryAt V.kids (some n) q = some (some n)) (depth : Nat) :
    (∀ g, ¬ (b.toASTG V depth x str).Returns (.ok g)) ∧
    ((∀ path, OpenWay V b x path → entryAt V.kids x path ≠ some none) →
      (∀ path m, OpenWay V b x path → entryAt V.kids x path = some (some m) →
        V.type m ∈ b.ignoreNodeTypes ∨ V.type m ≠ b.ruleType) → (b.toASTG V depth x str).Overflows) := by
  refine long_ways b V x str (fun l => ?_) depth
  have : ∃ r : List Nat, l ≤ r.length ∧ OpenWay V b (some n) r ∧ entryAt V.kids (some n) r = some (some n) := by
    induction l with
    | zero => exact ⟨q, by omega, h2, h2'⟩
    | succ l ih =>
      obtain ⟨r, e1, e2, e3⟩ := ih
      have := List.length_pos_iff.2 hq
      exact ⟨r ++ q, by simp only [List.length_append]; omega, e2.append e3 h2,
        by rw [entryAt_append V.kids _ r q _ e3]; exact h2'⟩
  obtain ⟨r, e1, e2, e3⟩ := this
  exact ⟨p ++ r, by simp only [List.length_append]; omega, h1.append h1' e2⟩

/-! ## Cases -/

/-- Nine nodes for `<a>::="b"`.  Node 6, of the ignored type 25 and with an impossible span, has the root, nil and itself as
children; the rule (node 1) has a nil child behind its tail; the rule and the symbol (node 5) are children twice. -/
def witnessView : NodeView Nat where
  type i := [0, 4, 18, 5, 7, 9, 25, 11, -1].getD i 0
  pos i := [0, 0, 1, 6, 6, 6, -3, 7, 7].getD i 0
  stop i := [9, 9, 2, 9, 9, 9, -7, 8, 8].getD i 0
  kids i := [[some 1, some 6, some 1], [some 2, some 3, none], [], [some 4, some 6], [some 5, some 5], [some 7],
    [some 0, none, some 6], [some 8], []].getD i []

/-- Cycles, nil nodes and bad spans below ignored nodes, or behind what a search was looking for, do no harm; node 5 (the
symbol) occurs twice under node 4 and node 1 (the rule) twice under the root, and both are converted twice. -/
example : (selfBindings.toASTG witnessView 20 (some 0) b!"<a>::=\"b\"").Returns
    (.ok ⟨[⟨b!"a", ⟨[⟨[.terminal b!"b", .terminal b!"b"]⟩]⟩⟩, ⟨b!"a", ⟨[⟨[.terminal b!"b", .terminal b!"b"]⟩]⟩⟩]⟩) := by
  have : (selfBindings.toASTG witnessView 20 (some 0) b!"<a>::=\"b\"").run =
    some (.ok (.ok ⟨[⟨b!"a", ⟨[⟨[.terminal b!"b", .terminal b!"b"]⟩]⟩⟩, ⟨b!"a", ⟨[⟨[.terminal b!"b", .terminal b!"b"]⟩]⟩⟩]⟩)) := by
    decide +kernel
  exact this

/-- Both panics occur: on the nil root, and on a rule whose head has a span outside of the text. -/
example : (selfBindings.toASTG witnessView 20 none b!"").Panics .nilNode ∧
    (selfBindings.toASTG witnessView 20 (some 0) b!"").Panics .sliceBounds := by
  have h1 : (selfBindings.toASTG witnessView 20 none b!"").run = some (.error .nilNode) := by decide +kernel
  have h2 : (selfBindings.toASTG witnessView 20 (some 0) b!"").run = some (.error .sliceBounds) := by decide +kernel
  exact ⟨h1, h2⟩

/-- A node that is its own child: every stack overflows. -/
example (depth : Nat) (str : Str) :
    (selfBindings.toASTG (N := Unit) ⟨fun _ => 0, fun _ => 0, fun _ => 0, fun _ => [some ()]⟩ depth (some ()) str).Overflows := by
  have hway : ∀ path, ∀ y, entryAt (N := Unit) (fun _ => [some ()]) (some ()) path = some y → y = some () := by
    intro path
    induction path with
    | nil => intro y h; cases h; rfl
    | cons i path ih =>
      intro y h
      cases i with
      | zero => exact ih y (by simpa [entryAt] using h)
      | succ i => simp [entryAt] at h
  refine (C84_cycle selfBindings _ (some ()) str () [] [0] (by simp) ⟨⟨_, rfl⟩, fun k hk => by simp at hk⟩ rfl
    ⟨⟨_, rfl⟩, fun k hk m hm => ⟨by simp [selfBindings], by simp [selfBindings]⟩⟩ rfl depth).2 (fun path _ h => ?_)
    (fun path m _ _ => .inr (by simp [selfBindings]))
  cases hway path _ h

end FC
end LL1
