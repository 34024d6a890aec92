import Verif.Spec.Tree

/-!
# C06, C07: `cst.Walk`
-/

namespace LL1

variable {V S P : Type}

mutual
theorem logged_walk (vis : Visitor V S P) (v : V) (n : Node) (s : S) (l : List (V × Node × Option V)) :
    (∀ s', walk vis v n s = .ok s' → ∃ l', walk (logged vis) v n (s, l) = .ok (s', l ++ l')) ∧
    (∀ p, walk vis v n s = .error p → walk (logged vis) v n (s, l) = .error p) := by
  match n with
  | .mk t b e cs =>
    rw [walk, walk]
    simp only [logged]
    cases h : vis.visit v (.mk t b e cs) s with
    | error p => simp
    | ok r =>
      obtain ⟨s', r⟩ := r
      cases r with
      | none => simp
      | some w =>
        simp only
        have ih := logged_walkList vis w cs s' (l ++ [(v, .mk t b e cs, some w)])
        refine ⟨fun s'' h => ?_, fun p h => ih.2 p h⟩
        obtain ⟨l', h'⟩ := ih.1 s'' h
        exact ⟨_, by rw [← List.append_assoc]; exact h'⟩
theorem logged_walkList (vis : Visitor V S P) (v : V) (cs : List Node) (s : S)
    (l : List (V × Node × Option V)) :
    (∀ s', walkList vis v cs s = .ok s' → ∃ l', walkList (logged vis) v cs (s, l) = .ok (s', l ++ l')) ∧
    (∀ p, walkList vis v cs s = .error p → walkList (logged vis) v cs (s, l) = .error p) := by
  match cs with
  | [] => simp [walkList]
  | c :: cs =>
    rw [walkList, walkList]
    have ih := logged_walk vis v c s l
    cases h : walk vis v c s with
    | error p => rw [ih.2 p h]; simp
    | ok s' =>
      obtain ⟨l', h'⟩ := ih.1 s' h
      rw [h']
      simp only
      have ih2 := logged_walkList vis v cs s' (l ++ l')
      refine ⟨fun s'' h => ?_, fun p h => ih2.2 p h⟩
      obtain ⟨l'', h''⟩ := ih2.1 s'' h
      exact ⟨_, by rw [← List.append_assoc]; exact h''⟩
end

/-- Writing down the calls does not change what `Walk` does to the visitor's own memory. -/
theorem logged_faithful (vis : Visitor V S P) (v : V) (n : Node) (s : S) (x : S) :
    walk vis v n s = .ok x ↔ ∃ l, walk (logged vis) v n (s, []) = .ok (x, l) := by
  have h := logged_walk vis v n s []
  constructor
  · intro hx
    obtain ⟨l', h'⟩ := h.1 x hx
    exact ⟨_, h'⟩
  · rintro ⟨l, hl⟩
    cases hw : walk vis v n s with
    | error p => rw [h.2 p hw] at hl; simp at hl
    | ok y =>
      obtain ⟨l', h'⟩ := h.1 y hw
      rw [h'] at hl
      simp only [Except.ok.injEq, Prod.mk.injEq] at hl
      rw [hl.1]

mutual
theorem walk_total_log (vis : Visitor V S P)
    (hnn : ∀ v n s, ∃ s' w, vis.visit v n s = .ok (s', some w))
    (v : V) (n : Node) (s : S) (l : List (V × Node × Option V)) :
    ∃ s' l', walk (logged vis) v n (s, l) = .ok (s', l ++ l') ∧ l'.map (·.2.1) = preorder n := by
  match n with
  | .mk t b e cs =>
    obtain ⟨s', w, h⟩ := hnn v (.mk t b e cs) s
    obtain ⟨s'', l', h', hp⟩ := walkList_total_log vis hnn w cs s' (l ++ [(v, .mk t b e cs, some w)])
    refine ⟨s'', (v, .mk t b e cs, some w) :: l', ?_, ?_⟩
    · rw [walk]; simp only [logged, h]; simpa [logged] using h'
    · rw [preorder]; simp [hp]
theorem walkList_total_log (vis : Visitor V S P)
    (hnn : ∀ v n s, ∃ s' w, vis.visit v n s = .ok (s', some w))
    (v : V) (cs : List Node) (s : S) (l : List (V × Node × Option V)) :
    ∃ s' l', walkList (logged vis) v cs (s, l) = .ok (s', l ++ l') ∧
      l'.map (·.2.1) = (cs.map preorder).flatten := by
  match cs with
  | [] => exact ⟨s, [], by simp [walkList], by simp⟩
  | c :: cs =>
    obtain ⟨s', l', h', hp'⟩ := walk_total_log vis hnn v c s l
    obtain ⟨s'', l'', h'', hp''⟩ := walkList_total_log vis hnn v cs s' (l ++ l')
    refine ⟨s'', l' ++ l'', ?_, ?_⟩
    · rw [walkList, h']; simpa using h''
    · simp [hp', hp'']
end

/-- **C06.** If no `Visit` returns nil (or panics), `Walk` terminates normally and the nodes of the
`Visit` calls, in the order of the calls, are exactly the nodes of the tree in pre-order. -/
theorem C06_walk_preorder (vis : Visitor V S P)
    (hnn : ∀ v n s, ∃ s' w, vis.visit v n s = .ok (s', some w))
    (v : V) (root : Node) (s : S) :
    ∃ s' calls, walk (logged vis) v root (s, []) = .ok (s', calls) ∧
      calls.map (fun c => c.2.1) = preorder root := by
  obtain ⟨s', l', h, hp⟩ := walk_total_log vis hnn v root s []
  exact ⟨s', l', by simpa using h, hp⟩

/-- A visitor counting visits meets the hypothesis of C06 (and is not trivial). -/
example : ∀ (v : Unit) (n : Node) (s : Nat),
    ∃ s' w, (Visitor.mk (P := Empty) (fun (v : Unit) (_ : Node) (s : Nat) => .ok (s + 1, some v))).visit v n s
      = .ok (s', some w) := fun v _ s => ⟨s + 1, v, rfl⟩

example : (preorder (.mk 0 0 2 [.mk 1 0 1 [.mk 2 0 1 []], .mk 3 1 2 []])).map Node.type = [0, 1, 2, 3] := by
  simp [preorder]

/-! ## C07 -/

/-- Auxiliary description of the calls below one node (addresses relative to that node). -/
structure WalkCalls (top : Node) (v : V) (calls : List (Call V)) : Prop where
  order : calls.Pairwise (fun c d => List.Lex (· < ·) c.path d.path)
  root : ∃ c ∈ calls, c.path = [] ∧ c.visitor = v
  at_root : ∀ c ∈ calls, c.path = [] → c.visitor = v
  node : ∀ c ∈ calls, nodeAt top c.path = some c.node
  parent : ∀ c ∈ calls, ∀ π k, c.path = π ++ [k] →
    ∃ p ∈ calls, p.path = π ∧ p.returned = some c.visitor
  child : ∀ c ∈ calls, ∀ w, c.returned = some w → ∀ k, k < c.node.childs.length →
    ∃ d ∈ calls, d.path = c.path ++ [k] ∧ d.visitor = w

/-- The same for a list of siblings numbered from `i`. -/
structure ListCalls (cs : List Node) (i : Nat) (w : V) (calls : List (Call V)) : Prop where
  order : calls.Pairwise (fun c d => List.Lex (· < ·) c.path d.path)
  ne : ∀ c ∈ calls, ∃ k rest, c.path = k :: rest ∧ i ≤ k
  node : ∀ c ∈ calls, ∀ k rest, c.path = k :: rest →
    ∃ n, cs[k - i]? = some n ∧ nodeAt n rest = some c.node
  top : ∀ k, k < cs.length → ∃ c ∈ calls, c.path = [i + k] ∧ c.visitor = w
  single : ∀ c ∈ calls, ∀ k, c.path = [k] → c.visitor = w
  parent : ∀ c ∈ calls, ∀ π k, π ≠ [] → c.path = π ++ [k] →
    ∃ p ∈ calls, p.path = π ∧ p.returned = some c.visitor
  child : ∀ c ∈ calls, ∀ w, c.returned = some w → ∀ k, k < c.node.childs.length →
    ∃ d ∈ calls, d.path = c.path ++ [k] ∧ d.visitor = w

def Call.shift (i : Nat) (c : Call V) : Call V := { c with path := i :: c.path }

def Call.entry (c : Call V) : V × Node × Option V := (c.visitor, c.node, c.returned)

theorem ListCalls.cons {c : Node} {cs : List Node} {i : Nat} {w : V} {a b : List (Call V)}
    (ha : WalkCalls c w a) (hb : ListCalls cs (i + 1) w b) :
    ListCalls (c :: cs) i w (a.map (Call.shift i) ++ b) := by
  constructor
  · rw [List.pairwise_append]
    refine ⟨?_, hb.order, ?_⟩
    · rw [List.pairwise_map]
      exact ha.order.imp (fun h => List.Lex.cons h)
    · intro x hx y hy
      simp only [List.mem_map] at hx
      obtain ⟨x, hx, rfl⟩ := hx
      obtain ⟨k, rest, hk, hik⟩ := hb.ne y hy
      simp only [Call.shift, hk]
      exact List.Lex.rel (by omega)
  · intro x hx0
    rcases List.mem_append.1 hx0 with hx | hx
    · simp only [List.mem_map] at hx
      obtain ⟨x, hx, rfl⟩ := hx
      exact ⟨i, x.path, rfl, Nat.le_refl _⟩
    · obtain ⟨k, rest, hk, hik⟩ := hb.ne x hx
      exact ⟨k, rest, hk, by omega⟩
  · intro x hx0 k rest hk
    rcases List.mem_append.1 hx0 with hx | hx
    · simp only [List.mem_map] at hx
      obtain ⟨x, hx, rfl⟩ := hx
      simp only [Call.shift, List.cons.injEq] at hk
      obtain ⟨rfl, rfl⟩ := hk
      exact ⟨c, by simp, by simpa [Call.shift] using ha.node x hx⟩
    · obtain ⟨k', rest', hk', hik⟩ := hb.ne x hx
      have := hb.node x hx k rest hk
      rw [hk] at hk'
      simp only [List.cons.injEq] at hk'
      obtain ⟨rfl, rfl⟩ := hk'
      have e : k - i = (k - (i + 1)) + 1 := by omega
      rw [e, List.getElem?_cons_succ]
      exact this
  · intro k hk
    cases k with
    | zero =>
      obtain ⟨x, hx, h1, h2⟩ := ha.root
      exact ⟨x.shift i, List.mem_append_left _ (List.mem_map_of_mem hx), by simp [Call.shift, h1], h2⟩
    | succ k =>
      obtain ⟨x, hx, h1, h2⟩ := hb.top k (by simpa using hk)
      exact ⟨x, List.mem_append_right _ hx, by rw [h1]; congr 1; omega, h2⟩
  · intro x hx0 k hk
    rcases List.mem_append.1 hx0 with hx | hx
    · simp only [List.mem_map] at hx
      obtain ⟨x, hx, rfl⟩ := hx
      simp only [Call.shift, List.cons.injEq] at hk
      exact ha.at_root x hx hk.2
    · exact hb.single x hx k hk
  · intro x hx0 π k hπ hk
    rcases List.mem_append.1 hx0 with hx | hx
    · simp only [List.mem_map] at hx
      obtain ⟨x, hx, rfl⟩ := hx
      cases π with
      | nil => exact absurd rfl hπ
      | cons j π =>
        simp only [Call.shift, List.cons_append, List.cons.injEq] at hk
        obtain ⟨rfl, hk⟩ := hk
        obtain ⟨p, hp, h1, h2⟩ := ha.parent x hx π k hk
        exact ⟨p.shift i, List.mem_append_left _ (List.mem_map_of_mem hp), by simp [Call.shift, h1], h2⟩
    · obtain ⟨p, hp, h⟩ := hb.parent x hx π k hπ hk
      exact ⟨p, List.mem_append_right _ hp, h⟩
  · intro x hx0 u hu k hk
    rcases List.mem_append.1 hx0 with hx | hx
    · simp only [List.mem_map] at hx
      obtain ⟨x, hx, rfl⟩ := hx
      obtain ⟨d, hd, h1, h2⟩ := ha.child x hx u hu k hk
      exact ⟨d.shift i, List.mem_append_left _ (List.mem_map_of_mem hd), by simp [Call.shift, h1], h2⟩
    · obtain ⟨d, hd, h⟩ := hb.child x hx u hu k hk
      exact ⟨d, List.mem_append_right _ hd, h⟩

mutual
theorem walk_calls (vis : Visitor V S P) (v : V) (n : Node) (s : S) (l : List (V × Node × Option V))
    (s' : S) (l' : List (V × Node × Option V)) (h : walk (logged vis) v n (s, l) = .ok (s', l')) :
    ∃ calls : List (Call V), l' = l ++ calls.map Call.entry ∧ WalkCalls n v calls := by
  match n with
  | .mk t b e cs =>
    rw [walk] at h
    simp only [logged] at h
    cases hv : vis.visit v (.mk t b e cs) s with
    | error p => simp [hv] at h
    | ok r =>
      obtain ⟨s1, r⟩ := r
      cases r with
      | none =>
        simp only [hv, Except.ok.injEq, Prod.mk.injEq] at h
        refine ⟨[⟨[], .mk t b e cs, v, none⟩], by simp [Call.entry, ← h.2], ?_⟩
        constructor <;> simp [nodeAt]
      | some w =>
        simp only [hv] at h
        obtain ⟨calls, h1, h2⟩ := walkList_calls vis w cs 0 s1 _ s' l' h
        refine ⟨⟨[], .mk t b e cs, v, some w⟩ :: calls, by simp [Call.entry, h1], ?_⟩
        constructor
        · rw [List.pairwise_cons]
          refine ⟨?_, h2.order⟩
          intro c hc
          obtain ⟨k, rest, hk, _⟩ := h2.ne c hc
          simp only [hk]
          exact List.Lex.nil
        · simp
        · intro c hc hp
          rcases List.mem_cons.1 hc with rfl | hc
          · rfl
          · obtain ⟨k, rest, hk, _⟩ := h2.ne c hc
            rw [hk] at hp; simp at hp
        · intro c hc
          rcases List.mem_cons.1 hc with rfl | hc
          · rfl
          · obtain ⟨k, rest, hk, _⟩ := h2.ne c hc
            obtain ⟨m, hm, hn⟩ := h2.node c hc k rest hk
            rw [hk, nodeAt]
            simp only [Node.childs_mk]
            rw [Nat.sub_zero] at hm
            rw [hm]
            exact hn
        · intro c hc π k hk
          rcases List.mem_cons.1 hc with rfl | hc
          · simp at hk
          · by_cases hπ : π = []
            · subst hπ
              exact ⟨_, List.mem_cons_self, rfl, by simp [h2.single c hc k hk]⟩
            · obtain ⟨p, hp, h⟩ := h2.parent c hc π k hπ hk
              exact ⟨p, List.mem_cons_of_mem _ hp, h⟩
        · intro c hc u hu k hk
          rcases List.mem_cons.1 hc with rfl | hc
          · simp only [Option.some.injEq] at hu
            subst hu
            obtain ⟨d, hd, h3, h4⟩ := h2.top k hk
            exact ⟨d, List.mem_cons_of_mem _ hd, by simp [h3], h4⟩
          · obtain ⟨d, hd, h⟩ := h2.child c hc u hu k hk
            exact ⟨d, List.mem_cons_of_mem _ hd, h⟩
theorem walkList_calls (vis : Visitor V S P) (w : V) (cs : List Node) (i : Nat) (s : S)
    (l : List (V × Node × Option V)) (s' : S) (l' : List (V × Node × Option V))
    (h : walkList (logged vis) w cs (s, l) = .ok (s', l')) :
    ∃ calls : List (Call V), l' = l ++ calls.map Call.entry ∧ ListCalls cs i w calls := by
  match cs with
  | [] =>
    simp only [walkList, Except.ok.injEq, Prod.mk.injEq] at h
    exact ⟨[], by simp [h.2], by constructor <;> simp⟩
  | c :: cs =>
    rw [walkList] at h
    cases hc : walk (logged vis) w c (s, l) with
    | error p => simp [hc] at h
    | ok r =>
      obtain ⟨s1, l1⟩ := r
      simp only [hc] at h
      obtain ⟨a, ha, hwa⟩ := walk_calls vis w c s l s1 l1 hc
      obtain ⟨b, hb, hwb⟩ := walkList_calls vis w cs (i + 1) s1 l1 s' l' h
      refine ⟨a.map (Call.shift i) ++ b, ?_, ListCalls.cons hwa hwb⟩
      rw [hb, ha]
      simp [Function.comp_def, Call.entry, Call.shift]
end

theorem nodeAt_child {n p d : Node} {π : List Nat} {k : Nat} (hp : nodeAt n π = some p)
    (hd : nodeAt n (π ++ [k]) = some d) : k < p.childs.length := by
  induction π generalizing n with
  | nil =>
    simp only [nodeAt, Option.some.injEq] at hp
    subst hp
    simp only [List.nil_append, nodeAt] at hd
    cases hc : n.childs[k]? with
    | none => simp [hc] at hd
    | some x => exact (List.getElem?_eq_some_iff.1 hc).1
  | cons j π ih =>
    simp only [List.cons_append, nodeAt] at hd hp
    cases hc : n.childs[j]? with
    | none => simp [hc] at hd
    | some x =>
      simp only [hc] at hd hp
      exact ih hp hd

/-- **C07.** Whenever `Walk` returns, its `Visit` calls can be numbered with node addresses such that
they come in strict pre-order (lexicographic order of addresses, so no node is visited twice), the
root is visited with the initial visitor, a node is visited iff `Visit` returned non-nil on its
parent (hence on all its proper ancestors), and it is visited with exactly the visitor returned there. -/
theorem C07_walk_prunes (vis : Visitor V S P) (v : V) (root : Node) (s s' : S)
    (log : List (V × Node × Option V)) (h : walk (logged vis) v root (s, []) = .ok (s', log)) :
    ∃ calls : List (Call V),
      log = calls.map (fun c => (c.visitor, c.node, c.returned)) ∧
      calls.Pairwise (fun c d => List.Lex (· < ·) c.path d.path) ∧
      (∀ c ∈ calls, nodeAt root c.path = some c.node) ∧
      (∃ c ∈ calls, c.path = [] ∧ c.visitor = v) ∧
      (∀ π k w, (∃ d ∈ calls, d.path = π ++ [k] ∧ d.visitor = w) ↔
        ∃ c ∈ calls, c.path = π ∧ c.returned = some w ∧ k < c.node.childs.length) := by
  obtain ⟨calls, hl, hw⟩ := walk_calls vis v root s [] s' log h
  refine ⟨calls, by rw [hl]; rfl, hw.order, hw.node, hw.root, ?_⟩
  intro π k w
  constructor
  · rintro ⟨d, hd, hp, rfl⟩
    obtain ⟨p, hpm, h1, h2⟩ := hw.parent d hd π k hp
    refine ⟨p, hpm, h1, h2, ?_⟩
    exact nodeAt_child (h1 ▸ hw.node p hpm) (hp ▸ hw.node d hd)
  · rintro ⟨c, hc, rfl, hr, hk⟩
    exact hw.child c hc w hr k hk

/-- A pruning visitor: it stops below nodes of type 1; node 2 is skipped, node 3 is not. -/
example : (match walk (logged (Visitor.mk (P := Empty) (fun (v : Unit) (n : Node) (s : Nat) =>
      .ok (s + 1, if n.type = 1 then none else some v)))) ()
      (.mk 0 0 2 [.mk 1 0 1 [.mk 2 0 1 []], .mk 3 1 2 []]) (0, []) with
    | .ok (count, log) => (count, log.map (fun c => c.2.1.type))
    | .error _ => (0, [])) = (3, [0, 1, 3]) := by
  simp [walk, walkList, logged]

end LL1
