import Verif.Model.WalkDepth
import Verif.Props.Linear

/-!
# C72: how deep `Walk` recurses
-/

namespace LL1

/-- `d` is the number of nodes on a longest way down from the root. -/
def IsHeight (t : Node) (d : Nat) : Prop :=
  (∃ path n, nodeAt t path = some n ∧ path.length + 1 = d) ∧ ∀ path n, nodeAt t path = some n → path.length + 1 ≤ d

mutual
theorem walkDepth_result {V S P : Type} (vis : Visitor V S P) : (v : V) → (t : Node) → (s : S) →
    (match walkDepth vis v t s with | .error x => Except.error x | .ok r => .ok r.1) = walk vis v t s
  | v, .mk ty p e cs, s => by
    unfold walkDepth walk
    cases vis.visit v (.mk ty p e cs) s with
    | error x => rfl
    | ok r =>
      obtain ⟨s', w⟩ := r
      cases w with
      | none => rfl
      | some w =>
        have := walkDepthList_result vis w cs s'
        simp only
        rw [← this]
        cases walkDepthList vis w cs s' <;> rfl
theorem walkDepthList_result {V S P : Type} (vis : Visitor V S P) : (w : V) → (ts : List Node) → (s : S) →
    (match walkDepthList vis w ts s with | .error x => Except.error x | .ok r => .ok r.1) = walkList vis w ts s
  | w, [], s => by simp [walkDepthList, walkList]
  | w, t :: ts, s => by
    have h1 := walkDepth_result vis w t s
    unfold walkDepthList walkList
    rw [← h1]
    cases walkDepth vis w t s with
    | error x => rfl
    | ok r =>
      obtain ⟨s', d⟩ := r
      simp only
      have h2 := walkDepthList_result vis w ts s'
      rw [← h2]
      cases walkDepthList vis w ts s' <;> rfl
end

mutual
/-- Height by recursion. -/
def heightOf : Node → Nat
  | .mk _ _ _ cs => heightOfList cs + 1
def heightOfList : List Node → Nat
  | [] => 0
  | c :: cs => max (heightOf c) (heightOfList cs)
end

theorem heightOfList_ge {c : Node} {cs : List Node} (h : c ∈ cs) : heightOf c ≤ heightOfList cs := by
  induction cs with
  | nil => cases h
  | cons d ds ih =>
    simp only [heightOfList]
    rcases List.mem_cons.1 h with rfl | h
    · omega
    · have := ih h; omega

theorem heightOfList_mem {cs : List Node} (h : cs ≠ []) : ∃ (i : Nat) (c : Node), cs[i]? = some c ∧ heightOf c = heightOfList cs := by
  induction cs with
  | nil => exact absurd rfl h
  | cons d ds ih =>
    by_cases hd : heightOfList ds ≤ heightOf d
    · exact ⟨0, d, rfl, by simp only [heightOfList]; omega⟩
    · have hne : ds ≠ [] := by rintro rfl; simp [heightOfList] at hd
      obtain ⟨i, c, h1, h2⟩ := ih hne
      exact ⟨i + 1, c, by simpa using h1, by simp only [heightOfList]; omega⟩

theorem isHeight_heightOf (t : Node) : IsHeight t (heightOf t) := by
  constructor
  · suffices h : ∀ k t, heightOf t = k → ∃ path n, nodeAt t path = some n ∧ path.length + 1 = k from h _ t rfl
    intro k
    induction k with
    | zero => intro t h; cases t; simp [heightOf] at h
    | succ k ih =>
      intro t h
      obtain ⟨ty, p, e, cs⟩ := t
      simp only [heightOf] at h
      by_cases hc : cs = []
      · subst hc
        exact ⟨[], _, rfl, by simpa [heightOfList] using h⟩
      · obtain ⟨i, c, h1, h2⟩ := heightOfList_mem hc
        obtain ⟨path, n, h3, h4⟩ := ih c (by omega)
        exact ⟨i :: path, n, by simp [nodeAt, h1, h3], by simp; omega⟩
  · intro path
    induction path generalizing t with
    | nil => intro n _; cases t; simp [heightOf]
    | cons i path ih =>
      intro n h
      obtain ⟨ty, p, e, cs⟩ := t
      simp only [nodeAt, Node.childs_mk] at h
      cases hc : cs[i]? with
      | none => simp [hc] at h
      | some c =>
        simp only [hc] at h
        have h1 := ih c n h
        have h2 := heightOfList_ge (List.mem_of_getElem? hc)
        simp only [heightOf, List.length_cons]
        omega

mutual
theorem walkDepth_le {V S P : Type} (vis : Visitor V S P) : (v : V) → (t : Node) → (s : S) → (r : S) → (d : Nat) →
    walkDepth vis v t s = .ok (r, d) → d ≤ heightOf t
  | v, .mk ty p e cs, s, r, d, h => by
    unfold walkDepth at h
    split at h
    · cases h
    · cases h; simp [heightOf]
    · next s' w _ =>
      split at h
      · cases h
      · next s'' d' hl =>
        cases h
        have := walkDepthList_le vis w cs s' r d' hl
        simp only [heightOf]; omega
theorem walkDepthList_le {V S P : Type} (vis : Visitor V S P) : (w : V) → (ts : List Node) → (s : S) → (r : S) → (d : Nat) →
    walkDepthList vis w ts s = .ok (r, d) → d ≤ heightOfList ts
  | w, [], s, r, d, h => by simp only [walkDepthList] at h; cases h; exact Nat.zero_le _
  | w, t :: ts, s, r, d, h => by
    unfold walkDepthList at h
    split at h
    · cases h
    · next s' d1 h1 =>
      split at h
      · cases h
      · next s'' d2 h2 =>
        cases h
        have := walkDepth_le vis w t s s' d1 h1
        have := walkDepthList_le vis w ts s' r d2 h2
        simp only [heightOfList]; omega
end

mutual
theorem walkDepth_eq {V S P : Type} (vis : Visitor V S P) (hnn : ∀ v n s, ∃ s' w, vis.visit v n s = .ok (s', some w)) :
    (v : V) → (t : Node) → (s : S) → ∃ r, walkDepth vis v t s = .ok (r, heightOf t)
  | v, .mk ty p e cs, s => by
    obtain ⟨s', w, h⟩ := hnn v (.mk ty p e cs) s
    obtain ⟨r, hr⟩ := walkDepthList_eq vis hnn w cs s'
    exact ⟨r, by simp only [walkDepth, h, hr, heightOf]⟩
theorem walkDepthList_eq {V S P : Type} (vis : Visitor V S P) (hnn : ∀ v n s, ∃ s' w, vis.visit v n s = .ok (s', some w)) :
    (w : V) → (ts : List Node) → (s : S) → ∃ r, walkDepthList vis w ts s = .ok (r, heightOfList ts)
  | w, [], s => ⟨s, by simp [walkDepthList, heightOfList]⟩
  | w, t :: ts, s => by
    obtain ⟨s', h1⟩ := walkDepth_eq vis hnn w t s
    obtain ⟨r, h2⟩ := walkDepthList_eq vis hnn w ts s'
    exact ⟨r, by simp only [walkDepthList, h1, h2, heightOfList]⟩
end

mutual
theorem heightOf_le_size : (t : Node) → heightOf t ≤ (preorder t).length
  | .mk ty p e cs => by
    have := heightOfList_le_size cs
    simp only [heightOf, preorder, List.length_cons]
    omega
theorem heightOfList_le_size : (ts : List Node) → heightOfList ts ≤ (ts.map preorder).flatten.length
  | [] => by simp [heightOfList]
  | t :: ts => by
    have := heightOf_le_size t
    have := heightOfList_le_size ts
    simp only [heightOfList, List.map_cons, List.flatten_cons, List.length_append]
    omega
end

/-- **C72.** `Walk` recurses as deep as the tree is high, and less if the visitor prunes.  (First part: the model with
the call stack computes what `Walk` computes.) -/
theorem C72_depth {V S P : Type} (vis : Visitor V S P) (v : V) (t : Node) (s : S) :
    (∀ r, walk vis v t s = .ok r ↔ ∃ d, walkDepth vis v t s = .ok (r, d)) ∧
    (∀ x, walk vis v t s = .error x ↔ walkDepth vis v t s = .error x) ∧
    (∀ h, IsHeight t h →
      (∀ r d, walkDepth vis v t s = .ok (r, d) → d ≤ h) ∧
      ((∀ v n s, ∃ s' w, vis.visit v n s = .ok (s', some w)) → ∃ r, walkDepth vis v t s = .ok (r, h))) := by
  have hres := walkDepth_result vis v t s
  refine ⟨?_, ?_, ?_⟩
  · intro r
    rw [← hres]
    cases walkDepth vis v t s with
    | error x => simp
    | ok q => obtain ⟨a, b⟩ := q; simp
  · intro x
    rw [← hres]
    cases walkDepth vis v t s with
    | error x => simp
    | ok q => obtain ⟨a, b⟩ := q; simp
  · intro h hh
    have he : h = heightOf t := by
      obtain ⟨⟨p1, n1, e1, e2⟩, e3⟩ := hh
      obtain ⟨⟨p2, n2, f1, f2⟩, f3⟩ := isHeight_heightOf t
      have := e3 _ _ f1
      have := f3 _ _ e1
      omega
    subst he
    exact ⟨fun r d => walkDepth_le vis v t s r d, fun hnn => walkDepth_eq vis hnn v t s⟩

/-- **C72.** On trees returned by the parser of an LL(1) grammar the recursion is at most linearly deep in the length of
the source. -/
theorem C72_linear (order : Order) (g : Grammar) (tbl : Table) (names : Names) (h : fromGrammar order g = .ok (tbl, names))
    (hz : g.NulStartFree) (hll : IsLL1 g) :
    ∃ K, ∀ (nm : Option Names) (src : Source) (text : Str) (t : Node) (m : Names), readSource src = .ok text →
      (Parser.mk tbl nm).Returns src (.ok t m) →
      ∀ (V S P : Type) (vis : Visitor V S P) (v : V) (s r : S) (d : Nat),
        walkDepth vis v t s = .ok (r, d) → d ≤ K * (text.length + 1) := by
  obtain ⟨K, hK⟩ := C52_linear_tree_ll1 order g tbl names h hz hll
  refine ⟨K, fun nm src text t m hr ht V S P vis v s r d hd => ?_⟩
  have h1 := hK nm src text t m hr ht
  have h2 := walkDepth_le vis v t s r d hd
  have h3 := heightOf_le_size t
  omega

/-- The table of `S ::= "a" S | ""`. -/
def rightTable : Table := [(0, [(0, []), (97, [.terminal b!"a", .nonTerminal 0])])]

/-- The tree of `n` times "a" from position `i`. -/
def rightTree : Nat → Nat → Node
  | i, 0 => .mk 0 i i [.mk (-2) i i []]
  | i, n + 1 => .mk 0 i (i + (n + 1)) [.mk (-1) i (i + 1) [], rightTree (i + 1) n]

theorem heightOf_rightTree (i n : Nat) : heightOf (rightTree i n) = n + 2 := by
  induction n generalizing i with
  | zero => simp [rightTree, heightOf, heightOfList]
  | succ n ih => simp only [rightTree, heightOf, heightOfList, ih]; omega

theorem rightTable_get : rightTable.get 0 = some [(0, []), (97, [.terminal b!"a", .nonTerminal 0])] := rfl

theorem rightTable_hasEntry : rightTable.HasEntry := ⟨_, rightTable_get⟩

theorem rightTable_public : rightTable.Public := by
  intro n row b ops h1 h2 op hop
  simp only [rightTable, GoMap.get] at h1
  grind [GoMap.get, ParserOp.Public]

theorem derives_right (n : Nat) : ∀ (pre : Str) (i : Nat), pre.length = i →
    Derives rightTable (pre ++ List.replicate n 97) [.nonTerminal 0] i (i + n) [rightTree i n] := by
  induction n with
  | zero =>
    intro pre i hi
    have hb : byteAt (pre ++ List.replicate 0 97) i = 0 := by subst hi; simp [byteAt]
    have h : bodyFor rightTable 0 (byteAt (pre ++ List.replicate 0 97) i) = some [] := by rw [hb]; rfl
    exact .nt h (.nil i) (.nil i)
  | succ n ih =>
    intro pre i hi
    have hb : byteAt (pre ++ List.replicate (n + 1) 97) i = 97 := by
      subst hi; simp [byteAt, List.replicate_succ]
    have h : bodyFor rightTable 0 (byteAt (pre ++ List.replicate (n + 1) 97) i) =
        some [.terminal b!"a", .nonTerminal 0] := by rw [hb]; rfl
    have h1 := ih (pre ++ [97]) (i + 1) (by simp [hi])
    rw [List.append_assoc, List.singleton_append, ← List.replicate_succ] at h1
    have h2 : LitAt (pre ++ List.replicate (n + 1) 97) b!"a" i := by
      intro k hk
      have : k = 0 := by simp at hk; omega
      subst this
      show [97][0]? = some (byteAt (pre ++ List.replicate (n + 1) 97) i); rw [hb]; rfl
    have e : i + (n + 1) = i + 1 + n := by omega
    have h3 := Derives.nt h (.lit h2 h1) (.nil _)
    rw [e]
    simpa [rightTree, ntNode, literalNode, e] using h3

/-- **C72.** The bound is reached: with the grammar `S ::= "a" S | ""` the parser accepts every number `n` of `a`s, and
walking the returned tree with a visitor that never prunes has `n + 2` calls of `Walk` active at once. -/
theorem C72_depth_reached (m : Names) (n : Nat) : ∃ t m',
    (Parser.mk rightTable (some m)).Returns (.string (List.replicate n 97)) (.ok t m') ∧
    ∀ (V S P : Type) (vis : Visitor V S P), (∀ v n s, ∃ s' w, vis.visit v n s = .ok (s', some w)) →
      ∀ v s, ∃ r, walkDepth vis v t s = .ok (r, n + 2) := by
  have hd := derives_right n [] 0 rfl
  simp only [List.nil_append, Nat.zero_add] at hd
  have hb : byteAt (List.replicate n (97 : UInt8)) n = 0 := by simp [byteAt]
  obtain ⟨m', hm⟩ := (C13_parse_iff_derivation rightTable m rightTable_hasEntry rightTable_public
    (.string (List.replicate n 97)) _ rfl (rightTree 0 n)).2 ⟨n, hd, hb⟩
  refine ⟨_, m', hm, fun V S P vis hv v s => ?_⟩
  have := walkDepth_eq vis hv v (rightTree 0 n) s
  rwa [heightOf_rightTree] at this

/-- `S ::= "a" S | ""`. -/
def rightGrammar : Grammar := ⟨[rule b!"S" [[.terminal b!"a", .nonTerminal b!"S"], [.nothing]]]⟩

/-- The table is the one `FromGrammar` builds for that grammar. -/
theorem rightGrammar_ok : fromGrammar id rightGrammar = .ok (rightTable, [(0, b!"S")]) := by decide +kernel

example : rightGrammar.NulFree ∧ ∃ tbl names, fromGrammar id rightGrammar = .ok (tbl, names) :=
  ⟨nulFree_of (by decide +kernel), _, _, rightGrammar_ok⟩

end LL1
