import Verif.Spec.Edit
import Verif.Proofs.Reshape

/-!
# Editing a piece of a document
-/

namespace LL1

variable {g : Grammar}

mutual
theorem toNode_move (a b s : Nat) : ∀ d : DTree, (d.toNode (a + s)).move a b = d.toNode (b + s)
  | .leaf t => by
    simp only [DTree.toNode, literalNode, Node.move, nothingNode]
    have e1 : a + s - a + b = b + s := by omega
    have e2 : a + s + t.length - a + b = b + s + t.length := by omega
    rw [e1, e2]
    split <;> simp [Node.moves, Node.move, Nat.add_comm]
  | .empty => by
    simp only [DTree.toNode, nothingNode, Node.move, Node.moves]
    congr 1 <;> omega
  | .node i k cs => by
    simp only [DTree.toNode, Node.move]
    have e1 : a + s - a + b = b + s := by omega
    have e2 : a + s + (DTree.yields cs).length - a + b = b + s + (DTree.yields cs).length := by omega
    rw [e1, e2]
    by_cases h : DTree.yields cs = []
    · rw [if_pos h, if_pos h]
      simp [Node.moves, Node.move, nothingNode, Nat.add_comm]
    · rw [if_neg h, if_neg h, toNodes_move a b s cs]
theorem toNodes_move (a b s : Nat) : ∀ ds : List DTree,
    Node.moves a b (DTree.toNodes (a + s) ds) = DTree.toNodes (b + s) ds
  | [] => by simp [DTree.toNodes, Node.moves]
  | d :: ds => by
    rw [DTree.toNodes, Node.moves, toNode_move a b s d, DTree.toNodes]
    have := toNodes_move a b (s + d.yield.length) ds
    rw [Nat.add_assoc, this, Nat.add_assoc]
end

theorem toNodes_append (p : Nat) (ds es : List DTree) :
    DTree.toNodes p (ds ++ es) = DTree.toNodes p ds ++ DTree.toNodes (p + (DTree.yields ds).length) es := by
  induction ds generalizing p with
  | nil => simp [DTree.toNodes, DTree.yields]
  | cons d ds ih => simp [DTree.toNodes, DTree.yields, ih, Nat.add_assoc]

theorem toNodes_split : ∀ {l : List Node} {c : Node} {r : List Node} {p : Nat} {ds : List DTree},
    DTree.toNodes p ds = l ++ c :: r →
    ∃ xs x ys, ds = xs ++ x :: ys ∧ l = DTree.toNodes p xs ∧ c = x.toNode (p + (DTree.yields xs).length) ∧
      r = DTree.toNodes (p + (DTree.yields xs).length + x.yield.length) ys
  | [], c, r, p, [], h => by simp [DTree.toNodes] at h
  | [], c, r, p, d :: ds, h => by
    simp only [DTree.toNodes, List.nil_append, List.cons.injEq] at h
    exact ⟨[], d, ds, rfl, by simp [DTree.toNodes], by simp [DTree.yields, h.1], by simp [DTree.yields, h.2]⟩
  | _ :: _, c, r, p, [], h => by simp [DTree.toNodes] at h
  | a :: l, c, r, p, d :: ds, h => by
    simp only [DTree.toNodes, List.cons_append, List.cons.injEq] at h
    obtain ⟨xs, x, ys, rfl, h2, h3, h4⟩ := toNodes_split h.2
    refine ⟨d :: xs, x, ys, rfl, by simp [DTree.toNodes, ← h.1, h2], ?_, ?_⟩
    · rw [h3]; simp [DTree.yields, Nat.add_assoc]
    · rw [h4]; simp [DTree.yields, Nat.add_assoc]

/-- Nodes of rules do not occur below leaves. -/
theorem graft_leaf {n n' t t' : Node} (h : Graft n n' t t') (hn : 0 ≤ n.type) (ht : t.type < 0)
    (hc : ∀ c ∈ t.childs, c.type < 0 ∧ c.childs = []) : False := by
  cases h with
  | here => omega
  | @inside ty s e l r c c' h =>
    have := hc c (by simp)
    cases h with
    | here => omega
    | inside _ => simp at this

theorem stop_toNode (p : Nat) : ∀ d : DTree, (d.toNode p).stop = p + d.yield.length
  | .leaf t => by simp [DTree.toNode, literalNode, DTree.yield]
  | .empty => by simp [DTree.toNode, nothingNode, DTree.yield]
  | .node i k cs => by simp [DTree.toNode, DTree.yield]

theorem pos_toNode (p : Nat) : ∀ d : DTree, (d.toNode p).pos = p
  | .leaf t => by simp [DTree.toNode, literalNode]
  | .empty => by simp [DTree.toNode, nothingNode]
  | .node i k cs => by simp [DTree.toNode]

theorem dtrees_split_trees {ts : List DTree} : ∀ {us : List DTree} {syms : List Symbol}, DTrees g syms (us ++ ts) →
    ∃ ss zs, syms = ss ++ zs ∧ DTrees g ss us ∧ DTrees g zs ts := by
  intro us
  induction us with
  | nil => exact fun {syms} h => ⟨[], syms, rfl, .nil, h⟩
  | cons a us ih =>
    intro syms h
    rw [List.cons_append] at h
    cases h with
    | terminal h => obtain ⟨ss, zs, rfl, ha, hb⟩ := ih h; exact ⟨_ :: ss, zs, rfl, .terminal ha, hb⟩
    | nothing h => obtain ⟨ss, zs, rfl, ha, hb⟩ := ih h; exact ⟨_ :: ss, zs, rfl, .nothing ha, hb⟩
    | nonTerminal q1 q2 q3 q4 h =>
      obtain ⟨ss, zs, rfl, ha, hb⟩ := ih h; exact ⟨_ :: ss, zs, rfl, .nonTerminal q1 q2 q3 q4 ha, hb⟩

/-- The node that is replaced depicts a derivation tree; and replacing that tree in the derivation tree gives one
that the new tree depicts. -/
theorem graft_dtree {n n' t t' : Node} (h : Graft n n' t t') : ∀ {i0 p : Nat} {d : DTree},
    t = d.toNode p → IsDTree g i0 d.yield d → 0 ≤ n.type →
    ∃ (i : Nat) (e : DTree) (u v : Str), n.type = i ∧ IsDTree g i e.yield e ∧ n = e.toNode (p + u.length) ∧
      d.yield = u ++ e.yield ++ v ∧
      ∀ e' : DTree, IsDTree g i e'.yield e' →
        ∃ d' : DTree, IsDTree g i0 d'.yield d' ∧ d'.yield = u ++ e'.yield ++ v ∧
          (n' = e'.toNode (p + u.length) → e'.yield ≠ [] → t' = d'.toNode p) := by
  induction h with
  | here =>
    intro i0 p d ht hd hn
    obtain ⟨r, k, alt, cs, h1, h2, h3, rfl, _⟩ := hd
    refine ⟨i0, .node i0 k cs, [], [], by rw [ht]; simp [DTree.toNode], ⟨r, k, alt, cs, h1, h2, h3, rfl, rfl⟩, by simpa using ht,
      by simp, fun e' he' => ⟨e', he', by simp, fun hn' _ => by simpa using hn'⟩⟩
  | @inside ty s e l rr c c' hg ih =>
    intro i0 p d ht hd hn
    obtain ⟨r, k, alt, cs, h1, h2, h3, rfl, _⟩ := hd
    simp only [DTree.toNode, Node.mk.injEq] at ht
    obtain ⟨rfl, rfl, rfl, hcs⟩ := ht
    by_cases hy : DTree.yields cs = []
    · rw [if_pos hy] at hcs
      have hc : c = nothingNode s := by
        have : c ∈ l ++ c :: rr := by simp
        rw [hcs] at this
        simpa using this
      subst hc
      exact (graft_leaf hg hn (by simp [nothingNode]) (by simp [nothingNode])).elim
    · rw [if_neg hy] at hcs
      obtain ⟨xs, x, ys, rfl, rfl, hcx, rfl⟩ := toNodes_split hcs.symm
      -- the child that changes is a node for a rule
      obtain ⟨us, vs, e1, hA, hB⟩ : ∃ ss zs, alt.symbols = ss ++ zs ∧ DTrees g ss xs ∧ DTrees g zs (x :: ys) := by
        exact dtrees_split_trees h3
      cases hB with
      | @terminal tt rest _ hB =>
        refine (graft_leaf hg hn ?_ ?_).elim
        · rw [hcx]; simp [DTree.toNode, literalNode]
        · rw [hcx]
          simp only [DTree.toNode, literalNode, Node.childs_mk]
          split <;> simp [nothingNode]
      | nothing hB =>
        refine (graft_leaf hg hn ?_ ?_).elim
        · rw [hcx]; simp [DTree.toNode, nothingNode]
        · rw [hcx]; simp [DTree.toNode, nothingNode]
      | @nonTerminal nm i1 k1 r1 a1 rest cs1 _ q1 q2 q3 q4 hB =>
        obtain ⟨i, e, u, v, f1, f2, f3, f4, f5⟩ := ih (i0 := i1) hcx ⟨r1, k1, a1, cs1, q2, q3, q4, rfl, rfl⟩ hn
        refine ⟨i, e, DTree.yields xs ++ u, v ++ DTree.yields ys, f1, f2, ?_, ?_, ?_⟩
        · rw [f3]; simp [Nat.add_assoc]
        · simp only [DTree.yield, yields_append, DTree.yields]
          simp only [DTree.yield] at f4
          rw [f4]
          simp
        · intro e' he'
          obtain ⟨x', hx', y', g5⟩ := f5 e' he'
          obtain ⟨r2, k2, a2, cs2, p2, p3, p4, rfl, _⟩ := hx'
          refine ⟨.node i0 k (xs ++ .node i1 k2 cs2 :: ys), ⟨r, k, alt, _, h1, h2, ?_, rfl, rfl⟩, ?_, ?_⟩
          · rw [e1]
            exact dtrees_append hA (.nonTerminal q1 p2 p3 p4 hB)
          · simp only [DTree.yield] at y' ⊢
            simp only [yields_append, DTree.yields, DTree.yield, y']
            simp
          · intro hn' hne
            have hg' := g5 (by rw [hn']; simp [Nat.add_assoc]) hne
            have hns : n.stop = s + (DTree.yields xs).length + u.length + e.yield.length := by
              rw [f3, stop_toNode]
            have hns' : n'.stop = s + (DTree.yields xs).length + u.length + e'.yield.length := by
              rw [hn', stop_toNode]; simp [Nat.add_assoc]
            have hyl : (DTree.yields cs1).length = u.length + e.yield.length + v.length := by
              simp only [DTree.yield] at f4; rw [f4]; simp [Nat.add_assoc]
            have hyl2 : (DTree.yields cs2).length = u.length + e'.yield.length + v.length := by
              simp only [DTree.yield] at y'; rw [y']; simp [Nat.add_assoc]
            have hyne : DTree.yields (xs ++ .node i1 k2 cs2 :: ys) ≠ [] := by
              intro h0
              have : (DTree.yields (xs ++ .node i1 k2 cs2 :: ys)).length = 0 := by rw [h0]; rfl
              simp only [yields_append, DTree.yields, DTree.yield, List.length_append] at this
              have : e'.yield.length = 0 := by omega
              exact hne (List.length_eq_zero_iff.1 this)
            simp only [DTree.toNode, if_neg hyne, Node.mk.injEq, true_and]
            refine ⟨?_, ?_⟩
            · simp only [yields_append, DTree.yields, DTree.yield, List.length_append, hns, hns']
              omega
            · rw [toNodes_append, DTree.toNodes, hg']
              congr 2
              simp only [DTree.yield]
              have ea : s + (DTree.yields xs).length + (DTree.yields cs1).length = n.stop + v.length := by omega
              have eb : s + (DTree.yields xs).length + (DTree.yields cs2).length = n'.stop + v.length := by omega
              rw [ea, eb, toNodes_move]

/-- Every node of a tree can be replaced. -/
theorem graft_exists {m m' : Node} : ∀ {t : Node}, m ∈ preorder t → ∃ t', Graft m m' t t'
  | .mk ty s e cs, h => by
    rw [preorder, List.mem_cons, List.mem_flatten] at h
    rcases h with rfl | ⟨l, hl, hm⟩
    · exact ⟨m', .here⟩
    · obtain ⟨c, hc, rfl⟩ := List.mem_map.1 hl
      have : sizeOf c < sizeOf cs := List.sizeOf_lt_of_mem hc
      obtain ⟨c', hg⟩ := graft_exists (m := m) (m' := m') hm
      obtain ⟨l, r, rfl⟩ := List.append_of_mem hc
      exact ⟨_, .inside hg⟩

/-- Replacing a node by something else changes the tree. -/
theorem graft_self {n n' t : Node} : ∀ {t' : Node}, Graft n n' t t' → t = t' → n = n' := by
  intro t' h
  induction h with
  | here => exact id
  | inside _ ih =>
    intro e
    simp only [Node.mk.injEq, true_and] at e
    have := List.append_cancel_left e.2
    rw [List.cons.injEq] at this
    exact ih this.1

end LL1
