import Verif.Proofs.Restart

/-!
# C90: starting at another rule

A user who wants to parse only a part of a language (one value of a JSON file, one rule of a grammar) moves
the rule for that part to the front and generates a second table.  These theorems say what that gives.
-/

namespace LL1
open Restart

/-- **C90.** The language of the grammar that starts at rule `i` is what rule `i` derives in the old one. -/
theorem C90_language (g g' : Grammar) (i : Nat) (h : StartsAt g g' i) (hd : DistinctHeads g) (w : Str) :
    Sentence g' w ↔ GenRule g i w := by
  obtain ⟨r, h1, h2⟩ := h.first
  have hc : Corr g g' i 0 := ⟨r, h1, h2⟩
  constructor
  · rintro ⟨alt, ha, hG⟩
    exact ⟨alt, hc.symm.alt ha, gen h.rules.symm hd hG⟩
  · rintro ⟨alt, ha, hG⟩
    exact ⟨alt, hc.alt ha, gen h.rules (distinct h.rules hd) hG⟩

/-- **C90.** Starting at another rule keeps the LL(1) condition, the gap condition and well-formedness. -/
theorem C90_ll1 (g g' : Grammar) (i : Nat) (h : StartsAt g g' i) (hd : DistinctHeads g) :
    (g.NulStartFree → IsLL1 g → IsLL1 g') ∧ (NoNullableGap g → NoNullableGap g') ∧ (g.WellFormed → g'.WellFormed) ∧
      DistinctHeads g' :=
  ⟨fun hz hll => ll1 h.rules hd hz hll, noGap h.rules hd, wellFormed h.rules, distinct h.rules hd⟩

/-- **C90.** A grammar `FromGrammar` accepts is accepted with any of its rules in front, if no rule has two
alternatives for the empty string. -/
theorem C90_accepted (o o' : Order) (g g' : Grammar) (i : Nat) (h : StartsAt g g' i) (hd : DistinctHeads g)
    (hz : g.NulStartFree) (hw : g.WellFormed) (hn : OneNullable g)
    (e : ∃ tbl m, fromGrammar o g = .ok (tbl, m)) : ∃ tbl m, fromGrammar o' g' = .ok (tbl, m) := by
  have hd' := distinct h.rules hd
  have hz' := nulStartFree h.rules hz
  have hno := (C30_conflict_iff o g hz hw).2.1 e
  refine (C30_conflict_iff o' g' hz' (wellFormed h.rules hw)).2.2 fun j hcl => ?_
  obtain ⟨r, pre, alt, post, b, hr, hs, hna, hnf, ear, hmem, hor⟩ := hcl
  obtain ⟨k, hk⟩ := rule_rest h.rules hr
  obtain ⟨r', a1, a2⟩ := id hk
  rw [hr] at a2
  cases a2
  have hna' := nullable h.rules.symm hd hna
  rcases hor with hf | hn2
  · have hb : b ≠ 0 := by
      refine first_ne_zero hz' hf fun t ht => hz' j ear t ⟨r, hr, ?_⟩ ht
      rw [hs]
      exact List.mem_append_left _ hmem
    exact hno k ⟨r, pre, alt, post, b, a1, hs, hna', nextFollow h.rules.symm hd hnf hb k hk.symm, ear, hmem,
      .inl (first h.rules.symm hd hf)⟩
  · obtain ⟨l, hl, hle⟩ := List.getElem_of_mem hmem
    have h1 : r.tail.sequences[l]? = some ear := by
      rw [hs, List.getElem?_append_left hl, List.getElem?_eq_getElem hl, hle]
    have h2 : r.tail.sequences[pre.length]? = some alt := by rw [hs]; simp
    have := hn k r l pre.length ear alt a1 h1 h2 (nullable h.rules.symm hd hn2) hna'
    omega

/-- **C90.** For an LL(1) grammar without nullable gaps, the parser that starts at rule `i` exists and decides what rule `i`
derives: it accepts exactly those texts, and rejects every other one with an error. -/
theorem C90_decides (o : Order) (g g' : Grammar) (i : Nat) (h : StartsAt g g' i) (hd : DistinctHeads g) (hz : g.NulFree)
    (hw : g.WellFormed) (hgap : NoNullableGap g) (hll : IsLL1 g) :
    ∃ tbl names, fromGrammar o g' = .ok (tbl, names) ∧
      ∀ (m : Names) (src : Source) (text : Str), readSource src = .ok text → (0 : UInt8) ∉ text →
        (GenRule g i text ↔ ∃ t m', (Parser.mk tbl (some m)).Returns src (.ok t m')) ∧
        (¬ GenRule g i text ↔ ∃ e, (Parser.mk tbl (some m)).Returns src (.err e)) := by
  have hz' := nulFree h.rules hz
  have hll' := ll1 h.rules hd hz.start hll
  have hgap' := noGap h.rules hd hgap
  obtain ⟨tbl, names, e⟩ := C29_ll1_accepted o g' hz'.start (wellFormed h.rules hw) (distinct h.rules hd) hgap' hll'
  refine ⟨tbl, names, e, fun m src text hr h0 => ?_⟩
  have := C34_decides o g' tbl names e hz' hll' (covered_of_noGap (TG.fromGrammar_ok hz'.start e) hgap') m src text hr h0
  rw [← C90_language g g' i h hd]
  exact this

/-- **C90.** A part of a parse can be had by parsing the part: for every node of a returned tree, the parser that starts
at the node's rule, given the text of the node, returns the tree below the node (as read through the names, at
offsets counted from the node's own). -/
theorem C90_subtree (o o' : Order) (ho : ∀ l, (o l).Perm l) (ho' : ∀ l, (o' l).Perm l) (g g' : Grammar) (i : Nat)
    (h : StartsAt g g' i) (hd : DistinctHeads g) (hz : g.NulFree) (hgap : NoNullableGap g) (hll : IsLL1 g)
    (tbl tbl' : Table) (m m' : Names) (e : fromGrammar o g = .ok (tbl, m)) (e' : fromGrammar o' g' = .ok (tbl', m'))
    (src : Source) (text : Str) (hr : readSource src = .ok text) (h0 : (0 : UInt8) ∉ text) (t : Node) (mt : Names)
    (ht : (Parser.mk tbl (some m)).Returns src (.ok t mt)) (n : Node) (hn : n ∈ preorder t) (hi : n.type = i)
    (src' : Source) (hr' : readSource src' = .ok (slice text n.pos n.stop)) :
    ∃ t' mt', (Parser.mk tbl' (some m')).Returns src' (.ok t' mt') ∧ (t'.shift n.pos).named mt' = n.named mt := by
  have hd' := distinct h.rules hd
  have hz' := nulFree h.rules hz
  have hll' := ll1 h.rules hd hz.start hll
  have hcov := covered_of_noGap (TG.fromGrammar_ok hz.start e) hgap
  have hcov' := covered_of_noGap (TG.fromGrammar_ok hz'.start e') (noGap h.rules hd hgap)
  obtain ⟨d, hdt⟩ := (C60_sentence_iff g text).1
    ((C34_decides o g tbl m e hz hll hcov m src text hr h0).1.2 ⟨t, mt, ht⟩)
  have htt := (C60_returned_tree o g tbl m e hz hll hcov m src text hr d hdt).2 t mt ht
  obtain ⟨r0, k0, alt0, cs0, hr0, hk0, hc0, rfl, hy0⟩ := hdt
  simp only [DTree.yield] at hy0
  -- the node as a derivation tree
  have key : ∃ i' k r alt cs, g.rules[i']? = some r ∧ r.tail.sequences[k]? = some alt ∧ DTrees g alt.symbols cs ∧
      n = (DTree.node i' k cs).toNode n.pos ∧ slice text n.pos n.stop = DTree.yields cs := by
    rw [htt] at hn
    simp only [DTree.toNode, preorder_node] at hn
    rcases List.mem_cons.1 hn with rfl | hn
    · refine ⟨0, k0, r0, alt0, cs0, hr0, hk0, hc0, by simp [DTree.toNode, Node.pos], ?_⟩
      simp [slice, Node.pos, Node.stop, hy0]
    · split at hn
      · exfalso
        simp only [nothingNode, List.map_cons, List.map_nil, List.flatten_cons, List.flatten_nil, List.append_nil,
          preorder_node, List.mem_cons, List.not_mem_nil, or_false] at hn
        subst hn
        simp [Node.type] at hi
      · exact subtrees hc0 text 0 [] (by simp [hy0]) n hn (by omega)
  obtain ⟨i', k, r, alt, cs, hri, hk, hc, hne, hsl⟩ := key
  have hii : i' = i := by
    rw [hne] at hi
    simp only [DTree.toNode, Node.type] at hi
    omega
  subst hii
  obtain ⟨r', f1, f2⟩ := h.first
  rw [hri] at f1
  cases f1
  -- the names
  have hmt := (returns_ok_iff (p := Parser.mk tbl (some m)) (fromGrammar_closedTable e).hasEntry
    (fromGrammar_closedTable e).public hr).1 ht
  obtain ⟨_, m1, hm1, rfl⟩ := hmt
  cases hm1
  have hN : NamesOk g g' (addBuiltinNames m) (addBuiltinNames m') := by
    have n1 := TG.fromGrammar_names ho e
    have n2 := TG.fromGrammar_names ho' e'
    refine ⟨fun a b hab => ?_, fun z hz0 => ?_⟩
    · rw [get_addBuiltinNames, get_addBuiltinNames, if_neg (by omega), if_neg (by omega), if_neg (by omega), if_neg (by omega)]
      obtain ⟨ra, x1, x2⟩ := hab
      rw [(n1 a ra.head).2 ⟨a, rfl, refers_of_distinct hd ⟨ra, x1, rfl⟩⟩,
        (n2 b ra.head).2 ⟨b, rfl, refers_of_distinct hd' ⟨ra, x2, rfl⟩⟩]
    · rw [get_addBuiltinNames, get_addBuiltinNames]
      have q1 : m.get z = none := by
        cases hq : m.get z with
        | none => rfl
        | some nm => obtain ⟨w, hw, _⟩ := (n1 z nm).1 hq; omega
      have q2 : m'.get z = none := by
        cases hq : m'.get z with
        | none => rfl
        | some nm => obtain ⟨w, hw, _⟩ := (n2 z nm).1 hq; omega
      rw [q1, q2]
  obtain ⟨cs', c1, c2, c3⟩ := dtrees h.rules hd' hN hc
  have hdt' : IsDTree g' 0 (slice text n.pos n.stop) (.node 0 k cs') :=
    ⟨r, k, alt, cs', f2, hk, c1, rfl, by rw [hsl]; simp only [DTree.yield, c2]⟩
  obtain ⟨mt', hR⟩ := (C60_returned_tree o' g' tbl' m' e' hz' hll' hcov' m' src' _ hr' _ hdt').1
  refine ⟨_, mt', hR, ?_⟩
  obtain ⟨_, m1, hm1, rfl⟩ := (returns_ok_iff (p := Parser.mk tbl' (some m')) (fromGrammar_closedTable e').hasEntry
    (fromGrammar_closedTable e').public hr').1 hR
  cases hm1
  conv_rhs => rw [hne]
  have hrow := hN.rows i' 0 ⟨r, hri, f2⟩
  simp only [DTree.toNode, Node.shift, Node.named, c2, Nat.add_zero, Nat.zero_add, hrow]
  split
  · simp [Node.shiftAll, Node.namedAll, shift_nothing, named_nothing hN]
  · rw [c3]; simp

/-- The nested-brackets grammar with `T` in front. -/
def Ex.nestedT : Grammar := ⟨Ex.nested.rules.reverse⟩

/-- The hypotheses are met by the nested-brackets grammar and its rule `T`. -/
example : StartsAt Ex.nested Ex.nestedT 1 ∧ DistinctHeads Ex.nested ∧ Ex.nested.NulFree ∧ Ex.nested.WellFormed ∧
    NoNullableGap Ex.nested ∧ IsLL1 Ex.nested :=
  ⟨⟨List.reverse_perm _, _, rfl, rfl⟩, distinctHeads_of (by decide +kernel), nulFree_of (by decide +kernel),
    wellFormed_of (by decide +kernel), Ex.nested_noGap, Ex.nested_ll1⟩

/-- The tree of `,x` read by the grammar that begins with `T`: there `T` is rule 0 and `S` rule 1. -/
def Ex.commaX : Node := .mk 0 0 2 [.mk (-1) 0 1 [], .mk 1 1 2 [.mk (-1) 1 2 [], .mk 0 2 2 [.mk (-2) 2 2 []]]]

/-- The parse of `(x),x` has a node for `T` that covers `,x`; the second parser returns for `,x` the same tree, three
bytes to the left and with the other numbers. -/
example : ∃ tbl' m' t mt mt', fromGrammar id Ex.nestedT = .ok (tbl', m') ∧
    (Parser.mk Ex.nestedTable (some Ex.nestedNames)).Returns (.string b!"(x),x") (.ok t mt) ∧
    Node.mk 1 3 5 [.mk (-1) 3 4 [], .mk 0 4 5 [.mk (-1) 4 5 [], .mk 1 5 5 [.mk (-2) 5 5 []]]] ∈ preorder t ∧
    slice b!"(x),x" 3 5 = b!",x" ∧ (Parser.mk tbl' (some m')).Returns (.string b!",x") (.ok Ex.commaX mt') :=
  ⟨[(1, [(120, [.terminal b!"x", .nonTerminal 0]),
        (40, [.terminal b!"(", .nonTerminal 1, .terminal b!")", .nonTerminal 0])]),
    (0, [(41, []), (0, []), (44, [.terminal b!",", .nonTerminal 1])])], [(0, b!"T"), (1, b!"S")],
    Ex.nestedTree.toNode 0, _, _, by decide +kernel, ⟨100, rfl⟩,
    List.mem_of_getElem? (i := 7) (by simp [Ex.nestedTree, DTree.toNode, DTree.toNodes, DTree.yield, DTree.yields,
      literalNode, nothingNode]), rfl, ⟨100, rfl⟩⟩

/-- `S ::= "a"`, `A ::= "" | ""`. -/
def Ex.twoEmpty : Grammar := ⟨[⟨b!"S", ⟨[⟨[.terminal b!"a"]⟩]⟩⟩, ⟨b!"A", ⟨[⟨[.nothing]⟩, ⟨[.nothing]⟩]⟩⟩]⟩

/-- **C90.** The condition of `C90_accepted` is needed: `FromGrammar` accepts `S ::= "a"`, `A ::= "" | ""`, where nothing
can follow `A`, and reports a conflict for the same rules with `A` in front, where the end of the text can. -/
theorem C90_needs : StartsAt Ex.twoEmpty ⟨Ex.twoEmpty.rules.reverse⟩ 1 ∧ DistinctHeads Ex.twoEmpty ∧ Ex.twoEmpty.NulFree ∧
    Ex.twoEmpty.WellFormed ∧ (∃ tbl m, fromGrammar id Ex.twoEmpty = .ok (tbl, m)) ∧
    fromGrammar id ⟨Ex.twoEmpty.rules.reverse⟩ = .err .conflict :=
  ⟨⟨List.reverse_perm _, _, rfl, rfl⟩, distinctHeads_of (by decide +kernel), nulFree_of (by decide +kernel),
    wellFormed_of (by decide +kernel),
    ⟨[(1, []), (0, [(97, [.terminal b!"a"])])], [(0, b!"S"), (1, b!"A")], by decide +kernel⟩, by decide +kernel⟩

end LL1
