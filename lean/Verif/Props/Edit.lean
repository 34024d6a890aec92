import Verif.Proofs.Edit
import Verif.Props.EndToEnd
import Verif.Props.Language
import Verif.Props.Examples
import Verif.Props.SelfGrammar

/-!
# C98: editing a piece of a document

What a user who edits documents through their trees (rename a key, paste a value) relies on: a piece that a node of
the tree spans can be replaced by a piece that a node of the same type spans, in the same or in another document, and the
tree changes only there; and the tree of a piece does not depend on where it stands.
-/

namespace LL1

/-- What `Parse` returns depicts a derivation tree of the text. -/
theorem returned_dtree {order : Order} {g : Grammar} {tbl : Table} {names : Names}
    (h : fromGrammar order g = .ok (tbl, names)) (hz : g.NulFree) (hll : IsLL1 g) (hcov : Covered g tbl) {m : Names}
    {src : Source} {w : Str} (hr : readSource src = .ok w) (h0 : (0 : UInt8) ∉ w) {t : Node} {m' : Names}
    (ht : (Parser.mk tbl (some m)).Returns src (.ok t m')) : ∃ d, IsDTree g 0 w d ∧ t = d.toNode 0 := by
  have hs := (C34_decides order g tbl names h hz hll hcov m src w hr h0).1.2 ⟨t, m', ht⟩
  obtain ⟨d, hd⟩ := (C60_sentence_iff g w).1 hs
  exact ⟨d, hd, (C60_returned_tree order g tbl names h hz hll hcov m src w hr d hd).2 t m' ht⟩

theorem IsDTree.self {g : Grammar} {i : Nat} {w : Str} {d : DTree} (h : IsDTree g i w d) : d.yield = w ∧ IsDTree g i d.yield d := by
  obtain ⟨r, k, alt, cs, h1, h2, h3, h4, rfl⟩ := h
  exact ⟨rfl, r, k, alt, cs, h1, h2, h3, h4, rfl⟩

/-- A node of a rule in a returned tree depicts a derivation tree of the text it spans. -/
theorem occurring_dtree {g : Grammar} {w : Str} {d : DTree} (hd : IsDTree g 0 w d) {n : Node} (hn : n ∈ preorder (d.toNode 0))
    (ht : 0 ≤ n.type) :
    ∃ (i : Nat) (e : DTree), n.type = i ∧ IsDTree g i (slice w n.pos n.stop) e ∧ n = e.toNode n.pos := by
  obtain ⟨hy, hd'⟩ := hd.self
  obtain ⟨t', hg⟩ := graft_exists (m' := n) hn
  obtain ⟨i, e, u, v, h1, h2, h3, h4, _⟩ := graft_dtree hg rfl hd' ht
  refine ⟨i, e, h1, ?_, ?_⟩
  · have hp : n.pos = u.length := by rw [h3, pos_toNode]; simp
    have hs : n.stop = u.length + e.yield.length := by rw [h3, stop_toNode]; simp
    have : slice w n.pos n.stop = e.yield := by
      rw [← hy, h4, hp, hs]
      simp [slice]
    rw [this]
    exact h2
  · have hp : n.pos = 0 + u.length := by rw [h3, pos_toNode]
    rw [hp]
    exact h3

/-- **C98.** A text made by pasting: the piece that a node of the tree of `w₁` spans is replaced by the piece that a node of
the same type in the tree of `w₂` spans.  It is accepted. -/
theorem C98_accepts (order : Order) (g : Grammar) (tbl : Table) (names : Names)
    (h : fromGrammar order g = .ok (tbl, names)) (hz : g.NulFree) (hll : IsLL1 g) (hcov : Covered g tbl) (m : Names)
    (src₁ src₂ src₃ : Source) (w₁ w₂ : Str) (hr₁ : readSource src₁ = .ok w₁) (hr₂ : readSource src₂ = .ok w₂)
    (hw₁ : (0 : UInt8) ∉ w₁) (hw₂ : (0 : UInt8) ∉ w₂) (t₁ t₂ : Node) (m₁ m₂ : Names)
    (h₁ : (Parser.mk tbl (some m)).Returns src₁ (.ok t₁ m₁)) (h₂ : (Parser.mk tbl (some m)).Returns src₂ (.ok t₂ m₂))
    (n₁ n₂ : Node) (hn₁ : n₁ ∈ preorder t₁) (hn₂ : n₂ ∈ preorder t₂) (hty : n₁.type = n₂.type) (hrule : 0 ≤ n₁.type)
    (hr₃ : readSource src₃ = .ok (w₁.take n₁.pos ++ slice w₂ n₂.pos n₂.stop ++ w₁.drop n₁.stop)) :
    ∃ t₃ m₃, (Parser.mk tbl (some m)).Returns src₃ (.ok t₃ m₃) := by
  obtain ⟨d₁, hd₁, rfl⟩ := returned_dtree h hz hll hcov hr₁ hw₁ h₁
  obtain ⟨d₂, hd₂, rfl⟩ := returned_dtree h hz hll hcov hr₂ hw₂ h₂
  obtain ⟨i, e₂, a1, a2, a3⟩ := occurring_dtree hd₂ hn₂ (by omega)
  obtain ⟨t', hg⟩ := graft_exists (m' := n₁) hn₁
  obtain ⟨hy, hd₁'⟩ := hd₁.self
  obtain ⟨i', e, u, v, b1, b2, b3, b4, b5⟩ := graft_dtree hg rfl hd₁' hrule
  have hii : i = i' := by omega
  subst hii
  obtain ⟨hy2, he2⟩ := a2.self
  obtain ⟨d', c1, c2, _⟩ := b5 e₂ he2
  have hp : n₁.pos = u.length := by rw [b3, pos_toNode]; simp
  have hs : n₁.stop = u.length + e.yield.length := by rw [b3, stop_toNode]; simp
  have ht : w₁.take n₁.pos ++ slice w₂ n₂.pos n₂.stop ++ w₁.drop n₁.stop = d'.yield := by
    rw [c2, ← hy2, ← hy, b4, hp, hs]
    simp
  rw [ht] at hr₃
  obtain ⟨m₃, h3⟩ := (C60_returned_tree order g tbl names h hz hll hcov m src₃ _ hr₃ d' c1).1
  exact ⟨_, m₃, h3⟩

/-- **C98.** And if the pasted piece is not empty, its tree is the tree of `w₁` with the pasted node (moved to its new
place) grafted in: nodes on the left stay, nodes on the right move by the difference in length, nodes above grow by it. -/
theorem C98_paste (order : Order) (g : Grammar) (tbl : Table) (names : Names)
    (h : fromGrammar order g = .ok (tbl, names)) (hz : g.NulFree) (hll : IsLL1 g) (hcov : Covered g tbl) (m : Names)
    (src₁ src₂ src₃ : Source) (w₁ w₂ : Str) (hr₁ : readSource src₁ = .ok w₁) (hr₂ : readSource src₂ = .ok w₂)
    (hw₁ : (0 : UInt8) ∉ w₁) (hw₂ : (0 : UInt8) ∉ w₂) (t₁ t₂ : Node) (m₁ m₂ : Names)
    (h₁ : (Parser.mk tbl (some m)).Returns src₁ (.ok t₁ m₁)) (h₂ : (Parser.mk tbl (some m)).Returns src₂ (.ok t₂ m₂))
    (n₁ n₂ t₃ : Node) (hn₂ : n₂ ∈ preorder t₂) (hty : n₁.type = n₂.type) (hrule : 0 ≤ n₁.type) (hne : n₂.pos < n₂.stop)
    (hr₃ : readSource src₃ = .ok (w₁.take n₁.pos ++ slice w₂ n₂.pos n₂.stop ++ w₁.drop n₁.stop))
    (hg : Graft n₁ (n₂.move n₂.pos n₁.pos) t₁ t₃) :
    ∃ m₃, (Parser.mk tbl (some m)).Returns src₃ (.ok t₃ m₃) := by
  obtain ⟨d₁, hd₁, rfl⟩ := returned_dtree h hz hll hcov hr₁ hw₁ h₁
  obtain ⟨d₂, hd₂, rfl⟩ := returned_dtree h hz hll hcov hr₂ hw₂ h₂
  obtain ⟨i, e₂, a1, a2, a3⟩ := occurring_dtree hd₂ hn₂ (by omega)
  obtain ⟨hy, hd₁'⟩ := hd₁.self
  obtain ⟨i', e, u, v, b1, b2, b3, b4, b5⟩ := graft_dtree hg rfl hd₁' hrule
  have hii : i = i' := by omega
  subst hii
  obtain ⟨hy2, he2⟩ := a2.self
  obtain ⟨d', c1, c2, c3⟩ := b5 e₂ he2
  have hp : n₁.pos = u.length := by rw [b3, pos_toNode]; simp
  have hs : n₁.stop = u.length + e.yield.length := by rw [b3, stop_toNode]; simp
  have ht : w₁.take n₁.pos ++ slice w₂ n₂.pos n₂.stop ++ w₁.drop n₁.stop = d'.yield := by
    rw [c2, ← hy2, ← hy, b4, hp, hs]
    simp
  have hst : n₂.stop = n₂.pos + e₂.yield.length := by rw [a3, stop_toNode, pos_toNode]
  have hm : n₂.move n₂.pos n₁.pos = e₂.toNode (0 + u.length) := by
    have := toNode_move n₂.pos n₁.pos 0 e₂
    rw [Nat.add_zero, Nat.add_zero, ← a3] at this
    rw [this, hp, Nat.zero_add]
  have hne' : e₂.yield ≠ [] := by
    intro h0
    rw [h0] at hst
    simp only [List.length_nil, Nat.add_zero] at hst
    omega
  rw [ht] at hr₃
  rw [c3 hm hne']
  exact (C60_returned_tree order g tbl names h hz hll hcov m src₃ _ hr₃ d' c1).1

/-- **C98.** The tree of a piece does not depend on where it stands: two nodes of the same type that span the same text, in
the same or in different documents, have the same tree below them, up to the position. -/
theorem C98_same_piece (order : Order) (g : Grammar) (tbl : Table) (names : Names)
    (h : fromGrammar order g = .ok (tbl, names)) (hz : g.NulFree) (hll : IsLL1 g) (hcov : Covered g tbl) (m : Names)
    (src₁ src₂ : Source) (w₁ w₂ : Str) (hr₁ : readSource src₁ = .ok w₁) (hr₂ : readSource src₂ = .ok w₂)
    (hw₁ : (0 : UInt8) ∉ w₁) (hw₂ : (0 : UInt8) ∉ w₂) (t₁ t₂ : Node) (m₁ m₂ : Names)
    (h₁ : (Parser.mk tbl (some m)).Returns src₁ (.ok t₁ m₁)) (h₂ : (Parser.mk tbl (some m)).Returns src₂ (.ok t₂ m₂))
    (n₁ n₂ : Node) (hn₁ : n₁ ∈ preorder t₁) (hn₂ : n₂ ∈ preorder t₂) (hty : n₁.type = n₂.type) (hrule : 0 ≤ n₁.type)
    (hsame : slice w₁ n₁.pos n₁.stop = slice w₂ n₂.pos n₂.stop) :
    n₁ = n₂.move n₂.pos n₁.pos := by
  obtain ⟨d₁, hd₁, rfl⟩ := returned_dtree h hz hll hcov hr₁ hw₁ h₁
  obtain ⟨d₂, hd₂, rfl⟩ := returned_dtree h hz hll hcov hr₂ hw₂ h₂
  obtain ⟨i, e₂, a1, a2, a3⟩ := occurring_dtree hd₂ hn₂ (by omega)
  obtain ⟨i', e₁, b1, b2, b3⟩ := occurring_dtree hd₁ hn₁ hrule
  have hii : i' = i := by omega
  subst hii
  obtain ⟨hy1, he1⟩ := b2.self
  obtain ⟨hy2, he2⟩ := a2.self
  have hm : n₂.move n₂.pos n₁.pos = e₂.toNode n₁.pos := by
    have := toNode_move n₂.pos n₁.pos 0 e₂
    rw [Nat.add_zero, Nat.add_zero, ← a3] at this
    exact this
  by_cases hem : e₂.yield = []
  · -- both derive nothing
    have hem1 : e₁.yield = [] := by rw [hy1, hsame, ← hy2, hem]
    obtain ⟨_, _, _, cs1, _, _, _, rfl, _⟩ := he1
    obtain ⟨_, _, _, cs2, _, _, _, rfl, _⟩ := he2
    rw [hm, b3, pos_toNode]
    simp only [DTree.yield] at hem hem1
    simp only [DTree.toNode, hem, hem1, if_pos]
  · obtain ⟨t₃, hg⟩ := graft_exists (m' := n₂.move n₂.pos n₁.pos) hn₁
    obtain ⟨hy, hd₁'⟩ := hd₁.self
    obtain ⟨i'', e, u, v, c1, c2, c3, c4, c5⟩ := graft_dtree hg rfl hd₁' hrule
    have hii : i'' = i' := by omega
    subst hii
    obtain ⟨d', f1, f2, f3⟩ := c5 e₂ he2
    have hp : n₁.pos = 0 + u.length := by rw [c3, pos_toNode]
    have hs : n₁.stop = u.length + e.yield.length := by rw [c3, stop_toNode]; simp
    have hpiece : e.yield = e₂.yield := by
      rw [hy2, ← hsame, ← hy, c4, hp, hs]
      simp [slice]
    have hyy : d'.yield = d₁.yield := by rw [f2, c4, hpiece]
    rw [hyy] at f1
    have hdd : d' = d₁ := C60_unambiguous g hll _ _ _ f1 hd₁'
    have ht3 := f3 (by rw [hm, hp]) hem
    rw [hdd] at ht3
    exact graft_self hg ht3.symm

/-- The hypotheses of `C98_paste` are met: in `(x)` the inner `x` (a node for `S`) is replaced by `x,x` (the whole of another
document); the document becomes `(x,x)`, the closing bracket moves by two and the outermost node grows by two. -/
example : let p := Parser.mk Ex.nestedTable (some Ex.nestedNames)
    let n₁ : Node := .mk 0 1 2 [.mk (-1) 1 2 [], .mk 1 2 2 [.mk (-2) 2 2 []]]
    let t₁ : Node := .mk 0 0 3 [.mk (-1) 0 1 [], n₁, .mk (-1) 2 3 [], .mk 1 3 3 [.mk (-2) 3 3 []]]
    let t₂ : Node := .mk 0 0 3 [.mk (-1) 0 1 [], .mk 1 1 3 [.mk (-1) 1 2 [],
      .mk 0 2 3 [.mk (-1) 2 3 [], .mk 1 3 3 [.mk (-2) 3 3 []]]]]
    let t₃ : Node := .mk 0 0 5 [.mk (-1) 0 1 [], .mk 0 1 4 [.mk (-1) 1 2 [], .mk 1 2 4 [.mk (-1) 2 3 [],
      .mk 0 3 4 [.mk (-1) 3 4 [], .mk 1 4 4 [.mk (-2) 4 4 []]]]], .mk (-1) 4 5 [], .mk 1 5 5 [.mk (-2) 5 5 []]]
    (∃ m₁, p.Returns (.string b!"(x)") (.ok t₁ m₁)) ∧ (∃ m₂, p.Returns (.string b!"x,x") (.ok t₂ m₂)) ∧
    t₂ ∈ preorder t₂ ∧ n₁.type = t₂.type ∧ 0 ≤ n₁.type ∧ t₂.pos < t₂.stop ∧
    b!"(x)".take n₁.pos ++ slice b!"x,x" t₂.pos t₂.stop ++ b!"(x)".drop n₁.stop = b!"(x,x)" ∧
    Graft n₁ (t₂.move t₂.pos n₁.pos) t₁ t₃ ∧ (∃ m₃, p.Returns (.string b!"(x,x)") (.ok t₃ m₃)) := by
  refine ⟨⟨_, 60, rfl⟩, ⟨_, 60, rfl⟩, by simp [preorder], rfl, by simp, by simp, by decide +kernel, ?_, ⟨_, 80, rfl⟩⟩
  exact Graft.inside (l := [.mk (-1) 0 1 []]) (r := [.mk (-1) 2 3 [], .mk 1 3 3 [.mk (-2) 3 3 []]]) .here

/-- The JSON grammar of the example and the BNF grammar itself are grammars these theorems apply to: every JSON value can be
replaced by every other, every alternative of a BNF text by every other. -/
example (order : Order) (tbl : Table) (names : Names) (h : fromGrammar order Golden.jsonGrammar = .ok (tbl, names)) :
    Golden.jsonGrammar.NulFree ∧ IsLL1 Golden.jsonGrammar ∧ Covered Golden.jsonGrammar tbl :=
  ⟨json_nulFree, json_ll1, json_covered (json_sameTable h)⟩
example (order : Order) (tbl : Table) (names : Names) (h : fromGrammar order selfGrammar = .ok (tbl, names)) :
    selfGrammar.NulFree ∧ IsLL1 selfGrammar ∧ Covered selfGrammar tbl :=
  ⟨self_nulFree, self_ll1, self_covered (self_sameTable h)⟩

/-- `S ::= A B ; A ::= "a" | "" ; B ::= "b" | ""` -/
def Ex.optional : Grammar := ⟨[
  rule b!"S" [[.nonTerminal b!"A", .nonTerminal b!"B"]],
  rule b!"A" [[.terminal b!"a"], [.nothing]],
  rule b!"B" [[.terminal b!"b"], [.nothing]]]⟩

/-- **C98.** Pasting an empty piece can change more: in `a` the node for `A` is replaced by the empty one from `b`; the result
is the empty document, whose tree shows neither `A` nor `B`, although the empty `B` was there before. -/
theorem C98_empty_piece :
    IsLL1 Ex.optional ∧ NoNullableGap Ex.optional ∧ ∃ tbl names, fromGrammar id Ex.optional = .ok (tbl, names) ∧
      (∃ m, (Parser.mk tbl (some names)).Returns (.string b!"a")
        (.ok (.mk 0 0 1 [.mk 1 0 1 [.mk (-1) 0 1 []], .mk 2 1 1 [.mk (-2) 1 1 []]]) m)) ∧
      (∃ m, (Parser.mk tbl (some names)).Returns (.string b!"b")
        (.ok (.mk 0 0 1 [.mk 1 0 0 [.mk (-2) 0 0 []], .mk 2 0 1 [.mk (-1) 0 1 []]]) m)) ∧
      (∃ m, (Parser.mk tbl (some names)).Returns (.string b!"") (.ok (.mk 0 0 0 [.mk (-2) 0 0 []]) m)) := by
  refine ⟨isLL1_of_check (c := Cert.compute Ex.optional 4) (by decide +kernel), ?_, ?_⟩
  · intro i alt pre n next post ha hs' hn
    obtain ⟨r, hr, hm⟩ := ha
    have hlen : ∀ r ∈ Ex.optional.rules, ∀ a ∈ r.tail.sequences, a.symbols.length ≤ 2 := by decide +kernel
    have := hlen r (List.mem_of_getElem? hr) alt hm
    rw [hs'] at this
    simp at this
    exact List.length_eq_zero_iff.1 (by omega)
  · have h : (fromGrammar id Ex.optional) = .ok ([(2, [(0, []), (98, [.terminal b!"b"])]),
        (1, [(98, []), (0, []), (97, [.terminal b!"a"])]),
        (0, [(98, [.nonTerminal 1, .nonTerminal 2]), (97, [.nonTerminal 1, .nonTerminal 2]), (0, [])])],
        [(0, b!"S"), (1, b!"A"), (2, b!"B")]) := by decide +kernel
    exact ⟨_, _, h, ⟨_, 60, rfl⟩, ⟨_, 60, rfl⟩, ⟨_, 60, rfl⟩⟩

end LL1
