import Verif.Proofs.FromCstCost
import Verif.Props.SelfGrammar

/-!
# C78: how much work `ToAST` does
-/

namespace LL1
namespace FC

/-- **C78.** The model with costs computes what `ToAST` computes. -/
theorem C78_same_results (b : Bindings) (root : Node) (str : Str) : (b.toASTC root str).2 = b.toAST root str :=
  toASTC_snd b str root

/-- **C78.** Whatever the tree, the text and the bindings: `ToAST` calls `Visit` at most `3 k + 6` times per node, where
`k` is the number of `SymbolTerminalTypes` (whether it succeeds, fails or panics), and never has more than six calls of
`Walk` more on the stack than the tree is high. -/
theorem C78_bound (b : Bindings) (root : Node) (str : Str) :
    (b.toASTC root str).1.visits ≤ (3 * b.symbolTerminalTypes.length + 6) * (preorder root).length ∧
    ∀ h, IsHeight root h → (b.toASTC root str).1.depth ≤ h + 6 := by
  have hw := toASTC_cost b str root
  refine ⟨hw.1, fun h hh => ?_⟩
  have he : h = heightOf root := by
    obtain ⟨⟨p1, n1, e1, e2⟩, e3⟩ := hh
    obtain ⟨⟨p2, n2, f1, f2⟩, f3⟩ := isHeight_heightOf root
    have := e3 _ _ f1
    have := f3 _ _ e1
    omega
  rw [he]
  exact hw.2

/-- **C78.** Reading a grammar text with the package's own grammar and bindings: the work of `ToAST` is linear in the
length of the text, and so is its stack. -/
theorem C78_bnf (order : Order) (tbl : Table) (names : Names) (h : fromGrammar order selfGrammar = .ok (tbl, names)) :
    ∃ K, ∀ (nm : Option Names) (src : Source) (text : Str) (t : Node) (m : Names), readSource src = .ok text →
      (Parser.mk tbl nm).Returns src (.ok t m) →
      (selfBindings.toASTC t text).1.visits ≤ K * (text.length + 1) ∧
      (selfBindings.toASTC t text).1.depth ≤ K * (text.length + 1) := by
  obtain ⟨K, hK⟩ := C52_linear_tree_ll1 order selfGrammar tbl names h self_nulFree.start self_ll1
  refine ⟨12 * K + 6, fun nm src text t m hr ht => ?_⟩
  have h1 := hK nm src text t m hr ht
  have hw := toASTC_cost selfBindings text t
  have h3 := heightOf_le_size t
  have hv : (selfBindings.toASTC t text).1.visits ≤ 12 * size t := hw.1
  have hd := hw.2
  have he : (12 * K + 6) * (text.length + 1) = 12 * (K * (text.length + 1)) + 6 * (text.length + 1) := by
    rw [Nat.add_mul, Nat.mul_assoc]
  rw [he]
  generalize K * (text.length + 1) = z at *
  simp only [size] at hv
  constructor <;> omega

/-- A tree of 8 nodes and height 7: 16 calls of `Visit` (at most `12 * 8`), 12 calls of `Walk` at the same time. -/
example : let n : Node := .mk 0 0 9 [.mk 4 0 9 [.mk 18 1 2 [], .mk 5 6 9 [.mk 7 6 9 [.mk 9 6 9
      [.mk 11 7 8 [.mk (-1) 7 8 []]]]]]]
    selfBindings.toASTC n b!"<a>::=\"b\"" = (⟨16, 12⟩, .ok ⟨[⟨b!"a", ⟨[⟨[.terminal b!"b"]⟩]⟩⟩]⟩) ∧ heightOf n = 7 := by
  decide

/-- The bound on the stack is reached: height 6, 12 calls of `Walk`. -/
example : let n : Node := .mk 4 0 9 [.mk 18 1 2 [], .mk 5 6 9 [.mk 7 6 9 [.mk 9 6 9
      [.mk 11 7 8 [.mk 16 7 8 []]]]]]
    selfBindings.toASTC n b!"<a>::=\"b\"" = (⟨16, 12⟩, .err .noEscape) ∧ heightOf n = 6 := by
  decide

end FC
end LL1
