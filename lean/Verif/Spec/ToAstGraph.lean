import Verif.Model.ToAstGraph
import Verif.Spec.Graph

/-!
# What `ToAST` can see of a graph of nodes
-/

namespace LL1
namespace FC

variable {N N' α : Type}

/-- The computation returns `a`. -/
def D.Returns (x : D α) (a : α) : Prop := x.run = some (.ok a)

/-- The computation panics. -/
def D.Panics (x : D α) (p : PanicG) : Prop := x.run = some (.error p)

/-- The computation exhausts the stack. -/
def D.Overflows (x : D α) : Prop := x.run = none

/-- What can be seen at the end of a way down: nothing there, nil, or a node with type, position and end. -/
def NodeView.seen (V : NodeView N) (x : Option N) (path : List Nat) : Option (Option (Int × Int × Int)) :=
  match entryAt V.kids x path with
  | none => none
  | some none => some none
  | some (some n) => some (some (V.type n, V.pos n, V.stop n))

/-- Two roots, possibly of different implementations, look the same along every way down. -/
def LooksLike (V : NodeView N) (x : Option N) (V' : NodeView N') (x' : Option N') : Prop :=
  ∀ path, V.seen x path = V'.seen x' path

/-- The node's span lies in the text. -/
def NodeView.Fits (V : NodeView N) (str : Str) (n : N) : Prop :=
  0 ≤ V.pos n ∧ V.pos n ≤ V.stop n ∧ V.stop n ≤ str.length

/-- A way down from the root on which every node passed through (all but the last) is neither of an ignored type nor of the
rule type: the ways `ToAST`'s search for rules takes. -/
def OpenWay (V : NodeView N) (b : Bindings) (x : Option N) (path : List Nat) : Prop :=
  (∃ y, entryAt V.kids x path = some y) ∧
  ∀ k, k < path.length → ∀ n, entryAt V.kids x (path.take k) = some (some n) →
    V.type n ∉ b.ignoreNodeTypes ∧ V.type n ≠ b.ruleType

/-- What `ToAST` returns for a tree, as a result of the model with bounded stack. -/
def asD : R Grammar → D (Except Err Grammar)
  | .ok g => pure (.ok g)
  | .err e => pure (.error e)
  | .panic _ => throw .sliceBounds
  | .diverge => overflow

end FC
end LL1
