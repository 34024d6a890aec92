import Verif.Model.Cst

/-!
# Specification vocabulary for trees

Independent of `walk`: pre-order listing, addresses of nodes, calls of `Visit`.
-/

namespace LL1

/-- All nodes of a tree, parent before children, children left to right. -/
def preorder : Node → List Node
  | .mk t s e cs => .mk t s e cs :: (cs.map preorder).flatten

/-- The node at an address: `[]` is the root, `π ++ [k]` the `k`-th child of the node at `π`. -/
def nodeAt : Node → List Nat → Option Node
  | n, [] => some n
  | n, k :: path =>
    match n.childs[k]? with
    | none => none
    | some c => nodeAt c path

/-- The nodes tile the interval from `i` to `j`: each starts where the previous one ends. -/
def Tiles : Nat → List Node → Nat → Prop
  | i, [], j => i = j
  | i, c :: cs, j => c.pos = i ∧ Tiles c.stop cs j

/-- Leaves of a tree, left to right. -/
def leaves (t : Node) : List Node := (preorder t).filter (fun n => n.childs.isEmpty)

/-- The topmost nodes that are hit, left to right: below a hit node, and at and below a skipped node,
nothing is looked for. -/
def topmost (skip hit : Int → Bool) : Node → List Node
  | .mk t s e cs =>
    if skip t then [] else if hit t then [.mk t s e cs] else (cs.map (topmost skip hit)).flatten

/-- Two lists of the same length, related element by element. -/
inductive AllPairs {α β : Type} (R : α → β → Prop) : List α → List β → Prop
  | nil : AllPairs R [] []
  | cons {a b as bs} : R a b → AllPairs R as bs → AllPairs R (a :: as) (b :: bs)

/-- One call `v.Visit(node)` at an address together with the visitor it returned (`none` = nil). -/
structure Call (V : Type) where
  path : List Nat
  node : Node
  visitor : V
  returned : Option V

/-- A visitor that behaves like `vis` and additionally writes down every call it receives. -/
def logged {V S P : Type} (vis : Visitor V S P) : Visitor V (S × List (V × Node × Option V)) P where
  visit v n s :=
    match vis.visit v n s.1 with
    | .error p => .error p
    | .ok (s', r) => .ok ((s', s.2 ++ [(v, n, r)]), r)

end LL1
