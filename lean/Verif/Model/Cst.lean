import Verif.Model.Basic

/-!
# Model of `pkg/cst/cst.go`

Simplifications: positions are `Nat` (Go `int`; the parser only produces non-negative ones), children
are a list without nil entries (the Go slice may be nil, which is the empty list here).
-/

namespace LL1

/-- `type node struct` — cst.go:10-15 (`Node` interface — cst.go:3-8); the constructor is `NewNode`
— cst.go:17-24. -/
inductive Node where
  | mk (typei : Int) (start : Nat) (stop : Nat) (childs : List Node)
  deriving Repr

namespace Node
/-- `Type` — cst.go:26-28. -/
def type : Node → Int | .mk t _ _ _ => t
/-- `Pos` — cst.go:30-32. -/
def pos : Node → Nat | .mk _ s _ _ => s
/-- `End` — cst.go:34-36. -/
def stop : Node → Nat | .mk _ _ e _ => e
/-- `Childs` — cst.go:38-40. -/
def childs : Node → List Node | .mk _ _ _ c => c

@[simp] theorem type_mk (t s e c) : (Node.mk t s e c).type = t := rfl
@[simp] theorem pos_mk (t s e c) : (Node.mk t s e c).pos = s := rfl
@[simp] theorem stop_mk (t s e c) : (Node.mk t s e c).stop = e := rfl
@[simp] theorem childs_mk (t s e c) : (Node.mk t s e c).childs = c := rfl

end Node

/-- A visitor: cst.go:42-44.  `V` are visitor values, `S` is the memory the `Visit` methods share
(captured variables, pointers), `P` is what a panic carries.  `visit v node s` is the call
`v.Visit(node)`; the returned `Option V` is the returned `Visitor` (`none` = nil interface). -/
structure Visitor (V S P : Type) where
  visit : V → Node → S → Except P (S × Option V)

mutual
/-- `Walk` — cst.go:46-54. -/
def walk {V S P : Type} (vis : Visitor V S P) (v : V) (node : Node) (s : S) : Except P S :=
  match node with
  | .mk t p e cs =>
    match vis.visit v (.mk t p e cs) s with
    | .error x => .error x
    | .ok (s', none) => .ok s'
    | .ok (s', some w) => walkList vis w cs s'
/-- The `for _, child := range node.Childs()` loop of `Walk` — cst.go:51-53. -/
def walkList {V S P : Type} (vis : Visitor V S P) (w : V) (nodes : List Node) (s : S) : Except P S :=
  match nodes with
  | [] => .ok s
  | c :: cs =>
    match walk vis w c s with
    | .error x => .error x
    | .ok s' => walkList vis w cs s'
end

end LL1
