import Verif.Model.Cst

/-!
# `Walk` on any implementation of the interfaces `Node` and `Visitor`

`Model/Cst.lean` models `Walk` on nodes made by `NewNode`.  Here `Node` is an interface with methods written by the
user: nodes may be shared or form cycles, `Childs` may change memory or panic, entries of the returned slice may be nil
or be overwritten while `Walk` runs.  Go allows a bounded number of nested calls; the model takes that bound as an
argument and gives `none` when it is exceeded.
-/

namespace LL1

/-- What the interfaces `Node` and `Visitor` — cst.go:3-8, 42-44 — are implemented by.  `N`: node values, `Sl`: slices
(a pointer to an array, and a length), `V`: visitor values, `S`: memory, `P`: what a panic carries. -/
structure NodeImpl (N Sl V S P : Type) where
  /-- `v.Visit(node)`; `none` is the nil interface, as argument and as result. -/
  visit : V → Option N → S → Except P (S × Option V)
  /-- `n.Childs()`. -/
  childs : N → S → Except P (S × Sl)
  /-- The length of a slice; it is part of the slice value. -/
  len : Sl → Nat
  /-- The entry of a slice at an index; it is read from memory. -/
  elem : Sl → Nat → S → Option N
  /-- The panic of a method call on a nil interface. -/
  nilNode : P

variable {N Sl V S P : Type}

/-- `for _, child := range node.Childs() { Walk(w, child) }` — cst.go:51-53: `k` iterations are left, the next one has
index `i`.  `body` is the call of `Walk`.  `range` evaluates the slice (and its length) once and reads entry `i` when
iteration `i` starts. -/
def rangeLoop (I : NodeImpl N Sl V S P) (body : Option N → S → Option (Except P S)) (sl : Sl) :
    Nat → Nat → S → Option (Except P S)
  | 0, _, s => some (.ok s)
  | k + 1, i, s =>
    match body (I.elem sl i s) s with
    | none => none
    | some (.error x) => some (.error x)
    | some (.ok s') => rangeLoop I body sl k (i + 1) s'

/-- `Walk` — cst.go:46-54, with at most `depth` calls of `Walk` active at once. -/
def walkI (I : NodeImpl N Sl V S P) : Nat → V → Option N → S → Option (Except P S)
  | 0, _, _, _ => none
  | depth + 1, v, node, s =>
    match I.visit v node s with
    | .error x => some (.error x)
    | .ok (s', none) => some (.ok s')
    | .ok (s', some w) =>
      match node with
      | none => some (.error I.nilNode)
      | some n =>
        match I.childs n s' with
        | .error x => some (.error x)
        | .ok (s'', sl) => rangeLoop I (walkI I depth w) sl (I.len sl) 0 s''

/-- The nodes of `Model/Cst.lean` as an implementation: `Childs` — cst.go:38-40 — returns the field. -/
def ownNodes {V S P : Type} (vis : Visitor V S P) (nilVisit : V → S → Except P (S × Option V)) (nilNode : P) :
    NodeImpl Node (List Node) V S P where
  visit v node s := match node with | none => nilVisit v s | some n => vis.visit v n s
  childs n s := .ok (s, n.childs)
  len sl := sl.length
  elem sl i _ := sl[i]?
  nilNode := nilNode

end LL1
