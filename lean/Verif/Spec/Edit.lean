import Verif.Spec.Tree

/-!
# Editing a piece of a document: what happens to the tree

Nothing here knows of grammars or of the parser.
-/

namespace LL1

mutual
/-- The tree with every position moved by as much as leads from `a` to `b`. -/
def Node.move (a b : Nat) : Node → Node
  | .mk ty s e cs => .mk ty (s - a + b) (e - a + b) (Node.moves a b cs)
def Node.moves (a b : Nat) : List Node → List Node
  | [] => []
  | c :: cs => c.move a b :: Node.moves a b cs
end

/-- `Graft n n' t t'`: `t'` is the tree `t` after its node `n` (at one place) is replaced by `n'`: the nodes left of it
stay, the nodes right of it and the ends of the nodes above it move by as much as the end of `n` does. -/
inductive Graft (n n' : Node) : Node → Node → Prop
  | here : Graft n n' n n'
  | inside {ty : Int} {s e : Nat} {l r : List Node} {c c' : Node} :
      Graft n n' c c' →
      Graft n n' (.mk ty s e (l ++ c :: r)) (.mk ty s (e - n.stop + n'.stop) (l ++ c' :: Node.moves n.stop n'.stop r))

end LL1
