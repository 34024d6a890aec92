import Verif.Model.Cst

/-!
# `Walk` and its call stack

`Walk` (cst.go:46-54) calls itself; Go limits the size of a goroutine's stack.  This is `Model/Cst.lean`'s `walk` once
more, now with the number of calls of `Walk` that were active at the same time.
-/

namespace LL1

mutual
/-- `Walk` — cst.go:46-54: the result and the largest number of `Walk` calls active at once. -/
def walkDepth {V S P : Type} (vis : Visitor V S P) (v : V) (node : Node) (s : S) : Except P (S × Nat) :=
  match node with
  | .mk t p e cs =>
    match vis.visit v (.mk t p e cs) s with
    | .error x => .error x
    | .ok (s', none) => .ok (s', 1)
    | .ok (s', some w) =>
      match walkDepthList vis w cs s' with
      | .error x => .error x
      | .ok (s'', d) => .ok (s'', d + 1)
/-- The loop over the children — cst.go:51-53: each call has returned before the next one starts. -/
def walkDepthList {V S P : Type} (vis : Visitor V S P) (w : V) (nodes : List Node) (s : S) : Except P (S × Nat) :=
  match nodes with
  | [] => .ok (s, 0)
  | c :: cs =>
    match walkDepth vis w c s with
    | .error x => .error x
    | .ok (s', d) =>
      match walkDepthList vis w cs s' with
      | .error x => .error x
      | .ok (s'', d') => .ok (s'', max d d')
end

end LL1
