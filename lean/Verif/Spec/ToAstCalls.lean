import Verif.Model.ToAstCalls
import Verif.Spec.ToAstGraph

/-!
# What can be said about the calls that `ToAST` makes
-/

namespace LL1
namespace FC

variable {N N' Sl W P α : Type}

/-- A call and what came of it: an answer or a panic. -/
structure Event (N Sl P : Type) where
  ask : Ask N Sl
  ans : Except P ask.Ans

/-- Everything a computation calls, in order. -/
def NodeProg.log (I : NodeMethods N Sl W P) : NodeProg N Sl α → W → List (Event N Sl P)
  | .ret _, _ => []
  | .panic _, _ => []
  | .overflow, _ => []
  | .ask q k, w => match I.answer q w with
    | (.ok a, w') => ⟨q, .ok a⟩ :: (k a).log I w'
    | (.error x, _) => [⟨q, .error x⟩]

/-- The event is a panic. -/
def Event.Panics (e : Event N Sl P) (x : P) : Prop := e.ans = .error x

/-- The event is a call of a method of `n`. -/
def Event.On (e : Event N Sl P) (n : N) : Prop := e.ask = .type n ∨ e.ask = .pos n ∨ e.ask = .stop n ∨ e.ask = .kids n

/-- The event has brought up the node `n`: an entry of a slice was read. -/
def Event.Brings (e : Event N Sl P) (n : N) : Prop := ∃ sl i, e = ⟨.elem sl i, .ok (some n)⟩

/-- Nodes with effects that stand for other nodes (for example, trees): in the memory `w` the node `n` stands for `n'`, and a
slice for a list of nodes.  A call answers as the node stood for does; it may change memory, but what stood for something
goes on standing for it. -/
structure Represents (I : NodeMethods N Sl W P) (V : NodeView N') where
  Node : W → N → N' → Prop
  Slice : W → Sl → List (Option N') → Prop
  /-- `w'` is `w` or comes after it. -/
  Later : W → W → Prop
  later_refl : ∀ w, Later w w
  later_trans : ∀ {w w' w''}, Later w w' → Later w' w'' → Later w w''
  node_later : ∀ {w w' n n'}, Later w w' → Node w n n' → Node w' n n'
  slice_later : ∀ {w w' sl l}, Later w w' → Slice w sl l → Slice w' sl l
  type : ∀ {w n n'}, Node w n n' → ∃ w', I.type n w = (.ok (V.type n'), w') ∧ Later w w'
  pos : ∀ {w n n'}, Node w n n' → ∃ w', I.pos n w = (.ok (V.pos n'), w') ∧ Later w w'
  stop : ∀ {w n n'}, Node w n n' → ∃ w', I.stop n w = (.ok (V.stop n'), w') ∧ Later w w'
  kids : ∀ {w n n'}, Node w n n' → ∃ sl w', I.kids n w = (.ok sl, w') ∧ Later w w' ∧ Slice w' sl (V.kids n')
  len : ∀ {w sl l}, Slice w sl l → I.len sl = l.length
  elem_nil : ∀ {w sl l i}, Slice w sl l → l[i]? = some none → I.elem sl i w = none
  elem_node : ∀ {w sl l i n'}, Slice w sl l → l[i]? = some (some n') → ∃ n, I.elem sl i w = some n ∧ Node w n n'

/-- A value of the interface stands for another: both nil, or nodes. -/
def Represents.Value {I : NodeMethods N Sl W P} {V : NodeView N'} (R : Represents I V) (w : W) : Option N → Option N' → Prop
  | none, none => True
  | some n, some n' => R.Node w n n'
  | _, _ => False

end FC
end LL1
