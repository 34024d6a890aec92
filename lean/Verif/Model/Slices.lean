import Verif.Model.FromCst

/-!
# `ToAST` and the caller's memory

`BNFCSTtoASTBindings.IgnoreNodeTypes` is a Go slice: a window on a backing array that other slices may share.
`ToAST` (fromcst.go:304) sorts that window in place.  Here the arrays are a store, and a call returns its result
together with the store it leaves behind.  The other fields of the bindings are only read (`SymbolTerminalTypes`,
`EscapeMapping`), so they stay values.
-/

namespace LL1
namespace FC

/-- The backing arrays of all `[]int` slices. -/
abbrev Heap := Nat → List Int

/-- A Go `[]int`: array, start and length (the capacity plays no role, nothing is appended). -/
structure Slice where
  arr : Nat
  off : Nat
  len : Nat
  deriving DecidableEq, Repr

/-- The window lies in its array (always true of a Go slice). -/
def Slice.Valid (h : Heap) (s : Slice) : Prop := s.off + s.len ≤ (h s.arr).length

/-- The elements of the slice. -/
def Heap.read (h : Heap) (s : Slice) : List Int := ((h s.arr).drop s.off).take s.len

/-- Overwrite the window with as many elements. -/
def Heap.write (h : Heap) (s : Slice) (l : List Int) : Heap := fun a =>
  if a = s.arr then (h a).take s.off ++ l ++ (h a).drop (s.off + s.len) else h a

/-- `sort.Sort(sort.IntSlice(s))` — fromcst.go:304. -/
def Heap.sort (h : Heap) (s : Slice) : Heap := h.write s (sortInts (h.read s))

/-- A `BNFCSTtoASTBindings` value (fromcst.go:66-97): the slice header `ignore`, and the other fields in `rest`
(whose own `ignoreNodeTypes` is not used). -/
structure BindingsRef where
  ignore : Slice
  rest : Bindings

/-- The bindings as a pure value: the slice replaced by its present contents. -/
def BindingsRef.value (b : BindingsRef) (h : Heap) : Bindings := { b.rest with ignoreNodeTypes := h.read b.ignore }

/-- `ToAST` — fromcst.go:302-324, with its effect on memory. -/
def BindingsRef.toAST (b : BindingsRef) (h : Heap) (root : Node) (str : Str) : R Grammar × Heap :=
  let h := h.sort b.ignore
  ((b.value h).toASTBody root str, h)

/-- One call of `ToAST`. -/
structure Call where
  bindings : BindingsRef
  root : Node
  str : Str

/-- A sequence of `ToAST` calls in one program (a panicking call is recovered by the caller). -/
def runCalls : Heap → List Call → List (R Grammar) × Heap
  | h, [] => ([], h)
  | h, c :: cs =>
    let (r, h) := c.bindings.toAST h c.root c.str
    let (rs, h) := runCalls h cs
    (r :: rs, h)

end FC
end LL1
