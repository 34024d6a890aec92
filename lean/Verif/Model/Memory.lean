import Verif.Model.Basic

/-!
# Slices, arrays and `append`

The memory model of the Go language for slices that start at the beginning of their array: a slice is a reference to
an array with a length and a capacity; `append` writes into the array while there is room and otherwise copies to a
new array of a capacity the runtime chooses.
-/

namespace LL1

/-- A slice.  With capacity 0 there is no array (nil, or an empty literal). -/
structure SliceRef where
  arr : Nat
  len : Nat
  cap : Nat
  deriving DecidableEq, Repr

/-- A nil or empty slice. -/
def SliceRef.empty : SliceRef := { arr := 0, len := 0, cap := 0 }

/-- Memory for elements of type `α`: the arrays allocated so far are those numbered below `next`. -/
structure Mem (α : Type) where
  next : Nat
  arrays : Nat → List α

namespace Mem
variable {α : Type}

/-- The elements of a slice. -/
def read (h : Mem α) (s : SliceRef) : List α := if s.cap = 0 then [] else (h.arrays s.arr).take s.len

/-- The arrays after overwriting one of them. -/
def write (h : Mem α) (a : Nat) (l : List α) : Nat → List α := fun b => if b = a then l else h.arrays b

/-- `append(s, x)`; `zero` fills the unused part of a new array, whose capacity is `grow h.next (s.len + 1)`. -/
def append (grow : Nat → Nat → Nat) (zero : α) (h : Mem α) (s : SliceRef) (x : α) : Mem α × SliceRef :=
  if s.len < s.cap then
    ({ h with arrays := h.write s.arr ((h.arrays s.arr).set s.len x) }, { s with len := s.len + 1 })
  else
    let cap := grow h.next (s.len + 1)
    let content := h.read s ++ x :: List.replicate (cap - (s.len + 1)) zero
    ({ next := h.next + 1, arrays := h.write h.next content }, { arr := h.next, len := s.len + 1, cap := cap })

/-- `make([]T, n)` -/
def make (zero : α) (h : Mem α) (n : Nat) : Mem α × SliceRef :=
  ({ next := h.next + 1, arrays := h.write h.next (List.replicate n zero) }, { arr := h.next, len := n, cap := n })

/-- `s[i] = x` -/
def store (h : Mem α) (s : SliceRef) (i : Nat) (x : α) : Mem α :=
  { h with arrays := h.write s.arr ((h.arrays s.arr).set i x) }

/-- A runtime's choice of capacities: enough for the elements. -/
def Roomy (grow : Nat → Nat → Nat) : Prop := ∀ a n, n ≤ grow a n

end Mem
end LL1
