import Verif.Model.Basic

/-!
# Model of `pkg/bnf/tablegen/byteset/byteset.go`

The 32-byte set `data [4]uint64` is four `UInt64` words; shifts, masks, the Kernighan loop and the
De Bruijn multiplication are the code's own 64-bit operations.  The two `for v != 0` loops carry a
fuel argument and return `none` if it runs out (proved impossible in `Proofs/ByteSet.lean`).
-/

namespace LL1

/-- `type ByteSet struct { data [4]uint64 }` — byteset.go:31-33. -/
structure ByteSet where
  d0 : UInt64
  d1 : UInt64
  d2 : UInt64
  d3 : UInt64
  deriving DecidableEq, Repr

namespace ByteSet

/-- The zero value `ByteSet{}` — byteset.go:36. -/
def empty : ByteSet := ⟨0, 0, 0, 0⟩

/-- Array read `s.data[i]` — byteset.go:46,53,59.  `i` is a byte divided by 64, so only 0..3 occur. -/
def word (s : ByteSet) (i : UInt8) : UInt64 :=
  if i = 0 then s.d0 else if i = 1 then s.d1 else if i = 2 then s.d2 else s.d3

/-- Array write `s.data[i] = w` — byteset.go:46,53. -/
def setWord (s : ByteSet) (i : UInt8) (w : UInt64) : ByteSet :=
  if i = 0 then { s with d0 := w } else if i = 1 then { s with d1 := w }
  else if i = 2 then { s with d2 := w } else { s with d3 := w }

/-- `Add` — byteset.go:43-47. -/
def add (s : ByteSet) (value : UInt8) : ByteSet :=
  let i := value / 64
  let mask := (1 : UInt64) <<< (value % 64).toUInt64
  s.setWord i (s.word i ||| mask)

/-- `Remove` — byteset.go:49-54. -/
def remove (s : ByteSet) (value : UInt8) : ByteSet :=
  let i := value / 64
  let mask := (1 : UInt64) <<< (value % 64).toUInt64
  let mask := ~~~mask
  s.setWord i (s.word i &&& mask)

/-- `New` — byteset.go:35-41. -/
def new (values : List UInt8) : ByteSet := values.foldl add empty

/-- `Contains` — byteset.go:56-60. -/
def contains (s : ByteSet) (value : UInt8) : Bool :=
  let i := value / 64
  let offset := (value % 64).toUInt64
  (s.word i >>> offset) &&& 1 == 1

/-- The loop of `popCount` — byteset.go:65-71: `for c = 0; v != 0; c++ { v &= v - 1 }`. -/
def popLoop : (fuel : Nat) → (v : UInt64) → (c : Nat) → Option Nat
  | 0, v, c => if v = 0 then some c else none
  | fuel + 1, v, c => if v = 0 then some c else popLoop fuel (v &&& (v - 1)) (c + 1)

/-- `popCount` — byteset.go:65-71. -/
def popCount (v : UInt64) : Option Nat := popLoop 64 v 0

/-- `Len` — byteset.go:73-80. -/
def len (s : ByteSet) : Option Nat := do
  let a ← popCount s.d0
  let b ← popCount s.d1
  let c ← popCount s.d2
  let d ← popCount s.d3
  return 0 + a + b + c + d

/-- `lookupTable` — byteset.go:82-86. -/
def lookupTable : List UInt8 :=
  [0,  1, 56,  2, 57, 16,  3, 47, 61, 58, 17, 41, 32,  4, 36, 48,
  62, 14, 59, 30, 12, 18, 42, 20, 44, 33, 27,  5, 37,  8, 22, 49,
  63, 55, 15, 46, 60, 40, 31, 35, 13, 29, 11, 19, 43, 26,  7, 21,
  54, 45, 39, 34, 28, 10, 25,  6, 53, 38,  9, 24, 52, 23, 51, 50]

/-- A 64-bit value shifted right by 58 is an index of the table. -/
theorem lookup_index (v : UInt64) : (v >>> 58).toNat < lookupTable.length := by
  have h1 : (v >>> 58).toNat = v.toNat / 2 ^ 58 := by
    rw [UInt64.toNat_shiftRight, Nat.shiftRight_eq_div_pow]; rfl
  have h2 := v.toNat_lt
  have h3 : lookupTable.length = 64 := rfl
  omega

/-- `log2pow2n` — byteset.go:97-99.  The array read carries the proof that it is in range. -/
def log2pow2n (pow2n : UInt64) : UInt8 :=
  lookupTable[((pow2n * 0x037515ED33963F09) >>> 58).toNat]'(lookup_index _)

/-- `realBytesF` — byteset.go:104-114; the callback is "append to the result" (the only way the code
uses it, up to what is done with the bytes), so the loop returns the bytes in callback order. -/
def realBytes : (fuel : Nat) → (v : UInt64) → (o : UInt8) → Option (List UInt8)
  | 0, v, _ => if v = 0 then some [] else none
  | fuel + 1, v, o =>
    if v = 0 then some []
    else
      let i := v
      let v := v &&& (v - 1)
      let i := i - v
      let b := o + log2pow2n i
      match realBytes fuel v o with
      | none => none
      | some bs => some (b :: bs)

/-- `walkBytes` — byteset.go:116-121 — the sequence of bytes passed to the callback;
also `Bytes` — byteset.go:124-133. -/
def bytes (s : ByteSet) : Option (List UInt8) := do
  let a ← realBytes 64 s.d0 0x00
  let b ← realBytes 64 s.d1 0x40
  let c ← realBytes 64 s.d2 0x80
  let d ← realBytes 64 s.d3 0xC0
  return a ++ b ++ c ++ d

/-- `Union` — byteset.go:136-145. -/
def union (s other : ByteSet) : ByteSet :=
  ⟨s.d0 ||| other.d0, s.d1 ||| other.d1, s.d2 ||| other.d2, s.d3 ||| other.d3⟩

/-- `Equal` — byteset.go:148-153. -/
def equal (s other : ByteSet) : Bool :=
  s.d0 == other.d0 && s.d1 == other.d1 && s.d2 == other.d2 && s.d3 == other.d3

/-- `IsSubSet` — byteset.go:155-160. -/
def isSubSet (s other : ByteSet) : Bool :=
  (s.d0 &&& other.d0) == s.d0 && (s.d1 &&& other.d1) == s.d1 &&
  (s.d2 &&& other.d2) == s.d2 && (s.d3 &&& other.d3) == s.d3

/-- `IsSuperSet` — byteset.go:162-164. -/
def isSuperSet (s other : ByteSet) : Bool := other.isSubSet s

/-- One upper-case hexadecimal digit (part of Go's `%02X`). -/
def hexDigit (n : UInt8) : UInt8 := if n < 10 then 48 + n else 55 + n

/-- `fmt.Fprintf(&sb, "%02X ", b)` — byteset.go:173. -/
def fmtByte (b : UInt8) : Str := [hexDigit (b / 16), hexDigit (b % 16), 32]

/-- `String` — byteset.go:167-186.  `c` counts the bytes written by the callback; the last byte of
the buffer is overwritten by `]`. -/
def toStr (s : ByteSet) : Option Str :=
  match s.bytes with
  | none => none
  | some bs =>
    let written := (bs.map fmtByte).flatten
    let c := written.length
    let sb := (91 : UInt8) :: written
    if c = 0 then some b!"[]"
    else some (sb.set (sb.length - 1) 93)

end ByteSet
end LL1
