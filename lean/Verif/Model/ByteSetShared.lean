import Verif.Model.ByteSet

/-!
# One `ByteSet` variable, several goroutines

`Add` and `Remove` have a pointer receiver and change a word of the variable in two memory accesses: a load and a
store (byteset.go:43-54).  All other methods have a value receiver, so a call copies the four words and works on the copy.
This file models goroutines that do this to one shared variable, with the accesses of different goroutines interleaved
in any order.  Simplification: loads and stores of a 64-bit word are atomic and nothing is reordered.  (Go promises less
to programs with data races; the theorems say when there is none.)
-/

namespace LL1

/-- What a goroutine does to the shared variable. -/
inductive SetCall where
  /-- `s.Add(v)` — byteset.go:43-47 -/
  | add (v : UInt8)
  /-- `s.Remove(v)` — byteset.go:49-54 -/
  | remove (v : UInt8)
  /-- the copy made when any other method is called, or when the variable is assigned to another one —
  byteset.go:56, 73, 116, 124, 136, 148, 155, 162, 167 -/
  | copy
  deriving DecidableEq, Repr

/-- The index of the word a call changes — byteset.go:44, 50. -/
def SetCall.target : SetCall → Option UInt8
  | .add v => some (v / 64)
  | .remove v => some (v / 64)
  | .copy => none

/-- The new value of the word — byteset.go:45-46 and 51-53. -/
def SetCall.apply (w : UInt64) : SetCall → UInt64
  | .add v => w ||| ((1 : UInt64) <<< (v % 64).toUInt64)
  | .remove v => w &&& ~~~((1 : UInt64) <<< (v % 64).toUInt64)
  | .copy => w

/-- A goroutine: the calls it has still to make, the word it has loaded and not yet stored, the words it has copied so
far, and the finished copies, oldest first. -/
structure SetThread where
  todo : List SetCall
  loaded : Option UInt64 := none
  part : UInt8 → Option UInt64 := fun _ => none
  copies : List ByteSet := []

/-- A memory access of a goroutine, or its private work. -/
inductive SetAccess where
  | load (word : UInt8)
  | store (word : UInt8)
  | priv
  deriving DecidableEq, Repr

/-- What a goroutine can do next: the access, and the variable and the goroutine after it. -/
inductive SetThread.Next (s : ByteSet) (t : SetThread) : SetAccess → ByteSet → SetThread → Prop
  /-- the load in `s.data[i] | mask` or `s.data[i] & mask` — byteset.go:46, 53 -/
  | load {c : SetCall} {rest : List SetCall} {i : UInt8} (ht : t.todo = c :: rest) (hc : c.target = some i)
      (hl : t.loaded = none) : SetThread.Next s t (.load i) s { t with loaded := some (s.word i) }
  /-- the store `s.data[i] = …` — byteset.go:46, 53 -/
  | store {c : SetCall} {rest : List SetCall} {i : UInt8} {w : UInt64} (ht : t.todo = c :: rest)
      (hc : c.target = some i) (hl : t.loaded = some w) :
      SetThread.Next s t (.store i) (s.setWord i (c.apply w)) { t with todo := rest, loaded := none }
  /-- one word of a copy, in any order -/
  | copyWord {rest : List SetCall} {i : UInt8} (ht : t.todo = .copy :: rest) (hi : i < 4) (hp : t.part i = none) :
      SetThread.Next s t (.load i) s { t with part := fun j => if j = i then some (s.word i) else t.part j }
  /-- the copy is complete -/
  | copied {rest : List SetCall} {a b c d : UInt64} (ht : t.todo = .copy :: rest) (h0 : t.part 0 = some a)
      (h1 : t.part 1 = some b) (h2 : t.part 2 = some c) (h3 : t.part 3 = some d) :
      SetThread.Next s t .priv s { t with todo := rest, part := fun _ => none, copies := t.copies ++ [⟨a, b, c, d⟩] }

/-- The variable and the goroutines. -/
structure SharedSet where
  set : ByteSet
  threads : Nat → SetThread

/-- One step of goroutine `g`. -/
inductive SharedSet.Step (m : SharedSet) (g : Nat) : SharedSet → Prop
  | mk {a : SetAccess} {s' : ByteSet} {t' : SetThread} (h : (m.threads g).Next m.set a s' t') :
      SharedSet.Step m g ⟨s', fun h => if h = g then t' else m.threads h⟩

/-- Any number of steps of any goroutines. -/
inductive SharedSet.Reaches (m : SharedSet) : SharedSet → Prop
  | refl : SharedSet.Reaches m m
  | step {m' m'' : SharedSet} {g : Nat} (h : SharedSet.Reaches m m') (hs : m'.Step g m'') : SharedSet.Reaches m m''

/-- The goroutines before they start: the variable holds `init`, goroutine `g` is about to run `progs g`. -/
def SharedSet.start (init : ByteSet) (progs : Nat → List SetCall) : SharedSet := ⟨init, fun g => { todo := progs g }⟩

end LL1
