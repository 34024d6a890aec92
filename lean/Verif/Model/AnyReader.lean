import Verif.Model.Live
import Verif.Model.Reader

/-!
# `Parse` on an `io.Reader` that may do anything

`Model/Reader.lean` has readers that return bytes.  In Go `Read(p)` is arbitrary code that is handed a slice of
`io.ReadAll`'s buffer: it can use all of `p` as scratch space, keep `p` and write to it later, return any count, also a
negative one, panic, change the maps the parser was built from, or call `Parse` again.  This is `Parse` (parser.go:474-499,
readSource's case at parser.go:468-469) with the buffer of `io.ReadAll` (Go 1.19, `io/io.go`) made explicit.
-/

namespace LL1.AnyReader

/-- How a call of `Read` ends. -/
inductive ReadRes (σ : Type) where
  /-- It returns `(n, e)`.  `mem` is what the memory within the reader's reach holds now; `s` is the state of everything
  else. -/
  | returns (mem : Str) (n : Int) (e : Option ReadErr) (s : σ)
  /-- It panics with the value `v`. -/
  | panics (v : Str)

/-- An `io.Reader`.  `r s reach off` is one call of `Read`: `s` is the state of the reader and of everything else in the
program but the buffer; `reach` is the content of that part of the buffer's array which lies in some slice this or an
earlier call was handed; the slice `p` of this call begins at `off` in it and ends where it ends. -/
abbrev AnyReader (σ : Type) := σ → (reach : Str) → (off : Nat) → ReadRes σ

/-- Writing `new` over `old`, which keeps its length: a slice can not be written outside its bounds. -/
def overwrite (old new : Str) : Str := new.take old.length ++ old.drop new.length

/-- The buffer of `io.ReadAll`: its array (`cap` is the length), `len(b)`, and the lowest index the reader was ever
handed of this array. -/
structure Buf where
  arr : Str
  len : Nat
  low : Nat

/-- `b := make([]byte, 0, 512)`. -/
def Buf.init : Buf := ⟨List.replicate 512 0, 0, 0⟩

/-- The part of the array within the reader's reach. -/
def Buf.reach (b : Buf) : Str := b.arr.drop b.low

/-- The array after the part within the reader's reach was written to. -/
def Buf.put (b : Buf) (mem : Str) : Str := b.arr.take b.low ++ overwrite b.reach mem

/-- `append(b, 0)[:len(b)]` when `len(b) = cap(b)`: a new array with a copy; nobody was handed any of it.  `grow` is the
capacity `append` picks. -/
def Buf.grown (b : Buf) (grow : Nat → Nat) : Buf :=
  ⟨b.arr ++ List.replicate (grow b.arr.length - b.arr.length) 0, b.len, b.len⟩

/-- How `io.ReadAll` ends: it returns the buffer and the error; or the reader's panic passes through; or `b[:len(b)+n]`
is out of range. -/
inductive ReadAllEnd (σ : Type) where
  | done (b : Buf) (e : Option Str) (s : σ)
  | readPanic (v : Str)
  | boundsPanic

/-- The loop of `io.ReadAll(r)`. -/
def readAllFuel {σ : Type} (r : AnyReader σ) (grow : Nat → Nat) : (fuel : Nat) → Buf → σ → Option (ReadAllEnd σ)
  | 0, _, _ => none
  | fuel + 1, b, s =>
    match r s b.reach (b.len - b.low) with
    | .panics v => some (.readPanic v)
    | .returns mem n e s' =>
      let arr := b.put mem
      let len := (b.len : Int) + n
      if len < 0 ∨ len > arr.length then some .boundsPanic
      else
        let b' : Buf := ⟨arr, len.toNat, min b.low len.toNat⟩
        match e with
        | some .eof => some (.done b' none s')
        | some (.other m) => some (.done b' (some m) s')
        | none => readAllFuel r grow fuel (if b'.len = b'.arr.length then b'.grown grow else b') s'

/-- How `Parse(r)` ends. -/
inductive AnyOutcome (σ : Type) where
  | done (o : Outcome) (s : σ)
  | readPanic (v : Str)
  | boundsPanic

/-- `Parse(r)` for an `io.Reader` that is no `*bytes.Buffer` — parser.go:474-499.  `maps s` are the contents of the two
maps the parser holds when the rest of the program is in state `s`: they are checked before the reader is called and used
after it was.  `late k` says what the bytes within the reader's reach are when the parser reads its source for the `k`-th
time (a reader may have kept its slices and given them to another goroutine). -/
def parseFuel {σ : Type} (maps : σ → Parser) (r : AnyReader σ) (late : Nat → Str → Str) (grow : Nat → Nat) (fuel : Nat)
    (s : σ) : Option (AnyOutcome σ) :=
  if (maps s).table.length = 0 then some (.done (.err .emptyTable) s)
  else
    match (maps s).table.get 0 with
    | none => some (.done (.err .noEntry) s)
    | some _ =>
      match readAllFuel r grow fuel Buf.init s with
      | none => none
      | some (.readPanic v) => some (.readPanic v)
      | some .boundsPanic => some .boundsPanic
      | some (.done _ (some m) s') => some (.done (.err (.reader m)) s')
      | some (.done b none s') =>
        match Live.runFuel (maps s').table (maps s').names
            (fun k => (b.put (late k b.reach)).take b.len) fuel 0 initState with
        | none => none
        | some o => some (.done o s')

/-- The call `Parse(r)` ends with `o`. -/
def Ends {σ : Type} (maps : σ → Parser) (r : AnyReader σ) (late : Nat → Str → Str) (grow : Nat → Nat) (s : σ)
    (o : AnyOutcome σ) : Prop :=
  ∃ fuel, parseFuel maps r late grow fuel s = some o

/-- Nobody writes to the buffer after `io.ReadAll` has returned. -/
def quiet : Nat → Str → Str := fun _ mem => mem

end LL1.AnyReader
