import Verif.Model.Parser

/-!
# `Parse` on a live `io.Reader`

`Source.reader content e` of `Model/Parser.lean` is "what `io.ReadAll` obtains".  Here the reader itself is modelled, as
a state machine that is asked for bytes, together with the loop of `io.ReadAll` (Go's standard library, `io/io.go`) and
the order of events in `Parse` (parser.go:474-499).
-/

namespace LL1

/-- The error result of `Read`. -/
inductive ReadErr where
  | eof
  | other (msg : Str)
  deriving DecidableEq, Repr

/-- An `io.Reader`: `r s n` is the call `Read(p)` with `len(p) = n` in state `s`; it returns the bytes written to the
front of `p`, the error, and the reader's new state. -/
abbrev Reader (σ : Type) := σ → Nat → Str × Option ReadErr × σ

/-- How `io.ReadAll` ends: bytes, error (`none` = nil) and the reader's state; or the panic of slicing `b[:len(b)+n]`
beyond the capacity, when the reader claims more bytes than it was asked for. -/
inductive ReadAllEnd (σ : Type) where
  | done (b : Str) (e : Option Str) (s : σ)
  | panic

/-- The loop of `io.ReadAll(r)`: `b` has been read, the buffer has capacity `cap`.  `grow` is the capacity `append` picks
when the buffer is full. -/
def readAllFuel {σ : Type} (r : Reader σ) (grow : Nat → Nat) :
    (fuel : Nat) → (b : Str) → (cap : Nat) → σ → Option (ReadAllEnd σ)
  | 0, _, _, _ => none
  | fuel + 1, b, cap, s =>
    match r s (cap - b.length) with
    | (bs, e, s') =>
      if bs.length > cap - b.length then some .panic
      else
        match e with
        | some .eof => some (.done (b ++ bs) none s')
        | some (.other m) => some (.done (b ++ bs) (some m) s')
        | none =>
          readAllFuel r grow fuel (b ++ bs) (if (b ++ bs).length = cap then grow cap else cap) s'

/-- How `Parse(r)` ends: with the outcome of `Parse` and the reader's state, or with the panic in `io.ReadAll`. -/
inductive ReaderOutcome (σ : Type) where
  | done (o : Outcome) (s : σ)
  | readPanic

/-- `Parse(r)` for an `io.Reader` that is no `*bytes.Buffer` — parser.go:474-499 with parser.go:468-469: the table is
checked before the reader is touched; `io.ReadAll` starts with a buffer of 512 bytes. -/
def Parser.parseReaderFuel {σ : Type} (p : Parser) (r : Reader σ) (grow : Nat → Nat) (fuel : Nat) (s : σ) :
    Option (ReaderOutcome σ) :=
  if p.table.length = 0 then some (.done (.err .emptyTable) s)
  else
    match p.table.get 0 with
    | none => some (.done (.err .noEntry) s)
    | some _ =>
      match readAllFuel r grow fuel [] 512 s with
      | none => none
      | some .panic => some .readPanic
      | some (.done _ (some m) s') => some (.done (.err (.reader m)) s')
      | some (.done text none s') =>
        match runFuel p.table p.names text fuel initState with
        | none => none
        | some o => some (.done o s')

/-- `p.Parse(r)` returns. -/
def Parser.ReaderReturns {σ : Type} (p : Parser) (r : Reader σ) (grow : Nat → Nat) (s : σ) (o : ReaderOutcome σ) :
    Prop :=
  ∃ fuel, p.parseReaderFuel r grow fuel s = some o

end LL1
