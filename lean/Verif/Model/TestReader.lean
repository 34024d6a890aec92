import Verif.Model.Reader

/-!
# Model of `ReaderContentMustBeEqual` (test/testcommon/testcommon.go:69-101)

The helper behind most of the repository's tests compares two readers block by block.  It ignores the number of bytes
`Read` reports and compares the whole 4096-byte buffers, including what earlier reads left in them.
-/

namespace LL1
namespace TestTools

/-- `_, err = r.Read(buff)`: the bytes read overwrite the front of the buffer; the count is dropped —
testcommon.go:75-76. -/
def readInto {σ : Type} (r : Reader σ) (s : σ) (buff : Str) : Str × Option ReadErr × σ :=
  match r s buff.length with
  | (bs, e, s') => (bs ++ buff.drop bs.length, e, s')

/-- The loop and the check after it — testcommon.go:74-101.  `some true`: the test goes on; `some false`: it is marked
as failed; `none`: still looping when the fuel ran out. -/
def compareReaders {σ τ : Type} (r : Reader σ) (q : Reader τ) : Nat → σ → τ → Str → Str → Option Bool
  | 0, _, _, _, _ => none
  | fuel + 1, s, t, refBuff, resBuff =>
    match readInto r s refBuff with
    | (refBuff, refErr, s') =>
      match readInto q t resBuff with
      | (resBuff, resErr, t') =>
        if refErr ≠ none ∨ resErr ≠ none then
          if refErr ≠ some .eof ∨ resErr ≠ some .eof then some false else some true
        else if refBuff ≠ resBuff then some false
        else compareReaders r q fuel s' t' refBuff resBuff

/-- `ReaderContentMustBeEqual` — testcommon.go:69-101: both buffers start as 4096 zero bytes. -/
def readerContentMustBeEqual {σ τ : Type} (r : Reader σ) (q : Reader τ) (fuel : Nat) (s : σ) (t : τ) : Option Bool :=
  compareReaders r q fuel s t (List.replicate 4096 0) (List.replicate 4096 0)

/-- `Read` of a `*bytes.Buffer` or of a regular file: as many bytes as fit, EOF (with no bytes) at the end. -/
def contentReader : Reader Str := fun s n =>
  if s = [] then ([], some .eof, []) else (s.take n, none, s.drop n)

end TestTools
end LL1
