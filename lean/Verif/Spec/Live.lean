import Verif.Spec.Hang

/-!
# Derivations from a source that changes

`mem r` is what the source holds at the `r`-th read.  No stacks here.
-/

namespace LL1

/-- `LiveDerives tbl mem ops r i r' j cs`: the operations `ops`, started at offset `i` when `r` reads have been made, are
derived up to offset `j` with read `r'` the next one, one node of `cs` per operation.  Each byte of a literal stands in the
source when it is read, and each non-terminal takes the cell of the byte that stands in the source at that time. -/
inductive LiveDerives (tbl : Table) (mem : Nat → Str) : List ParserOp → Nat → Nat → Nat → Nat → List Node → Prop
  | nil (r i : Nat) : LiveDerives tbl mem [] r i r i []
  | lit {s : Str} {ops : List ParserOp} {r i r' j : Nat} {cs : List Node} :
      (∀ k, k < s.length → s[k]? = some (byteAt (mem (r + k)) (i + k))) →
      LiveDerives tbl mem ops (r + s.length) (i + s.length) r' j cs →
      LiveDerives tbl mem (.terminal s :: ops) r i r' j (literalNode s i :: cs)
  | nt {n : Int} {body ops : List ParserOp} {r i r' j r'' k : Nat} {cs ds : List Node} :
      bodyFor tbl n (byteAt (mem r) i) = some body →
      LiveDerives tbl mem body (r + 1) i r' j cs → LiveDerives tbl mem ops r' j r'' k ds →
      LiveDerives tbl mem (.nonTerminal n :: ops) r i r'' k (ntNode n i j body cs :: ds)

/-- `LiveFails tbl names mem ops r i e`: deriving `ops` from offset `i` and read `r` gets stuck with error `e`.  The byte
named in the message is read once more, so it is the one the source holds then. -/
inductive LiveFails (tbl : Table) (names : Option Names) (mem : Nat → Str) : List ParserOp → Nat → Nat → PErr → Prop
  | lit {s : Str} {ops : List ParserOp} {r i k : Nat} {c : UInt8} :
      (∀ q, q < k → s[q]? = some (byteAt (mem (r + q)) (i + q))) → s[k]? = some c →
      c ≠ byteAt (mem (r + k)) (i + k) →
      LiveFails tbl names mem (.terminal s :: ops) r i (.expectedChar c (byteAt (mem (r + k + 1)) (i + k)))
  | afterLit {s : Str} {ops : List ParserOp} {r i : Nat} {e : PErr} :
      (∀ k, k < s.length → s[k]? = some (byteAt (mem (r + k)) (i + k))) →
      LiveFails tbl names mem ops (r + s.length) (i + s.length) e →
      LiveFails tbl names mem (.terminal s :: ops) r i e
  | noBody {n : Int} {ops : List ParserOp} {r i : Nat} : bodyFor tbl n (byteAt (mem r) i) = none →
      LiveFails tbl names mem (.nonTerminal n :: ops) r i (whyNot tbl names n (byteAt (mem (r + 1)) i))
  | inside {n : Int} {body ops : List ParserOp} {r i : Nat} {e : PErr} :
      bodyFor tbl n (byteAt (mem r) i) = some body → LiveFails tbl names mem body (r + 1) i e →
      LiveFails tbl names mem (.nonTerminal n :: ops) r i e
  | afterNt {n : Int} {body ops : List ParserOp} {r i r' j : Nat} {cs : List Node} {e : PErr} :
      bodyFor tbl n (byteAt (mem r) i) = some body → LiveDerives tbl mem body (r + 1) i r' j cs →
      LiveFails tbl names mem ops r' j e → LiveFails tbl names mem (.nonTerminal n :: ops) r i e

/-- A tree justified by what the reads saw: a derivation of row 0 from the beginning, and no byte at its end. -/
def LiveParse (tbl : Table) (mem : Nat → Str) (t : Node) : Prop :=
  ∃ r j, LiveDerives tbl mem [.nonTerminal 0] 0 0 r j [t] ∧ byteAt (mem r) j = 0

/-- An error justified by what the reads saw. -/
def LiveStuck (tbl : Table) (names : Option Names) (mem : Nat → Str) (e : PErr) : Prop :=
  LiveFails tbl names mem [.nonTerminal 0] 0 0 e ∨
  ∃ r j t, LiveDerives tbl mem [.nonTerminal 0] 0 0 r j [t] ∧ byteAt (mem r) j ≠ 0 ∧
    e = .expectedEnd (byteAt (mem (r + 1)) j)

/-- Working on row `x.1` from offset `x.2.1` at read `x.2.2`, the next row to work on is `y.1`, at `y.2.1` and read
`y.2.2`. -/
def LiveEnters (tbl : Table) (mem : Nat → Str) (x y : Int × Nat × Nat) : Prop :=
  ∃ pre post cs, bodyFor tbl x.1 (byteAt (mem x.2.2) x.2.1) = some (pre ++ .nonTerminal y.1 :: post) ∧
    LiveDerives tbl mem pre (x.2.2 + 1) x.2.1 y.2.2 y.2.1 cs

/-- These operations can be derived, for some choice of a byte at each non-terminal, without consuming anything. -/
inductive CanVanish (tbl : Table) : List ParserOp → Prop
  | nil : CanVanish tbl []
  | lit {ops : List ParserOp} : CanVanish tbl ops → CanVanish tbl (.terminal [] :: ops)
  | nt {n : Int} {b : UInt8} {body ops : List ParserOp} : bodyFor tbl n b = some body → CanVanish tbl body →
      CanVanish tbl ops → CanVanish tbl (.nonTerminal n :: ops)

/-- Some cell of row `n` asks for row `m` after operations that can be derived without consuming anything (the bytes may be
different ones each time). -/
def AnyCorner (tbl : Table) (n m : Int) : Prop :=
  ∃ b pre post, bodyFor tbl n b = some (pre ++ .nonTerminal m :: post) ∧ CanVanish tbl pre

/-- These operations can be derived for some choice of bytes. -/
inductive CanFinish (tbl : Table) : List ParserOp → Prop
  | nil : CanFinish tbl []
  | lit {s : Str} {ops : List ParserOp} : CanFinish tbl ops → CanFinish tbl (.terminal s :: ops)
  | nt {n : Int} {b : UInt8} {body ops : List ParserOp} : bodyFor tbl n b = some body → CanFinish tbl body →
      CanFinish tbl ops → CanFinish tbl (.nonTerminal n :: ops)

/-- Some cell of row `n` asks for row `m` after operations that can be derived. -/
def AnyEnters (tbl : Table) (n m : Int) : Prop :=
  ∃ b pre post, bodyFor tbl n b = some (pre ++ .nonTerminal m :: post) ∧ CanFinish tbl pre

end LL1
