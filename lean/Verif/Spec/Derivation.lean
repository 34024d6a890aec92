import Verif.Spec.Tree
import Verif.Model.Parser

/-!
# Specification of table-directed derivations

What it means that a sequence of operations derives a piece of the source, and what it means that it
gets stuck.  No stacks, no fuel: these relations are what a user of the package has in mind.
-/

namespace LL1

/-- The byte at offset `i`; end of input is the byte 0. -/
def byteAt (src : Str) (i : Nat) : UInt8 := src.getD i 0

/-- `src[a:b]`. -/
def slice (src : Str) (a b : Nat) : Str := (src.drop a).take (b - a)

/-- The operations chosen for a non-terminal when the next byte is `b`: the table cell for a
non-negative number; for the built-in −2 ("end of line") LF, or CR LF; nothing for other numbers. -/
def bodyFor (tbl : Table) (n : Int) (b : UInt8) : Option (List ParserOp) :=
  if 0 ≤ n then (tbl.get n).bind (fun row => GoMap.get row b)
  else if n = -2 then
    if b = 10 then some [.terminal [10]]
    else if b = 13 then some [.terminal [13], .terminal [10]]
    else none
  else none

/-- How a row is called in messages: by its name, or by its number if it has none. -/
def rowName (names : Option Names) (n : Int) : NameRef :=
  match names with
  | none => .unknown n
  | some m =>
    match m.get n with
    | none => .unknown n
    | some s => .known s

/-- The error reported when `bodyFor` finds nothing. -/
def whyNot (tbl : Table) (names : Option Names) (n : Int) (b : UInt8) : PErr :=
  if 0 ≤ n then
    match tbl.get n with
    | none => .noRulesFor (rowName names n)
    | some _ => .noRule b (rowName names n)
  else if n = -2 then .noEOLRule b
  else .unknownBuiltin n

/-- The marker child of empty nodes. -/
def nothingNode (i : Nat) : Node := .mk (-2) i i []

/-- The node of a literal matched at `i`. -/
def literalNode (s : Str) (i : Nat) : Node :=
  .mk (-1) i (i + s.length) (if s = [] then [nothingNode i] else [])

/-- The node of non-terminal `n` from `i` to `j` whose operations produced `cs`. -/
def ntNode (n : Int) (i j : Nat) (body : List ParserOp) (cs : List Node) : Node :=
  .mk n i j (if body = [] then [nothingNode i] else cs)

/-- The literal `s` stands in the source at offset `i`. -/
def LitAt (src : Str) (s : Str) (i : Nat) : Prop := ∀ k, k < s.length → s[k]? = some (byteAt src (i + k))

/-- `Derives tbl src ops i j cs`: the operations `ops`, started at offset `i`, derive the source up to
offset `j`, one node of `cs` per operation. -/
inductive Derives (tbl : Table) (src : Str) : List ParserOp → Nat → Nat → List Node → Prop
  | nil (i : Nat) : Derives tbl src [] i i []
  | lit {s : Str} {ops : List ParserOp} {i j : Nat} {cs : List Node} :
      LitAt src s i → Derives tbl src ops (i + s.length) j cs →
      Derives tbl src (.terminal s :: ops) i j (literalNode s i :: cs)
  | nt {n : Int} {body ops : List ParserOp} {i j k : Nat} {cs ds : List Node} :
      bodyFor tbl n (byteAt src i) = some body →
      Derives tbl src body i j cs → Derives tbl src ops j k ds →
      Derives tbl src (.nonTerminal n :: ops) i k (ntNode n i j body cs :: ds)

/-- `FailsAt tbl names src ops i k e`: deriving `ops` from offset `i` gets stuck at offset `k` with
error `e`. -/
inductive FailsAt (tbl : Table) (names : Option Names) (src : Str) :
    List ParserOp → Nat → Nat → PErr → Prop
  | lit {s : Str} {ops : List ParserOp} {i k : Nat} {c : UInt8} :
      LitAt src (s.take k) i → s[k]? = some c → c ≠ byteAt src (i + k) →
      FailsAt tbl names src (.terminal s :: ops) i (i + k) (.expectedChar c (byteAt src (i + k)))
  | afterLit {s : Str} {ops : List ParserOp} {i k : Nat} {e : PErr} :
      LitAt src s i → FailsAt tbl names src ops (i + s.length) k e →
      FailsAt tbl names src (.terminal s :: ops) i k e
  | noBody {n : Int} {ops : List ParserOp} {i : Nat} :
      bodyFor tbl n (byteAt src i) = none →
      FailsAt tbl names src (.nonTerminal n :: ops) i i (whyNot tbl names n (byteAt src i))
  | inside {n : Int} {body ops : List ParserOp} {i k : Nat} {e : PErr} :
      bodyFor tbl n (byteAt src i) = some body → FailsAt tbl names src body i k e →
      FailsAt tbl names src (.nonTerminal n :: ops) i k e
  | afterNt {n : Int} {body ops : List ParserOp} {i j k : Nat} {cs : List Node} {e : PErr} :
      bodyFor tbl n (byteAt src i) = some body →
      Derives tbl src body i j cs → FailsAt tbl names src ops j k e →
      FailsAt tbl names src (.nonTerminal n :: ops) i k e

/-- An operation a user can build: `OpTerminal` or `OpNonTerminal`. -/
def ParserOp.Public : ParserOp → Prop
  | .nonTerminal _ => True
  | .terminal _ => True
  | _ => False

/-- All operations of the table come from `OpTerminal` / `OpNonTerminal` (no nil operation). -/
def Table.Public (tbl : Table) : Prop :=
  ∀ n row b ops, tbl.get n = some row → GoMap.get row b = some ops → ∀ op ∈ ops, op.Public

/-- No literal of the table contains a NUL byte. -/
def Table.NulFree (tbl : Table) : Prop :=
  ∀ n row b ops, tbl.get n = some row → GoMap.get row b = some ops →
    ∀ s, ParserOp.terminal s ∈ ops → (0 : UInt8) ∉ s

/-- No literal of the table begins with a NUL byte. -/
def Table.NulStartFree (tbl : Table) : Prop :=
  ∀ n row b ops, tbl.get n = some row → GoMap.get row b = some ops →
    ∀ s, ParserOp.terminal s ∈ ops → s.head? ≠ some 0

/-- The parser starts parsing at all: the table has a row 0 (and hence is not empty). -/
def Table.HasEntry (tbl : Table) : Prop := ∃ row, tbl.get 0 = some row

/-- The tree `t` is a table-directed derivation of a prefix of the source ending at `j` where the
input ends. -/
def IsParse (tbl : Table) (src : Str) (t : Node) : Prop :=
  ∃ j, Derives tbl src [.nonTerminal 0] 0 j [t] ∧ byteAt src j = 0

/-- Parsing is stuck at offset `k` with error `e`: either inside the derivation, or after it because
the input does not end there. -/
def StuckAt (tbl : Table) (names : Option Names) (src : Str) (k : Nat) (e : PErr) : Prop :=
  FailsAt tbl names src [.nonTerminal 0] 0 k e ∨
  ∃ t, Derives tbl src [.nonTerminal 0] 0 k [t] ∧ byteAt src k ≠ 0 ∧ e = .expectedEnd (byteAt src k)

end LL1
