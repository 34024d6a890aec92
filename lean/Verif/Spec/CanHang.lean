import Verif.Spec.Hang

/-!
# What a table can do on some source

Relations on rows and bytes (of which a table has finitely many) only; no sources, no offsets.
-/

namespace LL1

/-- The operations `ops`, begun when the next byte is `b`, can be done on some source so that `c` is the next byte then. -/
inductive Leads (tbl : Table) : List ParserOp → UInt8 → UInt8 → Prop
  | nil (b : UInt8) : Leads tbl [] b b
  | empty {ops : List ParserOp} {b c : UInt8} : Leads tbl ops b c → Leads tbl (.terminal [] :: ops) b c
  | lit {rest : Str} {ops : List ParserOp} {b d c : UInt8} : Leads tbl ops d c → Leads tbl (.terminal (b :: rest) :: ops) b c
  | nt {n : Int} {body ops : List ParserOp} {b d c : UInt8} : bodyFor tbl n b = some body → Leads tbl body b d →
      Leads tbl ops d c → Leads tbl (.nonTerminal n :: ops) b c

/-- On some source row `n` is wanted when the next byte is `b`. -/
inductive CanEnter (tbl : Table) : Int → UInt8 → Prop
  | start (b : UInt8) : CanEnter tbl 0 b
  | inner {n m : Int} {b c : UInt8} {pre post : List ParserOp} : CanEnter tbl n b →
      bodyFor tbl n b = some (pre ++ .nonTerminal m :: post) → Leads tbl pre b c → CanEnter tbl m c

/-- The operations can be done without reading anything when the next byte is `b`. -/
inductive ReadsNothing (tbl : Table) (b : UInt8) : List ParserOp → Prop
  | nil : ReadsNothing tbl b []
  | lit {ops : List ParserOp} : ReadsNothing tbl b ops → ReadsNothing tbl b (.terminal [] :: ops)
  | nt {n : Int} {body ops : List ParserOp} : bodyFor tbl n b = some body → ReadsNothing tbl b body →
      ReadsNothing tbl b ops → ReadsNothing tbl b (.nonTerminal n :: ops)

/-- The operations can be done at the end of the input: the literals consist of NUL bytes, if they have any. -/
inductive ReadsNuls (tbl : Table) : List ParserOp → Prop
  | nil : ReadsNuls tbl []
  | lit {s : Str} {ops : List ParserOp} : (∀ a ∈ s, a = 0) → ReadsNuls tbl ops → ReadsNuls tbl (.terminal s :: ops)
  | nt {n : Int} {body ops : List ParserOp} : bodyFor tbl n 0 = some body → ReadsNuls tbl body → ReadsNuls tbl ops →
      ReadsNuls tbl (.nonTerminal n :: ops)

/-- The cell of row `n` for the byte `b` asks for row `m` before anything has been read (or, at the end of the input, after
nothing but imaginary NUL bytes have been read). -/
def ComesTo (tbl : Table) (b : UInt8) (n m : Int) : Prop :=
  ∃ pre post, bodyFor tbl n b = some (pre ++ .nonTerminal m :: post) ∧
    (ReadsNothing tbl b pre ∨ b = 0 ∧ ReadsNuls tbl pre)

end LL1
