import Verif.Model.Parser

/-!
# `Parse` reading a source that changes under it

`readSource` does not copy a `[]byte`, nor the bytes of a `*bytes.Buffer` (parser.go:461-466): the scanner reads the
caller's array (parser.go:201-211) each time it peeks.  Another goroutine can write to that array while `Parse` runs.
Here `mem r` is what the source holds when the scanner reads for the `r`-th time (counted from 0), whatever happened in
between.  Reads of single bytes are atomic.  The functions are those of `Model/Parser.lean` with every `peek` numbered.
-/

namespace LL1.Live

/-- What one loop iteration produces: the number of reads so far and the next state, or the end of the call. -/
inductive StepRes where
  | next (reads : Nat) (s : PState)
  | done (o : Outcome)

/-- `processTableNonTerminal` — parser.go:233-264: line 248 reads the source, line 252 reads it again. -/
def processTableNonTerminal (table : Table) (names : Option Names) (mem : Nat → Str) (r : Nat)
    (s : PState) (name : Int) : StepRes :=
  match table.get name with
  | none => .done (.err (.noRulesFor (nodeTypeName names name)))
  | some ruleMap =>
    match GoMap.get ruleMap (peek (mem r) s.offset) with
    | none => .done (.err (.noRule (peek (mem (r + 1)) s.offset) (nodeTypeName names name)))
    | some opsToPush =>
      .next (r + 1) { s with
        opStack := opsToPush ++ ParserOp.function name s.offset opsToPush.length :: s.opStack }

/-- `processBuiltinNonTerminal` — parser.go:266-290: line 269 reads, line 286 reads again. -/
def processBuiltinNonTerminal (mem : Nat → Str) (r : Nat) (s : PState) (name : Int) : StepRes :=
  if name = -2 then
    let input := peek (mem r) s.offset
    if input = 10 then
      .next (r + 1) { s with opStack := .terminal [10] :: .function name s.offset 1 :: s.opStack }
    else if input = 13 then
      .next (r + 1) { s with
        opStack := .terminal [13] :: .terminal [10] :: .function name s.offset 2 :: s.opStack }
    else .done (.err (.noEOLRule (peek (mem (r + 1)) s.offset)))
  else .done (.err (.unknownBuiltin name))

/-- `processNonTerminal` — parser.go:292-298. -/
def processNonTerminal (table : Table) (names : Option Names) (mem : Nat → Str) (r : Nat)
    (s : PState) (name : Int) : StepRes :=
  if name < 0 then processBuiltinNonTerminal mem r s name
  else processTableNonTerminal table names mem r s name

/-- `processFunction` — parser.go:310-350: no read. -/
def processFunction (r : Nat) (s : PState) (name : Int) (pos amount : Nat) : StepRes :=
  match LL1.processFunction s name pos amount with
  | .next s' => .next r s'
  | .done o => .done o

/-- `processEOS` — parser.go:352-372: line 353 reads, line 357 reads again. -/
def processEOS (names : Option Names) (mem : Nat → Str) (r : Nat) (s : PState) : Outcome :=
  if peek (mem r) s.offset ≠ 0 then .err (.expectedEnd (peek (mem (r + 1)) s.offset))
  else
    match s.prodStack with
    | [] => .err .prodStackEmpty
    | n :: _ =>
      match names with
      | none => .panic .nilMapWrite
      | some m => .ok n (addBuiltinNames m)

/-- `processChar` — parser.go:374-389: line 375 reads, line 379 reads again. -/
def processChar (mem : Nat → Str) (r : Nat) (s : PState) (c : UInt8) : StepRes :=
  if c ≠ peek (mem r) s.offset then .done (.err (.expectedChar c (peek (mem (r + 1)) s.offset)))
  else
    .next (r + 1) { s with
      prodStack := Node.mk builtinTerminal s.offset (s.offset + 1) [] :: s.prodStack
      offset := s.offset + 1 }

/-- One iteration of the loop in `parse` — parser.go:396-449, 451. -/
def step (table : Table) (names : Option Names) (mem : Nat → Str) (r : Nat) (s : PState) : StepRes :=
  match s.opStack with
  | [] => .done (.panic .unreachable)
  | op :: rest =>
    let s := { s with opStack := rest }
    match op with
    | .nonTerminal name => processNonTerminal table names mem r s name
    | .terminal value => .next r (processTerminal s value)
    | .function name pos amount => processFunction r s name pos amount
    | .eos => .done (processEOS names mem r s)
    | .char c => processChar mem r s c
    | .nil => .done (.panic .nilOp)

/-- The loop of `parse` with fuel; `none` = not finished yet. -/
def runFuel (table : Table) (names : Option Names) (mem : Nat → Str) : Nat → Nat → PState → Option Outcome
  | 0, _, _ => none
  | fuel + 1, r, s =>
    match step table names mem r s with
    | .next r' s' => runFuel table names mem fuel r' s'
    | .done o => some o

/-- After some iterations the parser has read `r` times and is in state `s` (so its next read, if any, is read
number `r`, at offset `s.offset`). -/
inductive Reaches (table : Table) (names : Option Names) (mem : Nat → Str) : Nat → PState → Prop
  | init : Reaches table names mem 0 initState
  | step {r r' : Nat} {s s' : PState} : Reaches table names mem r s → step table names mem r s = .next r' s' →
      Reaches table names mem r' s'

/-- `Parse` — parser.go:474-499 — of a `[]byte` or `*bytes.Buffer` that holds `mem r` at the `r`-th read. -/
def parseFuel (p : Parser) (fuel : Nat) (mem : Nat → Str) : Option Outcome :=
  if p.table.length = 0 then some (.err .emptyTable)
  else
    match p.table.get 0 with
    | none => some (.err .noEntry)
    | some _ => runFuel p.table p.names mem fuel 0 initState

/-- The call returns `o`. -/
def Returns (p : Parser) (mem : Nat → Str) (o : Outcome) : Prop := ∃ fuel, parseFuel p fuel mem = some o

/-- The call never returns. -/
def Diverges (p : Parser) (mem : Nat → Str) : Prop := ∀ fuel, parseFuel p fuel mem = none

end LL1.Live
