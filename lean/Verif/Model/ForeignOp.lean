import Verif.Model.Parser

/-!
# `Parse` on tables with operations of any type

`parser.ParserOp` is an interface with an unexported method, but a caller can still put values into a table that are
none of the package's five types: the nil interface, a struct of his own that embeds a `ParserOp`, a pointer to one of
the five types obtained by reflection.  `Model/Parser.lean` knows the five types and nil only; this file models
parser.go on all of them.
-/

namespace LL1
namespace XP

/-- The five numbers `parserOpType()` can return — parser.go:13-19.  Every implementation of the unexported method is one
of the package's own, reached directly or by promotion. -/
inductive OpKind where
  | nonTerminal | terminal | function | eos | char
  deriving DecidableEq, Repr

/-- A value of the interface `ParserOp` — parser.go:33-35: one of the five types (or nil), or a value of any other type; of
the latter the code uses only the call `parserOpType()`, which returns a number or (embedded nil) panics. -/
inductive XOp where
  | own (op : ParserOp)
  | foreign (kind : Option OpKind)
  deriving DecidableEq, Repr

/-- `map[byte][]ParserOp` -/
abbrev XRow := GoMap UInt8 (List XOp)
/-- `map[int]map[byte][]ParserOp` — parser.go:139. -/
abbrev XTable := GoMap Int XRow

/-- `ll1parser_t` — parser.go:138-146. -/
structure XParser where
  table : XTable
  names : Option Names

/-- Panics: those of `PPanic` and `can't cast ... op to it's type` — parser.go:407, 418, 426, 437. -/
inductive XPanic where
  | own (p : PPanic)
  | cast (kind : OpKind)
  deriving DecidableEq, Repr

/-- How `Parse` returns. -/
inductive XOutcome where
  | ok (tree : Node) (names : Names)
  | err (e : PErr)
  | panic (p : XPanic)

/-- The mutable part of `realParser` — parser.go:225-231. -/
structure XState where
  offset : Nat
  opStack : List XOp
  prodStack : List Node

/-- What one loop iteration produces. -/
inductive XStepRes where
  | next (s : XState)
  | done (o : XOutcome)

/-- `processTableNonTerminal` — parser.go:233-264. -/
def processTableNonTerminal (table : XTable) (names : Option Names) (src : Str) (s : XState) (name : Int) : XStepRes :=
  match table.get name with
  | none => .done (.err (.noRulesFor (nodeTypeName names name)))
  | some ruleMap =>
    match GoMap.get ruleMap (peek src s.offset) with
    | none => .done (.err (.noRule (peek src s.offset) (nodeTypeName names name)))
    | some opsToPush =>
      .next { s with
        opStack := opsToPush ++ .own (.function name s.offset opsToPush.length) :: s.opStack }

/-- `processBuiltinNonTerminal` — parser.go:266-290. -/
def processBuiltinNonTerminal (src : Str) (s : XState) (name : Int) : XStepRes :=
  if name = -2 then
    let input := peek src s.offset
    if input = 10 then
      .next { s with opStack := .own (.terminal [10]) :: .own (.function name s.offset 1) :: s.opStack }
    else if input = 13 then
      .next { s with
        opStack := .own (.terminal [13]) :: .own (.terminal [10]) :: .own (.function name s.offset 2) :: s.opStack }
    else .done (.err (.noEOLRule (peek src s.offset)))
  else .done (.err (.unknownBuiltin name))

/-- `processNonTerminal` — parser.go:292-298. -/
def processNonTerminal (table : XTable) (names : Option Names) (src : Str) (s : XState) (name : Int) : XStepRes :=
  if name < 0 then processBuiltinNonTerminal src s name
  else processTableNonTerminal table names src s name

/-- `processTerminal` — parser.go:300-308. -/
def processTerminal (s : XState) (tValue : Str) : XState :=
  { s with
    opStack := (tValue.map fun c => XOp.own (.char c)) ++
      XOp.own (.function builtinTerminal s.offset tValue.length) :: s.opStack }

/-- `processFunction` — parser.go:310-350 (`popChilds` does not look at operations). -/
def processFunction (s : XState) (name : Int) (pos amount : Nat) : XStepRes :=
  if amount = 0 then
    .next { s with
      prodStack := Node.mk name s.offset s.offset [Node.mk builtinNothing s.offset s.offset []] :: s.prodStack }
  else
    match popChilds (decide (name = builtinTerminal)) amount s.prodStack [] with
    | .error p => .done (.panic (.own p))
    | .ok (childs, stack) => .next { s with prodStack := Node.mk name pos s.offset childs :: stack }

/-- `processEOS` — parser.go:352-372. -/
def processEOS (names : Option Names) (src : Str) (s : XState) : XOutcome :=
  if peek src s.offset ≠ 0 then .err (.expectedEnd (peek src s.offset))
  else
    match s.prodStack with
    | [] => .err .prodStackEmpty
    | n :: _ =>
      match names with
      | none => .panic (.own .nilMapWrite)
      | some m => .ok n (addBuiltinNames m)

/-- `processChar` — parser.go:374-389. -/
def processChar (src : Str) (s : XState) (c : UInt8) : XStepRes :=
  if c ≠ peek src s.offset then .done (.err (.expectedChar c (peek src s.offset)))
  else
    .next { s with
      prodStack := Node.mk builtinTerminal s.offset (s.offset + 1) [] :: s.prodStack
      offset := s.offset + 1 }

/-- One iteration of the loop in `parse` — parser.go:396-449.  For a foreign operation the switch (:403) goes by the number
it returns; the type assertions (:405, :416, :424, :435) then fail, and `case opTypeEOS` (:431) makes none. -/
def step (table : XTable) (names : Option Names) (src : Str) (s : XState) : XStepRes :=
  match s.opStack with
  | [] => .done (.panic (.own .unreachable))
  | op :: rest =>
    let s := { s with opStack := rest }
    match op with
    | .own (.nonTerminal name) => processNonTerminal table names src s name
    | .own (.terminal value) => .next (processTerminal s value)
    | .own (.function name pos amount) => processFunction s name pos amount
    | .own .eos => .done (processEOS names src s)
    | .own (.char c) => processChar src s c
    | .own .nil => .done (.panic (.own .nilOp))
    | .foreign none => .done (.panic (.own .nilOp))
    | .foreign (some .eos) => .done (processEOS names src s)
    | .foreign (some k) => .done (.panic (.cast k))

/-- The loop of `parse` — parser.go:396-451. -/
def runFuel (table : XTable) (names : Option Names) (src : Str) : Nat → XState → Option XOutcome
  | 0, _ => none
  | fuel + 1, s =>
    match step table names src s with
    | .next s' => runFuel table names src fuel s'
    | .done o => some o

/-- The state when the loop is entered — parser.go:393-394, 490-496. -/
def initState : XState := { offset := 0, opStack := [.own (.nonTerminal 0), .own .eos], prodStack := [] }

/-- `Parse` — parser.go:474-499. -/
def XParser.parseFuel (p : XParser) (fuel : Nat) (src : Source) : Option XOutcome :=
  if p.table.length = 0 then some (.err .emptyTable)
  else
    match p.table.get 0 with
    | none => some (.err .noEntry)
    | some _ =>
      match readSource src with
      | .error e => some (.err e)
      | .ok text => runFuel p.table p.names text fuel initState

end XP
end LL1
