import Verif.Model.Cst

/-!
# Model of `pkg/parser/parser.go` (and `interface.go`)

The parser is a stack machine.  `step` is one iteration of the `for p.opStack.Len() > 0` loop of
`parse`; `runFuel` iterates it.  Parsing diverges when no amount of fuel suffices.  Stacks are lists
with the top first (the Go slices have the top last).  Panics are explicit outcomes.
Simplification: a `ParserOp` value from another package that embeds the interface is not in this model
(a nil `ParserOp` is); `Model/ForeignOp.lean` has it, and C80 relates the two.
-/

namespace LL1

/-- `ParserOp` and its implementations — parser.go:33-128; `nil` is the nil interface value, which a
caller can put into a table. `nonTerminal` = `OpNonTerminal` (:41), `terminal` = `OpTerminal` (:58),
`function` = `opFunction` (:77), `eos` = `opEOS` (:105), `char` = `opChar` (:118). -/
inductive ParserOp where
  | nonTerminal (name : Int)
  | terminal (value : Str)
  | function (name : Int) (pos : Nat) (amount : Nat)
  | eos
  | char (value : UInt8)
  | nil
  deriving DecidableEq, Repr

/-- `builtinNothing` — parser.go:24. -/
def builtinNothing : Int := -2
/-- `builtinTerminal`, exported as `BuiltinTerminal` — parser.go:25,30. -/
def builtinTerminal : Int := -1

/-- `map[byte][]ParserOp` -/
abbrev Row := GoMap UInt8 (List ParserOp)
/-- `map[int]map[byte][]ParserOp` — parser.go:139. -/
abbrev Table := GoMap Int Row
/-- `map[int]string` — parser.go:140. -/
abbrev Names := GoMap Int Str

/-- `ll1parser_t`, built by `NewLL1Parser` — parser.go:138-146.  `names = none` is a nil map. -/
structure Parser where
  table : Table
  names : Option Names

/-- The result of the local closure `nodeTypeName` — parser.go:234-240: a known name or the
fallback `"Unknown_%d"`. -/
inductive NameRef where
  | known (s : Str)
  | unknown (id : Int)
  deriving DecidableEq, Repr

/-- `nodeTypeName` — parser.go:234-240 (reading a nil map finds nothing). -/
def nodeTypeName (names : Option Names) (id : Int) : NameRef :=
  match (names.getD []).get id with
  | some s => .known s
  | none => .unknown id

/-- The errors `Parse` can return; each carries what its message is formatted from (see `render`). -/
inductive PErr where
  | emptyTable                                 -- parser.go:477
  | noEntry                                    -- parser.go:482
  | emptySource                                -- parser.go:456
  | invalidSource                              -- parser.go:471
  | reader (e : Str)                           -- parser.go:469 (error of the reader)
  | noRulesFor (nt : NameRef)                  -- parser.go:245
  | noRule (c : UInt8) (nt : NameRef)          -- parser.go:251-253
  | noEOLRule (c : UInt8)                      -- parser.go:285-286
  | unknownBuiltin (n : Int)                   -- parser.go:289
  | expectedEnd (c : UInt8)                    -- parser.go:356-357
  | prodStackEmpty                             -- parser.go:364
  | expectedChar (want got : UInt8)            -- parser.go:377-379
  deriving DecidableEq, Repr

/-- The ways `Parse` can panic. -/
inductive PPanic where
  | nilOp            -- (*op).parserOpType() on a nil interface, parser.go:403
  | popEmpty         -- parser.go:336
  | combine          -- parser.go:345
  | nilMapWrite      -- parser.go:368 on a nil map
  | unreachable      -- parser.go:451
  deriving DecidableEq, Repr

/-- How `Parse` returns (if it does). -/
inductive Outcome where
  | ok (tree : Node) (names : Names)
  | err (e : PErr)
  | panic (p : PPanic)

/-- The mutable part of `realParser` — parser.go:225-231. -/
structure PState where
  offset : Nat
  opStack : List ParserOp
  prodStack : List Node

/-- `peek` — parser.go:206-211.  The read `src[offset]` carries the proof that it is in range. -/
def peek (src : Str) (offset : Nat) : UInt8 :=
  if h : offset ≥ src.length then 0 else src[offset]'(Nat.lt_of_not_ge h)

/-- What one loop iteration produces: a next state or the end of the call. -/
inductive StepRes where
  | next (s : PState)
  | done (o : Outcome)

/-- `processTableNonTerminal` — parser.go:233-264. -/
def processTableNonTerminal (table : Table) (names : Option Names) (src : Str)
    (s : PState) (name : Int) : StepRes :=
  match table.get name with
  | none => .done (.err (.noRulesFor (nodeTypeName names name)))
  | some ruleMap =>
    match GoMap.get ruleMap (peek src s.offset) with
    | none => .done (.err (.noRule (peek src s.offset) (nodeTypeName names name)))
    | some opsToPush =>
      .next { s with
        opStack := opsToPush ++ ParserOp.function name s.offset opsToPush.length :: s.opStack }

/-- `processBuiltinNonTerminal` — parser.go:266-290. -/
def processBuiltinNonTerminal (src : Str) (s : PState) (name : Int) : StepRes :=
  if name = -2 then
    let input := peek src s.offset
    if input = 10 then
      .next { s with opStack := .terminal [10] :: .function name s.offset 1 :: s.opStack }
    else if input = 13 then
      .next { s with
        opStack := .terminal [13] :: .terminal [10] :: .function name s.offset 2 :: s.opStack }
    else .done (.err (.noEOLRule (peek src s.offset)))
  else .done (.err (.unknownBuiltin name))

/-- `processNonTerminal` — parser.go:292-298. -/
def processNonTerminal (table : Table) (names : Option Names) (src : Str)
    (s : PState) (name : Int) : StepRes :=
  if name < 0 then processBuiltinNonTerminal src s name
  else processTableNonTerminal table names src s name

/-- `processTerminal` — parser.go:300-308. -/
def processTerminal (s : PState) (tValue : Str) : PState :=
  { s with
    opStack := tValue.map ParserOp.char ++
      ParserOp.function builtinTerminal s.offset tValue.length :: s.opStack }

/-- The popping loop of `processFunction` — parser.go:333-347.  `acc` is `childs[i+1:]`. -/
def popChilds (discard : Bool) : Nat → List Node → List Node → Except PPanic (List Node × List Node)
  | 0, stack, acc => .ok (acc, stack)
  | _ + 1, [], _ => .error .popEmpty
  | k + 1, n :: stack, acc =>
    if !discard then popChilds discard k stack (n :: acc)
    else if n.type ≠ builtinTerminal then .error .combine
    else popChilds discard k stack acc

/-- `processFunction` — parser.go:310-350. -/
def processFunction (s : PState) (name : Int) (pos amount : Nat) : StepRes :=
  if amount = 0 then
    .next { s with
      prodStack := Node.mk name s.offset s.offset
        [Node.mk builtinNothing s.offset s.offset []] :: s.prodStack }
  else
    match popChilds (decide (name = builtinTerminal)) amount s.prodStack [] with
    | .error p => .done (.panic p)
    | .ok (childs, stack) =>
      .next { s with prodStack := Node.mk name pos s.offset childs :: stack }

/-- `"_literal"`, `"_nothing"` — parser.go:368-369. -/
def addBuiltinNames (m : Names) : Names :=
  (m.set builtinTerminal b!"_literal").set builtinNothing b!"_nothing"

/-- `processEOS` — parser.go:352-372.  The returned map is the parser's own map after the writes. -/
def processEOS (names : Option Names) (src : Str) (s : PState) : Outcome :=
  if peek src s.offset ≠ 0 then .err (.expectedEnd (peek src s.offset))
  else
    match s.prodStack with
    | [] => .err .prodStackEmpty
    | n :: _ =>
      match names with
      | none => .panic .nilMapWrite
      | some m => .ok n (addBuiltinNames m)

/-- `processChar` — parser.go:374-389. -/
def processChar (src : Str) (s : PState) (c : UInt8) : StepRes :=
  if c ≠ peek src s.offset then .done (.err (.expectedChar c (peek src s.offset)))
  else
    .next { s with
      prodStack := Node.mk builtinTerminal s.offset (s.offset + 1) [] :: s.prodStack
      offset := s.offset + 1 }

/-- One iteration of the loop in `parse` — parser.go:396-449; an empty stack leaves the loop and
reaches `panic("unreachable")` — parser.go:451. -/
def step (table : Table) (names : Option Names) (src : Str) (s : PState) : StepRes :=
  match s.opStack with
  | [] => .done (.panic .unreachable)
  | op :: rest =>
    let s := { s with opStack := rest }
    match op with
    | .nonTerminal name => processNonTerminal table names src s name
    | .terminal value => .next (processTerminal s value)
    | .function name pos amount => processFunction s name pos amount
    | .eos => .done (processEOS names src s)
    | .char c => processChar src s c
    | .nil => .done (.panic .nilOp)

/-- The loop of `parse` with fuel; `none` = not finished yet. -/
def runFuel (table : Table) (names : Option Names) (src : Str) : Nat → PState → Option Outcome
  | 0, _ => none
  | fuel + 1, s =>
    match step table names src s with
    | .next s' => runFuel table names src fuel s'
    | .done o => some o

/-- The state when the loop is entered — parser.go:393-394, 490-496. -/
def initState : PState := { offset := 0, opStack := [.nonTerminal 0, .eos], prodStack := [] }

/-- The source argument `src any` of `Parse` — parser.go:454-472.  `reader content e`: an `io.Reader`
from which `io.ReadAll` obtains `content` and then the error `e` (`none` = EOF).  `buffer none` is a
nil `*bytes.Buffer`, `buffer (some b)` one whose unread bytes are `b`. -/
inductive Source where
  | nil
  | string (s : Str)
  | bytes (s : Str)
  | buffer (b : Option Str)
  | reader (content : Str) (e : Option Str)
  | other

/-- `readSource` — parser.go:454-472. -/
def readSource : Source → Except PErr Str
  | .nil => .error .emptySource
  | .string s => .ok s
  | .bytes s => .ok s
  | .buffer (some b) => .ok b
  | .buffer none => .error .invalidSource
  | .reader content none => .ok content
  | .reader _ (some e) => .error (.reader e)
  | .other => .error .invalidSource

/-- `Parse` — parser.go:474-499, with fuel for the parsing loop. -/
def Parser.parseFuel (p : Parser) (fuel : Nat) (src : Source) : Option Outcome :=
  if p.table.length = 0 then some (.err .emptyTable)
  else
    match p.table.get 0 with
    | none => some (.err .noEntry)
    | some _ =>
      match readSource src with
      | .error e => some (.err e)
      | .ok text => runFuel p.table p.names text fuel initState

/-- `p.Parse(src)` returns `o`. -/
def Parser.Returns (p : Parser) (src : Source) (o : Outcome) : Prop :=
  ∃ fuel, p.parseFuel fuel src = some o

/-- `p.Parse(src)` never returns. -/
def Parser.Diverges (p : Parser) (src : Source) : Prop :=
  ∀ fuel, p.parseFuel fuel src = none

/-- The parser after a `Parse` call that ended with `o`: a successful call has written the two
built-in names into the map it shares with the parser (`ret_names := p.names`, parser.go:367-369). -/
def Parser.after (p : Parser) : Outcome → Parser
  | .ok _ m => { p with names := some m }
  | _ => p

/-! ## Error messages -/

/-- UTF-8 encoding of the rune with the value of a byte: Go's `%c` applied to a byte. -/
def runeOfByte (b : UInt8) : Str :=
  if b < 128 then [b] else [(0xC0 : UInt8) ||| (b >>> 6), (0x80 : UInt8) ||| (b &&& 0x3F)]

/-- Decimal digits of a natural number. -/
def fmtNat (n : Nat) : Str := (Nat.toDigits 10 n).map fun c => UInt8.ofNat c.toNat

/-- Go's `%d` of an int. -/
def fmtInt : Int → Str
  | .ofNat n => fmtNat n
  | .negSucc n => 45 :: fmtNat (n + 1)

/-- `charCode` — parser.go:221-223. -/
def charCode (c : UInt8) : Str := [39] ++ runeOfByte c ++ b!"' (" ++ fmtNat c.toNat ++ b!")"

/-- Text of a node type name — parser.go:234-240. -/
def NameRef.render : NameRef → Str
  | .known s => s
  | .unknown n => b!"Unknown_" ++ fmtInt n

/-- `err.Error()` for each error; format strings cited at `PErr`. -/
def PErr.render : PErr → Str
  | .emptyTable => b!"empty parsing table"
  | .noEntry => b!"can't start parsing: no rule for base entry point - 0"
  | .emptySource => b!"empty source"
  | .invalidSource => b!"invalid source"
  | .reader e => e
  | .noRulesFor nt => b!"no rules for non terminal: " ++ nt.render
  | .noRule c nt => b!"no rules for " ++ charCode c ++ b!" and non terminal op <" ++ nt.render ++ b!">"
  | .noEOLRule c => b!"no rules for " ++ charCode c ++ b!" and builtin terminal op <EOL>"
  | .unknownBuiltin n => b!"unknown built in type: " ++ fmtInt n
  | .expectedEnd c => b!"expected end of input got " ++ charCode c
  | .prodStackEmpty => b!"prod stack empty"
  | .expectedChar w g => b!"expected char " ++ charCode w ++ b!", got " ++ charCode g

end LL1
