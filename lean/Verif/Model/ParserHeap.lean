import Verif.Model.Parser
import Verif.Model.Memory

/-!
# The parser with its stacks and trees in memory

`Model/Parser.lean` treats the two stacks as lists and trees as values.  In `parser.go` the stacks are slices grown by
`append` and shrunk by reslicing (parser.go:149-199), so their arrays hold left-overs that later pushes overwrite, and a
node holds a slice of its children.  This file models that.  `Props/ParserHeap.lean` proves that the values come out the
same and that the nodes of a returned tree share no memory.
-/

namespace LL1
namespace PH

/-- `cst.node` — cst.go:10-15: the children are a slice. -/
structure HNode where
  type : Int
  pos : Nat
  stop : Nat
  childs : SliceRef
  deriving DecidableEq, Repr

/-- The nil interface value with which `make` and `append` fill arrays. -/
def zeroNode : HNode := { type := 0, pos := 0, stop := 0, childs := SliceRef.empty }

/-- `realParser` — parser.go:225-231, with the memories its slices live in. -/
structure HState where
  offset : Nat
  opMem : Mem ParserOp
  opStack : SliceRef
  nodeMem : Mem HNode
  prodStack : SliceRef

/-- `ll1parserOpStack.Push` — parser.go:166-168. -/
def pushOp (grow : Nat → Nat → Nat) (s : HState) (op : ParserOp) : HState :=
  let r := s.opMem.append grow .nil s.opStack op
  { s with opMem := r.1, opStack := r.2 }

/-- `ll1parserOpStack.Pop` — parser.go:153-164.  (The read is in range, as `Props/ParserHeap.lean` shows; the inner
`none` is never taken.) -/
def popOp (s : HState) : Option (ParserOp × HState) :=
  if s.opStack.len = 0 then none
  else
    match (s.opMem.read s.opStack)[s.opStack.len - 1]? with
    | none => none
    | some op => some (op, { s with opStack := { s.opStack with len := s.opStack.len - 1 } })

/-- `ll1parserProdStack.Push` — parser.go:193-195. -/
def pushNode (grow : Nat → Nat → Nat) (s : HState) (n : HNode) : HState :=
  let r := s.nodeMem.append grow zeroNode s.prodStack n
  { s with nodeMem := r.1, prodStack := r.2 }

/-- `ll1parserProdStack.Pop` — parser.go:180-191.  (Likewise.) -/
def popNode (s : HState) : Option (HNode × HState) :=
  if s.prodStack.len = 0 then none
  else
    match (s.nodeMem.read s.prodStack)[s.prodStack.len - 1]? with
    | none => none
    | some n => some (n, { s with prodStack := { s.prodStack with len := s.prodStack.len - 1 } })

/-- Pushing `ops[i]` for `i := len(ops) - 1` down to 0 — parser.go:259-261, 305-307; the argument is the reversed list. -/
def pushOps (grow : Nat → Nat → Nat) (s : HState) : List ParserOp → HState
  | [] => s
  | op :: rest => pushOps grow (pushOp grow s op) rest

/-- How a call ends: the tree is a node in memory. -/
inductive HOutcome where
  | ok (tree : HNode) (names : Names)
  | err (e : PErr)
  | panic (p : PPanic)

inductive HStepRes where
  | next (s : HState)
  | done (s : HState) (o : HOutcome)

/-- `processTableNonTerminal` — parser.go:233-264. -/
def processTableNonTerminal (grow : Nat → Nat → Nat) (table : Table) (names : Option Names) (src : Str)
    (s : HState) (name : Int) : HStepRes :=
  match table.get name with
  | none => .done s (.err (.noRulesFor (nodeTypeName names name)))
  | some ruleMap =>
    match GoMap.get ruleMap (peek src s.offset) with
    | none => .done s (.err (.noRule (peek src s.offset) (nodeTypeName names name)))
    | some opsToPush =>
      let s := pushOp grow s (.function name s.offset opsToPush.length)
      .next (pushOps grow s opsToPush.reverse)

/-- `processBuiltinNonTerminal` — parser.go:266-290. -/
def processBuiltinNonTerminal (grow : Nat → Nat → Nat) (src : Str) (s : HState) (name : Int) : HStepRes :=
  if name = -2 then
    let input := peek src s.offset
    if input = 10 then
      .next (pushOp grow (pushOp grow s (.function name s.offset 1)) (.terminal [10]))
    else if input = 13 then
      .next (pushOp grow (pushOp grow (pushOp grow s (.function name s.offset 2)) (.terminal [10])) (.terminal [13]))
    else .done s (.err (.noEOLRule (peek src s.offset)))
  else .done s (.err (.unknownBuiltin name))

/-- `processNonTerminal` — parser.go:292-298. -/
def processNonTerminal (grow : Nat → Nat → Nat) (table : Table) (names : Option Names) (src : Str)
    (s : HState) (name : Int) : HStepRes :=
  if name < 0 then processBuiltinNonTerminal grow src s name
  else processTableNonTerminal grow table names src s name

/-- `processTerminal` — parser.go:300-308. -/
def processTerminal (grow : Nat → Nat → Nat) (s : HState) (tValue : Str) : HState :=
  let s := pushOp grow s (.function builtinTerminal s.offset tValue.length)
  pushOps grow s (tValue.map ParserOp.char).reverse

/-- The popping loop of `processFunction` — parser.go:333-347, `k = i + 1`; `childs` is nil when `discard`. -/
def popChilds (discard : Bool) (childs : SliceRef) : Nat → HState → Except PPanic HState
  | 0, s => .ok s
  | k + 1, s =>
    match popNode s with
    | none => .error .popEmpty
    | some (n, s) =>
      if !discard then popChilds discard childs k { s with nodeMem := s.nodeMem.store childs k n }
      else if n.type ≠ builtinTerminal then .error .combine
      else popChilds discard childs k s

/-- `processFunction` — parser.go:310-350. -/
def processFunction (grow : Nat → Nat → Nat) (s : HState) (name : Int) (pos amount : Nat) : HStepRes :=
  if amount = 0 then
    -- []cst.Node{ NewNode(builtinNothing, ...) }
    let r := s.nodeMem.make zeroNode 1
    let mem := r.1.store r.2 0 { type := builtinNothing, pos := s.offset, stop := s.offset, childs := SliceRef.empty }
    .next (pushNode grow { s with nodeMem := mem } { type := name, pos := s.offset, stop := s.offset, childs := r.2 })
  else
    let discard := decide (name = builtinTerminal)
    let r := if !discard then s.nodeMem.make zeroNode amount else (s.nodeMem, SliceRef.empty)
    match popChilds discard r.2 amount { s with nodeMem := r.1 } with
    | .error p => .done s (.panic p)
    | .ok s => .next (pushNode grow s { type := name, pos := pos, stop := s.offset, childs := r.2 })

/-- `processEOS` — parser.go:352-372. -/
def processEOS (names : Option Names) (src : Str) (s : HState) : HOutcome :=
  if peek src s.offset ≠ 0 then .err (.expectedEnd (peek src s.offset))
  else
    match popNode s with
    | none => .err .prodStackEmpty
    | some (n, _) =>
      match names with
      | none => .panic .nilMapWrite
      | some m => .ok n (addBuiltinNames m)

/-- `processChar` — parser.go:374-389. -/
def processChar (grow : Nat → Nat → Nat) (src : Str) (s : HState) (c : UInt8) : HStepRes :=
  if c ≠ peek src s.offset then .done s (.err (.expectedChar c (peek src s.offset)))
  else
    let s := pushNode grow s { type := builtinTerminal, pos := s.offset, stop := s.offset + 1, childs := SliceRef.empty }
    .next { s with offset := s.offset + 1 }

/-- One iteration of the loop in `parse` — parser.go:396-449, 451. -/
def step (grow : Nat → Nat → Nat) (table : Table) (names : Option Names) (src : Str) (s : HState) : HStepRes :=
  match popOp s with
  | none => .done s (.panic .unreachable)
  | some (op, s) =>
    match op with
    | .nonTerminal name => processNonTerminal grow table names src s name
    | .terminal value => .next (processTerminal grow s value)
    | .function name pos amount => processFunction grow s name pos amount
    | .eos => .done s (processEOS names src s)
    | .char c => processChar grow src s c
    | .nil => .done s (.panic .nilOp)

/-- The loop of `parse` with fuel: the final state and how the call ends. -/
def runFuel (grow : Nat → Nat → Nat) (table : Table) (names : Option Names) (src : Str) :
    Nat → HState → Option (HState × HOutcome)
  | 0, _ => none
  | fuel + 1, s =>
    match step grow table names src s with
    | .next s' => runFuel grow table names src fuel s'
    | .done s o => some (s, o)

/-- The state when the loop is entered — parser.go:393-394, 490-496. -/
def initState (grow : Nat → Nat → Nat) (opMem : Mem ParserOp) (nodeMem : Mem HNode) : HState :=
  let s : HState := ⟨0, opMem, SliceRef.empty, nodeMem, SliceRef.empty⟩
  pushOp grow (pushOp grow s .eos) (.nonTerminal 0)

/-- `Parse` — parser.go:474-499: the memory afterwards and how the call ends. -/
def parseFuel (grow : Nat → Nat → Nat) (p : Parser) (fuel : Nat) (src : Source) (opMem : Mem ParserOp) (nodeMem : Mem HNode) :
    Option (Mem ParserOp × Mem HNode × HOutcome) :=
  if p.table.length = 0 then some (opMem, nodeMem, .err .emptyTable)
  else
    match p.table.get 0 with
    | none => some (opMem, nodeMem, .err .noEntry)
    | some _ =>
      match readSource src with
      | .error e => some (opMem, nodeMem, .err e)
      | .ok text =>
        match runFuel grow p.table p.names text fuel (initState grow opMem nodeMem) with
        | none => none
        | some (s, o) => some (s.opMem, s.nodeMem, o)

end PH
end LL1
