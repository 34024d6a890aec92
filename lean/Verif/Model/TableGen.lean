import Verif.Model.Ast
import Verif.Model.ByteSet
import Verif.Model.Parser

/-!
# Model of `pkg/bnf/tablegen/tablegen.go`

Slices `firsts`, `follows` are lists with checked index (out of range = panic).  The two
`for changed` fix-point loops carry fuel `256 * ruleCount + 1` and end in `Res.diverge` if that were
not enough (proved impossible).  The order in which Go iterates over `ruleMap` in `FromGrammar` is a
parameter.
-/

namespace LL1
namespace TG

/-- `const EOS = byte(0)` — tablegen.go:12. -/
def EOS : UInt8 := 0

/-- Errors returned by `FromGrammar`. -/
inductive Err where
  | nothingNotAlone                      -- tablegen.go:57-58
  | undefined (name : Str)               -- tablegen.go:66-67, 164-165, 358-360
  | ruleIndex                            -- tablegen.go:112, 278, 282
  | emptyTerminal                        -- tablegen.go:154
  | emptySequence                        -- tablegen.go:183
  | conflict                             -- tablegen.go:338-340
  deriving DecidableEq, Repr

/-- Panics. -/
inductive Panic where
  | indexOutOfRange                      -- t.Name[0] (:34), follows[0] (:299), slice reads
  | unreachable                          -- tablegen.go:373
  deriving DecidableEq, Repr

abbrev R (α : Type) := Res Err Panic α

/-- A checked slice read `xs[i]`. -/
def idx {α : Type} (xs : List α) (i : Nat) : R α :=
  match xs[i]? with
  | some a => .ok a
  | none => .panic .indexOutOfRange

/-- A checked slice write `xs[i] = a`. -/
def setIdx {α : Type} (xs : List α) (i : Nat) (a : α) : R (List α) :=
  if i < xs.length then .ok (xs.set i a) else .panic .indexOutOfRange

/-- `collectRuleHeads` — tablegen.go:14-20. -/
def collectRuleHeads (g : Grammar) : List Str := g.rules.map Rule.head

/-- `enumerate` — tablegen.go:25-31 (`i` is the running index). -/
def enumerateFrom : Nat → List Str → GoMap Str Nat → GoMap Str Nat
  | _, [], m => m
  | i, s :: ss, m => enumerateFrom (i + 1) ss (m.set s i)

def enumerate (arr : List Str) : GoMap Str Nat := enumerateFrom 0 arr []

/-- `terminalFirsts` — tablegen.go:33-35; `t.Name[0]` panics on the empty string. -/
def terminalFirsts (name : Str) : R ByteSet :=
  match name with
  | [] => .panic .indexOutOfRange
  | c :: _ => .ok (ByteSet.new [c])

/-- The immutable part of `tableGenerator` — tablegen.go:37-41; `firsts` and `follows` (:42-43) are
passed around explicitly. -/
structure Gen where
  g : Grammar
  ruleCount : Nat
  ruleMap : GoMap Str Nat

/-- The loop of `sequenceFirsts` — tablegen.go:50-92.  `n` is `len((*sequence).Symbols)`. -/
def sequenceFirstsLoop (tg : Gen) (firsts : List ByteSet) (n : Nat) :
    List Symbol → ByteSet → Bool → R ByteSet
  | [], res, isEmptyStrFound => .ok (if isEmptyStrFound then res.add EOS else res)
  | .terminal name :: _, res, _ => do
    let t ← terminalFirsts name
    return res.union t
  | .nothing :: _, res, _ =>
    if n > 1 then .err .nothingNotAlone else .ok (res.add EOS)
  | .nonTerminal name :: rest, res, _ =>
    match tg.ruleMap.get name with
    | none => .err (.undefined name)
    | some ruleIndex => do
      let ruleFirsts ← idx firsts ruleIndex
      let isEmptyStrFound := ruleFirsts.contains EOS
      let ruleFirsts := ruleFirsts.remove EOS
      let res := res.union ruleFirsts
      if !isEmptyStrFound then .ok res
      else sequenceFirstsLoop tg firsts n rest res isEmptyStrFound

/-- `sequenceFirsts` — tablegen.go:46-93. -/
def sequenceFirsts (tg : Gen) (firsts : List ByteSet) (sequence : Sequence) : R ByteSet :=
  sequenceFirstsLoop tg firsts sequence.symbols.length sequence.symbols (ByteSet.new []) true

/-- The loop of `substitutuionFirsts` — tablegen.go:98-104. -/
def substitutionFirstsLoop (tg : Gen) (firsts : List ByteSet) : List Sequence → ByteSet → R ByteSet
  | [], res => .ok res
  | s :: ss, res => do
    let seqFirsts ← sequenceFirsts tg firsts s
    substitutionFirstsLoop tg firsts ss (res.union seqFirsts)

/-- `substitutuionFirsts` — tablegen.go:95-107. -/
def substitutionFirsts (tg : Gen) (firsts : List ByteSet) (sub : Substitution) : R ByteSet :=
  substitutionFirstsLoop tg firsts sub.sequences (ByteSet.new [])

/-- `ruleFirsts` — tablegen.go:109-129; state: `firsts` and `*firstsChanged`. -/
def ruleFirsts (tg : Gen) (ruleIndex : Nat) (st : List ByteSet × Bool) : R (List ByteSet × Bool) := do
  if ruleIndex ≥ tg.ruleCount then .err .ruleIndex
  else
    let rule ← idx tg.g.rules ruleIndex
    let tempRes ← substitutionFirsts tg st.1 rule.tail
    let cur ← idx st.1 ruleIndex
    if cur.isSuperSet tempRes then return st
    else
      let firsts ← setIdx st.1 ruleIndex (cur.union tempRes)
      return (firsts, true)

/-- `for i := range ...` over indices with early return on error. -/
def forEach {σ : Type} (f : Nat → σ → R σ) : List Nat → σ → R σ
  | [], s => .ok s
  | i :: is, s => do
    let s' ← f i s
    forEach f is s'

/-- One pass of the inner loop of `findFirsts` — tablegen.go:135-141. -/
def firstsPass (tg : Gen) (firsts : List ByteSet) : R (List ByteSet × Bool) :=
  forEach (ruleFirsts tg) (List.range tg.g.rules.length) (firsts, false)

/-- The loop of `findFirsts` — tablegen.go:131-144. -/
def findFirstsLoop (tg : Gen) : Nat → List ByteSet → R (List ByteSet)
  | 0, _ => .diverge
  | fuel + 1, firsts => do
    let (firsts, changed) ← firstsPass tg firsts
    if changed then findFirstsLoop tg fuel firsts else return firsts

def findFirsts (tg : Gen) (firsts : List ByteSet) : R (List ByteSet) :=
  findFirstsLoop tg (256 * tg.ruleCount + 1) firsts

/-- `symbolFirsts` — tablegen.go:149-172. -/
def symbolFirsts (tg : Gen) (firsts : List ByteSet) : Symbol → R ByteSet
  | .terminal name => if name.length = 0 then .err .emptyTerminal else terminalFirsts name
  | .nothing => .ok (ByteSet.new [EOS])
  | .nonTerminal name =>
    match tg.ruleMap.get name with
    | none => .err (.undefined name)
    | some ruleIndex => idx firsts ruleIndex

/-- State of the follow computation: `follows` and `*followsChanged`. -/
abbrev FState := List ByteSet × Bool

/-- "add `set` to `follows[ruleIndex]` unless it is already a superset" — tablegen.go:209-214,
253-258, 263-267.  The `Bool` of the result tells whether something was added. -/
def addFollows (ruleIndex : Nat) (set : ByteSet) (st : FState) : R (FState × Bool) := do
  let cur ← idx st.1 ruleIndex
  if cur.isSuperSet set then return (st, false)
  else
    let follows ← setIdx st.1 ruleIndex (cur.union set)
    return ((follows, true), true)

/-- The "last symbol" block of `ruleFollowsInSequence` — tablegen.go:190-216 (a `for` used as `if`
with `break`).  Result `true` = the block executed `return nil` at :215. -/
def followsLast (ruleIndex sequenceRuleIndex : Nat) (headName : Str) (last : Symbol) (st : FState) :
    R (FState × Bool) :=
  if ruleIndex ≠ sequenceRuleIndex then
    match last with
    | .nonTerminal name =>
      if name ≠ headName then .ok (st, false)
      else do
        let ruleFollows ← idx st.1 sequenceRuleIndex
        addFollows ruleIndex ruleFollows st
    | _ => .ok (st, false)
  else .ok (st, false)

/-- `if nextFirsts.Contains(EOS) && ruleIndex != sequenceRuleIndex {...}` — tablegen.go:251-260. -/
def innerNull (ruleIndex sequenceRuleIndex : Nat) (nextFirsts : ByteSet) (st : FState) : R FState :=
  if nextFirsts.contains EOS && decide (ruleIndex ≠ sequenceRuleIndex) then do
    let ruleFollows ← idx st.1 sequenceRuleIndex
    let (st, _) ← addFollows ruleIndex ruleFollows st
    pure st
  else pure st

/-- One iteration of the loop over the other symbols — tablegen.go:220-267;
`symbol` is `Symbols[i]`, `next` is `Symbols[i+1]`. -/
def followsInner (tg : Gen) (firsts : List ByteSet) (ruleIndex sequenceRuleIndex : Nat)
    (headName : Str) (symbol next : Symbol) (st : FState) : R FState :=
  match symbol with
  | .nonTerminal name =>
    if name ≠ headName then .ok st
    else do
      let nextFirsts ← symbolFirsts tg firsts next
      let st ← innerNull ruleIndex sequenceRuleIndex nextFirsts st
      let nextFirsts := nextFirsts.remove EOS
      let (st, _) ← addFollows ruleIndex nextFirsts st
      return st
  | _ => .ok st

/-- The loop `for i := symbolsLen - 2; i >= 0; i--` — tablegen.go:219-268.  The argument is the
reversed sequence: from the last symbol down; `next` is the symbol to the right. -/
def followsInnerLoop (tg : Gen) (firsts : List ByteSet) (ruleIndex sequenceRuleIndex : Nat)
    (headName : Str) : (next : Symbol) → (revPrefix : List Symbol) → FState → R FState
  | _, [], st => .ok st
  | next, symbol :: rest, st => do
    let st ← followsInner tg firsts ruleIndex sequenceRuleIndex headName symbol next st
    followsInnerLoop tg firsts ruleIndex sequenceRuleIndex headName symbol rest st

/-- `ruleFollowsInSequence` — tablegen.go:174-271. -/
def ruleFollowsInSequence (tg : Gen) (firsts : List ByteSet) (ruleIndex : Nat)
    (sequence : Sequence) (sequenceRuleIndex : Nat) (st : FState) : R FState := do
  let rule ← idx tg.g.rules ruleIndex
  match sequence.symbols.reverse with
  | [] => .err .emptySequence
  | last :: revPrefix =>
    let (st, returned) ← followsLast ruleIndex sequenceRuleIndex rule.head last st
    if returned then return st
    else followsInnerLoop tg firsts ruleIndex sequenceRuleIndex rule.head last revPrefix st

/-- The loop of `ruleFollowsInRule` — tablegen.go:285-291. -/
def followsSequences (tg : Gen) (firsts : List ByteSet) (ruleIndex againstRuleIndex : Nat) :
    List Sequence → FState → R FState
  | [], st => .ok st
  | s :: ss, st => do
    let st ← ruleFollowsInSequence tg firsts ruleIndex s againstRuleIndex st
    followsSequences tg firsts ruleIndex againstRuleIndex ss st

/-- `ruleFollowsInRule` — tablegen.go:273-294. -/
def ruleFollowsInRule (tg : Gen) (firsts : List ByteSet) (ruleIndex againstRuleIndex : Nat)
    (st : FState) : R FState := do
  if ruleIndex ≥ tg.ruleCount then .err .ruleIndex
  else if againstRuleIndex ≥ tg.ruleCount then .err .ruleIndex
  else
    let rule ← idx tg.g.rules againstRuleIndex
    followsSequences tg firsts ruleIndex againstRuleIndex rule.tail.sequences st

/-- One pass of the two inner loops of `findFollows` — tablegen.go:303-312. -/
def followsPass (tg : Gen) (firsts follows : List ByteSet) : R FState :=
  forEach (fun ruleIndex st =>
      forEach (fun againstRuleIndex st => ruleFollowsInRule tg firsts ruleIndex againstRuleIndex st)
        (List.range tg.g.rules.length) st)
    (List.range tg.g.rules.length) (follows, false)

/-- The loop of `findFollows` — tablegen.go:302-313. -/
def findFollowsLoop (tg : Gen) (firsts : List ByteSet) : Nat → List ByteSet → R (List ByteSet)
  | 0, _ => .diverge
  | fuel + 1, follows => do
    let (follows, changed) ← followsPass tg firsts follows
    if changed then findFollowsLoop tg firsts fuel follows else return follows

/-- `findFollows` — tablegen.go:296-315; `tg.follows[0]` panics on a grammar without rules. -/
def findFollows (tg : Gen) (firsts follows : List ByteSet) : R (List ByteSet) := do
  let f0 ← idx follows 0
  let follows ← setIdx follows 0 (f0.add EOS)
  findFollowsLoop tg firsts (256 * tg.ruleCount + 1) follows

/-- `s.Bytes()` (its loop is fuelled). -/
def bytesOf (s : ByteSet) : R (List UInt8) :=
  match s.bytes with
  | some bs => .ok bs
  | none => .diverge

/-- The loop over the follow bytes — tablegen.go:335-343. -/
def addEmptyCells : List UInt8 → Row → R Row
  | [], res => .ok res
  | followTerm :: rest, res =>
    match GoMap.get res followTerm with
    | some _ => .err .conflict
    | none => addEmptyCells rest (GoMap.set res followTerm [])

/-- `res[term] = append(res[term], op)` (a missing entry reads as nil) — tablegen.go:352,363. -/
def appendOp (res : Row) (term : UInt8) (op : ParserOp) : Row :=
  GoMap.set res term ((GoMap.get res term).getD [] ++ [op])

/-- The loop over the symbols for one `term` — tablegen.go:349-378. -/
def addSymbols (tg : Gen) (term : UInt8) : List Symbol → Row → R Row
  | [], res => .ok res
  | .terminal name :: rest, res => addSymbols tg term rest (appendOp res term (.terminal name))
  | .nonTerminal name :: rest, res =>
    match tg.ruleMap.get name with
    | none => .err (.undefined name)
    | some ruleIndex =>
      addSymbols tg term rest (appendOp res term (.nonTerminal (ruleIndex : Int)))
  | .nothing :: _, _ => .panic .unreachable

/-- The loop over the first bytes — tablegen.go:348-379. -/
def addFirstCells (tg : Gen) (sequence : Sequence) : List UInt8 → Row → R Row
  | [], res => .ok res
  | term :: rest, res => do
    let res ← addSymbols tg term sequence.symbols res
    addFirstCells tg sequence rest res

/-- One iteration of the loop over the alternatives — tablegen.go:323-380. -/
def addSequence (tg : Gen) (firsts follows : List ByteSet) (ruleIndex : Nat) (sequence : Sequence)
    (res : Row) : R Row := do
  let seqFirsts ← sequenceFirsts tg firsts sequence
  if seqFirsts.contains EOS then
    let seqFollows ← idx follows ruleIndex
    let followBytes ← bytesOf seqFollows
    let res ← addEmptyCells followBytes res
    let seqFirsts := seqFirsts.remove EOS
    let firstBytes ← bytesOf seqFirsts
    addFirstCells tg sequence firstBytes res
  else
    let firstBytes ← bytesOf seqFirsts
    addFirstCells tg sequence firstBytes res

/-- The loop of `makeTableRow` — tablegen.go:323-380. -/
def addSequences (tg : Gen) (firsts follows : List ByteSet) (ruleIndex : Nat) :
    List Sequence → Row → R Row
  | [], res => .ok res
  | s :: ss, res => do
    let res ← addSequence tg firsts follows ruleIndex s res
    addSequences tg firsts follows ruleIndex ss res

/-- `makeTableRow` — tablegen.go:317-383. -/
def makeTableRow (tg : Gen) (firsts follows : List ByteSet) (ruleIndex : Nat) : R Row := do
  let rule ← idx tg.g.rules ruleIndex
  addSequences tg firsts follows ruleIndex rule.tail.sequences []

/-- `makeTable` — tablegen.go:385-396. -/
def makeTable (tg : Gen) (firsts follows : List ByteSet) : R Table :=
  forEach (fun ruleIndex (table : Table) => do
      let row ← makeTableRow tg firsts follows ruleIndex
      return table.set (ruleIndex : Int) row)
    (List.range tg.g.rules.length) []

/-- `Run` — tablegen.go:398-411. -/
def run (tg : Gen) (firsts follows : List ByteSet) : R Table := do
  let firsts ← findFirsts tg firsts
  let follows ← findFollows tg firsts follows
  makeTable tg firsts follows

/-- `for k, v := range tablegen.ruleMap { rowNamesV[v] = k }` — tablegen.go:449-452, visiting the
entries in the given order. -/
def rowNames : List (Str × Nat) → Names → Names
  | [], m => m
  | (k, v) :: rest, m => rowNames rest (m.set (v : Int) k)

/-- The initial generator — tablegen.go:417-442. -/
def newGen (g : Grammar) : Gen :=
  { g := g, ruleCount := (collectRuleHeads g).length, ruleMap := enumerate (collectRuleHeads g) }

def newSets (n : Nat) : List ByteSet := List.replicate n (ByteSet.new [])

end TG

/-- `FromGrammar` — tablegen.go:413-455.  `order` is the order in which this run of the program
iterates over `ruleMap` (any rearrangement of its entries). -/
def fromGrammar (order : List (Str × Nat) → List (Str × Nat)) (g : Grammar) :
    TG.R (Table × Names) := do
  let tg := TG.newGen g
  let table ← TG.run tg (TG.newSets tg.ruleCount) (TG.newSets tg.ruleCount)
  return (table, TG.rowNames (order tg.ruleMap) [])

end LL1
