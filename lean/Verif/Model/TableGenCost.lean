import Verif.Model.TableGen

/-!
# `FromGrammar` with its running time

`pkg/bnf/tablegen/tablegen.go` again (see `Model/TableGen.lean` for the functions themselves), now counting steps.  A
step is one iteration of one of the loops of tablegen.go — every loop of the file counts, and nothing in the file is
recursive.  Between two steps the code does a bounded number of operations on byte sets (each at most 256 bit
operations), map reads and writes and appends; these are not counted one by one.
(`Proofs/TableGenCost.lean` proves that the results are those of `Model/TableGen.lean`.)
-/

namespace LL1
namespace TG

/-- A result with the number of loop iterations made on the way to it (also when it is an error or a panic). -/
structure CR (α : Type) where
  steps : Nat
  res : R α

namespace CR
variable {α β : Type}

/-- One after the other. -/
def bind (x : CR α) (f : α → CR β) : CR β :=
  match x.res with
  | .ok a => ⟨x.steps + (f a).steps, (f a).res⟩
  | .err e => ⟨x.steps, .err e⟩
  | .panic p => ⟨x.steps, .panic p⟩
  | .diverge => ⟨x.steps, .diverge⟩

instance : Monad CR where
  pure a := ⟨0, .ok a⟩
  bind := bind

end CR

/-- Something done without a loop. -/
def free {α : Type} (x : R α) : CR α := ⟨0, x⟩

/-- One loop iteration begins. -/
def tick : CR Unit := ⟨1, .ok ()⟩

/-- A loop of `n` iterations that does nothing else of interest. -/
def ticks (n : Nat) : CR Unit := ⟨n, .ok ()⟩

/-- The loop of `sequenceFirsts` — tablegen.go:50-92. -/
def sequenceFirstsLoopC (tg : Gen) (firsts : List ByteSet) (n : Nat) :
    List Symbol → ByteSet → Bool → CR ByteSet
  | [], res, isEmptyStrFound => free (.ok (if isEmptyStrFound then res.add EOS else res))
  | .terminal name :: _, res, _ => do
    tick
    let t ← free (terminalFirsts name)
    return res.union t
  | .nothing :: _, res, _ => do
    tick
    if n > 1 then free (.err .nothingNotAlone) else return res.add EOS
  | .nonTerminal name :: rest, res, _ => do
    tick
    match tg.ruleMap.get name with
    | none => free (.err (.undefined name))
    | some ruleIndex => do
      let ruleFirsts ← free (idx firsts ruleIndex)
      let isEmptyStrFound := ruleFirsts.contains EOS
      let ruleFirsts := ruleFirsts.remove EOS
      let res := res.union ruleFirsts
      if !isEmptyStrFound then return res
      else sequenceFirstsLoopC tg firsts n rest res isEmptyStrFound

/-- `sequenceFirsts` — tablegen.go:46-93. -/
def sequenceFirstsC (tg : Gen) (firsts : List ByteSet) (sequence : Sequence) : CR ByteSet :=
  sequenceFirstsLoopC tg firsts sequence.symbols.length sequence.symbols (ByteSet.new []) true

/-- The loop of `substitutuionFirsts` — tablegen.go:98-104. -/
def substitutionFirstsLoopC (tg : Gen) (firsts : List ByteSet) : List Sequence → ByteSet → CR ByteSet
  | [], res => return res
  | s :: ss, res => do
    tick
    let seqFirsts ← sequenceFirstsC tg firsts s
    substitutionFirstsLoopC tg firsts ss (res.union seqFirsts)

/-- `ruleFirsts` — tablegen.go:109-129. -/
def ruleFirstsC (tg : Gen) (ruleIndex : Nat) (st : List ByteSet × Bool) : CR (List ByteSet × Bool) := do
  if ruleIndex ≥ tg.ruleCount then free (.err .ruleIndex)
  else
    let rule ← free (idx tg.g.rules ruleIndex)
    let tempRes ← substitutionFirstsLoopC tg st.1 rule.tail.sequences (ByteSet.new [])
    let cur ← free (idx st.1 ruleIndex)
    if cur.isSuperSet tempRes then return st
    else
      let firsts ← free (setIdx st.1 ruleIndex (cur.union tempRes))
      return (firsts, true)

/-- `for i := range ...` over indices with early return on error. -/
def forEachC {σ : Type} (f : Nat → σ → CR σ) : List Nat → σ → CR σ
  | [], s => return s
  | i :: is, s => do
    tick
    let s' ← f i s
    forEachC f is s'

/-- One pass of the inner loop of `findFirsts` — tablegen.go:135-141. -/
def firstsPassC (tg : Gen) (firsts : List ByteSet) : CR (List ByteSet × Bool) :=
  forEachC (ruleFirstsC tg) (List.range tg.g.rules.length) (firsts, false)

/-- `for changed { changed = false; ... }` — tablegen.go:134-142, 302-313; every pass is a step too. -/
def fixLoopC (pass : List ByteSet → CR (List ByteSet × Bool)) : Nat → List ByteSet → CR (List ByteSet)
  | 0, _ => free .diverge
  | fuel + 1, sets => do
    tick
    let (sets, changed) ← pass sets
    if changed then fixLoopC pass fuel sets else return sets

/-- `findFirsts` — tablegen.go:131-144. -/
def findFirstsC (tg : Gen) (firsts : List ByteSet) : CR (List ByteSet) :=
  fixLoopC (firstsPassC tg) (256 * tg.ruleCount + 1) firsts

/-- The loop `for i := symbolsLen - 2; i >= 0; i--` — tablegen.go:219-268.  (The two other `for` statements of
`ruleFollowsInSequence`, :190 and :251, are `if`s: they end in `break` or `return` in their first iteration.) -/
def followsInnerLoopC (tg : Gen) (firsts : List ByteSet) (ruleIndex sequenceRuleIndex : Nat)
    (headName : Str) : (next : Symbol) → (revPrefix : List Symbol) → FState → CR FState
  | _, [], st => return st
  | next, symbol :: rest, st => do
    tick
    let st ← free (followsInner tg firsts ruleIndex sequenceRuleIndex headName symbol next st)
    followsInnerLoopC tg firsts ruleIndex sequenceRuleIndex headName symbol rest st

/-- `ruleFollowsInSequence` — tablegen.go:174-271. -/
def ruleFollowsInSequenceC (tg : Gen) (firsts : List ByteSet) (ruleIndex : Nat)
    (sequence : Sequence) (sequenceRuleIndex : Nat) (st : FState) : CR FState := do
  let rule ← free (idx tg.g.rules ruleIndex)
  match sequence.symbols.reverse with
  | [] => free (.err .emptySequence)
  | last :: revPrefix =>
    let (st, returned) ← free (followsLast ruleIndex sequenceRuleIndex rule.head last st)
    if returned then return st
    else followsInnerLoopC tg firsts ruleIndex sequenceRuleIndex rule.head last revPrefix st

/-- The loop of `ruleFollowsInRule` — tablegen.go:285-291. -/
def followsSequencesC (tg : Gen) (firsts : List ByteSet) (ruleIndex againstRuleIndex : Nat) :
    List Sequence → FState → CR FState
  | [], st => return st
  | s :: ss, st => do
    tick
    let st ← ruleFollowsInSequenceC tg firsts ruleIndex s againstRuleIndex st
    followsSequencesC tg firsts ruleIndex againstRuleIndex ss st

/-- `ruleFollowsInRule` — tablegen.go:273-294. -/
def ruleFollowsInRuleC (tg : Gen) (firsts : List ByteSet) (ruleIndex againstRuleIndex : Nat)
    (st : FState) : CR FState := do
  if ruleIndex ≥ tg.ruleCount then free (.err .ruleIndex)
  else if againstRuleIndex ≥ tg.ruleCount then free (.err .ruleIndex)
  else
    let rule ← free (idx tg.g.rules againstRuleIndex)
    followsSequencesC tg firsts ruleIndex againstRuleIndex rule.tail.sequences st

/-- One pass of the two inner loops of `findFollows` — tablegen.go:303-312. -/
def followsPassC (tg : Gen) (firsts follows : List ByteSet) : CR FState :=
  forEachC (fun ruleIndex st =>
      forEachC (fun againstRuleIndex st => ruleFollowsInRuleC tg firsts ruleIndex againstRuleIndex st)
        (List.range tg.g.rules.length) st)
    (List.range tg.g.rules.length) (follows, false)

/-- `findFollows` — tablegen.go:296-315. -/
def findFollowsC (tg : Gen) (firsts follows : List ByteSet) : CR (List ByteSet) := do
  let f0 ← free (idx follows 0)
  let follows ← free (setIdx follows 0 (f0.add EOS))
  fixLoopC (followsPassC tg firsts) (256 * tg.ruleCount + 1) follows

/-- The loop over the follow bytes — tablegen.go:335-343. -/
def addEmptyCellsC : List UInt8 → Row → CR Row
  | [], res => return res
  | followTerm :: rest, res => do
    tick
    match GoMap.get res followTerm with
    | some _ => free (.err .conflict)
    | none => addEmptyCellsC rest (GoMap.set res followTerm [])

/-- The loop over the symbols for one `term` — tablegen.go:349-378. -/
def addSymbolsC (tg : Gen) (term : UInt8) : List Symbol → Row → CR Row
  | [], res => return res
  | .terminal name :: rest, res => do
    tick
    addSymbolsC tg term rest (appendOp res term (.terminal name))
  | .nonTerminal name :: rest, res => do
    tick
    match tg.ruleMap.get name with
    | none => free (.err (.undefined name))
    | some ruleIndex =>
      addSymbolsC tg term rest (appendOp res term (.nonTerminal (ruleIndex : Int)))
  | .nothing :: _, _ => do
    tick
    free (.panic .unreachable)

/-- The loop over the first bytes — tablegen.go:348-379. -/
def addFirstCellsC (tg : Gen) (sequence : Sequence) : List UInt8 → Row → CR Row
  | [], res => return res
  | term :: rest, res => do
    tick
    let res ← addSymbolsC tg term sequence.symbols res
    addFirstCellsC tg sequence rest res

/-- One iteration of the loop over the alternatives — tablegen.go:323-380. -/
def addSequenceC (tg : Gen) (firsts follows : List ByteSet) (ruleIndex : Nat) (sequence : Sequence)
    (res : Row) : CR Row := do
  let seqFirsts ← sequenceFirstsC tg firsts sequence
  if seqFirsts.contains EOS then
    let seqFollows ← free (idx follows ruleIndex)
    let followBytes ← free (bytesOf seqFollows)
    let res ← addEmptyCellsC followBytes res
    let seqFirsts := seqFirsts.remove EOS
    let firstBytes ← free (bytesOf seqFirsts)
    addFirstCellsC tg sequence firstBytes res
  else
    let firstBytes ← free (bytesOf seqFirsts)
    addFirstCellsC tg sequence firstBytes res

/-- The loop of `makeTableRow` — tablegen.go:323-380. -/
def addSequencesC (tg : Gen) (firsts follows : List ByteSet) (ruleIndex : Nat) :
    List Sequence → Row → CR Row
  | [], res => return res
  | s :: ss, res => do
    tick
    let res ← addSequenceC tg firsts follows ruleIndex s res
    addSequencesC tg firsts follows ruleIndex ss res

/-- `makeTableRow` — tablegen.go:317-383. -/
def makeTableRowC (tg : Gen) (firsts follows : List ByteSet) (ruleIndex : Nat) : CR Row := do
  let rule ← free (idx tg.g.rules ruleIndex)
  addSequencesC tg firsts follows ruleIndex rule.tail.sequences []

/-- `makeTable` — tablegen.go:385-396. -/
def makeTableC (tg : Gen) (firsts follows : List ByteSet) : CR Table :=
  forEachC (fun ruleIndex (table : Table) => do
      let row ← makeTableRowC tg firsts follows ruleIndex
      return table.set (ruleIndex : Int) row)
    (List.range tg.g.rules.length) []

/-- `Run` — tablegen.go:398-411. -/
def runC (tg : Gen) (firsts follows : List ByteSet) : CR Table := do
  let firsts ← findFirstsC tg firsts
  let follows ← findFollowsC tg firsts follows
  makeTableC tg firsts follows

end TG

/-- `FromGrammar` — tablegen.go:413-455.  `collectRuleHeads` (:14-20) is called twice, `enumerate` (:25-31) once, the
loops of :424-426 and :429-431 fill the two slices: five loops over the rules.  The loop at :450-452 is over `ruleMap`. -/
def fromGrammarC (order : List (Str × Nat) → List (Str × Nat)) (g : Grammar) : TG.CR (Table × Names) := do
  let tg := TG.newGen g
  TG.ticks (5 * g.rules.length)
  let table ← TG.runC tg (TG.newSets tg.ruleCount) (TG.newSets tg.ruleCount)
  TG.ticks (order tg.ruleMap).length
  return (table, TG.rowNames (order tg.ruleMap) [])

end LL1
