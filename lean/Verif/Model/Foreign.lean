import Verif.Model.TableGen

/-!
# `FromGrammar` on grammars with symbols of any type

`bnf.Symbol` is an interface: besides the three symbol types of the package a caller can put a nil `Symbol`, a pointer
to one of the three types or a type of his own into a grammar.  `Model/TableGen.lean` knows the three types only; this
file models the same functions of `tablegen.go` on all of them.  Functions that never look at a symbol are taken over
from there (`lift`).
-/

namespace LL1
namespace TGX

/-- A value of the interface `bnf.Symbol` — ast.go:16-22: one of the package's own three types, or any other value,
nil included; of the latter `tablegen.go` uses only the type name (`%T`; `<nil>` for nil). -/
inductive XSymbol where
  | own (s : Symbol)
  | other (typeName : Str)
  deriving DecidableEq, Repr

/-- `Rule` — ast.go:96-99 with its `Substitution` and `Sequence`s (ast.go:86-93) as lists. -/
structure XRule where
  head : Str
  sequences : List (List XSymbol)
  deriving DecidableEq, Repr

/-- `Grammar` — ast.go:119-121. -/
structure XGrammar where
  rules : List XRule
  deriving DecidableEq, Repr

/-- Errors: the ones of `TG.Err` and `symbol of unknown type: %T` — tablegen.go:170. -/
inductive XErr where
  | own (e : TG.Err)
  | unknownType (typeName : Str)
  deriving DecidableEq, Repr

/-- Panics: the ones of `TG.Panic` and `symbol of unknown type %T` — tablegen.go:84, 376. -/
inductive XPanic where
  | own (p : TG.Panic)
  | unknownType (typeName : Str)
  deriving DecidableEq, Repr

abbrev XR (α : Type) := Res XErr XPanic α

/-- A computation that does not look at symbols. -/
def lift {α : Type} : TG.R α → XR α
  | .ok a => .ok a
  | .err e => .err (.own e)
  | .panic p => .panic (.own p)
  | .diverge => .diverge

/-- `tableGenerator` — tablegen.go:37-44. -/
structure XGen where
  g : XGrammar
  ruleCount : Nat
  ruleMap : GoMap Str Nat

/-- The loop of `sequenceFirsts` — tablegen.go:50-92; `default:` is :83-84. -/
def sequenceFirstsLoop (tg : XGen) (firsts : List ByteSet) (n : Nat) :
    List XSymbol → ByteSet → Bool → XR ByteSet
  | [], res, isEmptyStrFound => .ok (if isEmptyStrFound then res.add TG.EOS else res)
  | .own (.terminal name) :: _, res, _ => do
    let t ← lift (TG.terminalFirsts name)
    return res.union t
  | .own .nothing :: _, res, _ =>
    if n > 1 then .err (.own .nothingNotAlone) else .ok (res.add TG.EOS)
  | .own (.nonTerminal name) :: rest, res, _ =>
    match tg.ruleMap.get name with
    | none => .err (.own (.undefined name))
    | some ruleIndex => do
      let ruleFirsts ← lift (TG.idx firsts ruleIndex)
      let isEmptyStrFound := ruleFirsts.contains TG.EOS
      let ruleFirsts := ruleFirsts.remove TG.EOS
      let res := res.union ruleFirsts
      if !isEmptyStrFound then .ok res
      else sequenceFirstsLoop tg firsts n rest res isEmptyStrFound
  | .other t :: _, _, _ => .panic (.unknownType t)

/-- `sequenceFirsts` — tablegen.go:46-93. -/
def sequenceFirsts (tg : XGen) (firsts : List ByteSet) (sequence : List XSymbol) : XR ByteSet :=
  sequenceFirstsLoop tg firsts sequence.length sequence (ByteSet.new []) true

/-- The loop of `substitutuionFirsts` — tablegen.go:98-104. -/
def substitutionFirstsLoop (tg : XGen) (firsts : List ByteSet) : List (List XSymbol) → ByteSet → XR ByteSet
  | [], res => .ok res
  | s :: ss, res => do
    let seqFirsts ← sequenceFirsts tg firsts s
    substitutionFirstsLoop tg firsts ss (res.union seqFirsts)

/-- `ruleFirsts` — tablegen.go:109-129, with `substitutuionFirsts` (:95-107). -/
def ruleFirsts (tg : XGen) (ruleIndex : Nat) (st : List ByteSet × Bool) : XR (List ByteSet × Bool) := do
  if ruleIndex ≥ tg.ruleCount then .err (.own .ruleIndex)
  else
    let rule ← lift (TG.idx tg.g.rules ruleIndex)
    let tempRes ← substitutionFirstsLoop tg st.1 rule.sequences (ByteSet.new [])
    let cur ← lift (TG.idx st.1 ruleIndex)
    if cur.isSuperSet tempRes then return st
    else
      let firsts ← lift (TG.setIdx st.1 ruleIndex (cur.union tempRes))
      return (firsts, true)

/-- `for i := range ...` over indices with early return on error. -/
def forEach {σ : Type} (f : Nat → σ → XR σ) : List Nat → σ → XR σ
  | [], s => .ok s
  | i :: is, s => do
    let s' ← f i s
    forEach f is s'

/-- The loop of `findFirsts` — tablegen.go:131-144. -/
def findFirstsLoop (tg : XGen) : Nat → List ByteSet → XR (List ByteSet)
  | 0, _ => .diverge
  | fuel + 1, firsts => do
    let (firsts, changed) ← forEach (ruleFirsts tg) (List.range tg.g.rules.length) (firsts, false)
    if changed then findFirstsLoop tg fuel firsts else return firsts

/-- `symbolFirsts` — tablegen.go:149-172; `default:` is :169-170. -/
def symbolFirsts (tg : XGen) (firsts : List ByteSet) : XSymbol → XR ByteSet
  | .own (.terminal name) => if name.length = 0 then .err (.own .emptyTerminal) else lift (TG.terminalFirsts name)
  | .own .nothing => .ok (ByteSet.new [TG.EOS])
  | .own (.nonTerminal name) =>
    match tg.ruleMap.get name with
    | none => .err (.own (.undefined name))
    | some ruleIndex => lift (TG.idx firsts ruleIndex)
  | .other t => .err (.unknownType t)

/-- The "last symbol" block — tablegen.go:190-216; the type assertion at :193 fails for other types. -/
def followsLast (ruleIndex sequenceRuleIndex : Nat) (headName : Str) (last : XSymbol) (st : TG.FState) :
    XR (TG.FState × Bool) :=
  if ruleIndex ≠ sequenceRuleIndex then
    match last with
    | .own (.nonTerminal name) =>
      if name ≠ headName then .ok (st, false)
      else do
        let ruleFollows ← lift (TG.idx st.1 sequenceRuleIndex)
        lift (TG.addFollows ruleIndex ruleFollows st)
    | _ => .ok (st, false)
  else .ok (st, false)

/-- One iteration of the loop over the other symbols — tablegen.go:220-267; the type assertion at :222 fails for other
types. -/
def followsInner (tg : XGen) (firsts : List ByteSet) (ruleIndex sequenceRuleIndex : Nat)
    (headName : Str) (symbol next : XSymbol) (st : TG.FState) : XR TG.FState :=
  match symbol with
  | .own (.nonTerminal name) =>
    if name ≠ headName then .ok st
    else do
      let nextFirsts ← symbolFirsts tg firsts next
      let st ← lift (TG.innerNull ruleIndex sequenceRuleIndex nextFirsts st)
      let nextFirsts := nextFirsts.remove TG.EOS
      let (st, _) ← lift (TG.addFollows ruleIndex nextFirsts st)
      return st
  | _ => .ok st

/-- The loop `for i := symbolsLen - 2; i >= 0; i--` — tablegen.go:219-268. -/
def followsInnerLoop (tg : XGen) (firsts : List ByteSet) (ruleIndex sequenceRuleIndex : Nat)
    (headName : Str) : (next : XSymbol) → (revPrefix : List XSymbol) → TG.FState → XR TG.FState
  | _, [], st => .ok st
  | next, symbol :: rest, st => do
    let st ← followsInner tg firsts ruleIndex sequenceRuleIndex headName symbol next st
    followsInnerLoop tg firsts ruleIndex sequenceRuleIndex headName symbol rest st

/-- `ruleFollowsInSequence` — tablegen.go:174-271. -/
def ruleFollowsInSequence (tg : XGen) (firsts : List ByteSet) (ruleIndex : Nat)
    (sequence : List XSymbol) (sequenceRuleIndex : Nat) (st : TG.FState) : XR TG.FState := do
  let rule ← lift (TG.idx tg.g.rules ruleIndex)
  match sequence.reverse with
  | [] => .err (.own .emptySequence)
  | last :: revPrefix =>
    let (st, returned) ← followsLast ruleIndex sequenceRuleIndex rule.head last st
    if returned then return st
    else followsInnerLoop tg firsts ruleIndex sequenceRuleIndex rule.head last revPrefix st

/-- The loop of `ruleFollowsInRule` — tablegen.go:285-291. -/
def followsSequences (tg : XGen) (firsts : List ByteSet) (ruleIndex againstRuleIndex : Nat) :
    List (List XSymbol) → TG.FState → XR TG.FState
  | [], st => .ok st
  | s :: ss, st => do
    let st ← ruleFollowsInSequence tg firsts ruleIndex s againstRuleIndex st
    followsSequences tg firsts ruleIndex againstRuleIndex ss st

/-- `ruleFollowsInRule` — tablegen.go:273-294. -/
def ruleFollowsInRule (tg : XGen) (firsts : List ByteSet) (ruleIndex againstRuleIndex : Nat)
    (st : TG.FState) : XR TG.FState := do
  if ruleIndex ≥ tg.ruleCount then .err (.own .ruleIndex)
  else if againstRuleIndex ≥ tg.ruleCount then .err (.own .ruleIndex)
  else
    let rule ← lift (TG.idx tg.g.rules againstRuleIndex)
    followsSequences tg firsts ruleIndex againstRuleIndex rule.sequences st

/-- One pass of the two inner loops of `findFollows` — tablegen.go:303-312. -/
def followsPass (tg : XGen) (firsts follows : List ByteSet) : XR TG.FState :=
  forEach (fun ruleIndex st =>
      forEach (fun againstRuleIndex st => ruleFollowsInRule tg firsts ruleIndex againstRuleIndex st)
        (List.range tg.g.rules.length) st)
    (List.range tg.g.rules.length) (follows, false)

/-- The loop of `findFollows` — tablegen.go:302-313. -/
def findFollowsLoop (tg : XGen) (firsts : List ByteSet) : Nat → List ByteSet → XR (List ByteSet)
  | 0, _ => .diverge
  | fuel + 1, follows => do
    let (follows, changed) ← followsPass tg firsts follows
    if changed then findFollowsLoop tg firsts fuel follows else return follows

/-- `findFollows` — tablegen.go:296-315. -/
def findFollows (tg : XGen) (firsts follows : List ByteSet) : XR (List ByteSet) := do
  let f0 ← lift (TG.idx follows 0)
  let follows ← lift (TG.setIdx follows 0 (f0.add TG.EOS))
  findFollowsLoop tg firsts (256 * tg.ruleCount + 1) follows

/-- The loop over the symbols for one `term` — tablegen.go:349-378; `default:` is :375-376. -/
def addSymbols (tg : XGen) (term : UInt8) : List XSymbol → Row → XR Row
  | [], res => .ok res
  | .own (.terminal name) :: rest, res => addSymbols tg term rest (TG.appendOp res term (.terminal name))
  | .own (.nonTerminal name) :: rest, res =>
    match tg.ruleMap.get name with
    | none => .err (.own (.undefined name))
    | some ruleIndex =>
      addSymbols tg term rest (TG.appendOp res term (.nonTerminal (ruleIndex : Int)))
  | .own .nothing :: _, _ => .panic (.own .unreachable)
  | .other t :: _, _ => .panic (.unknownType t)

/-- The loop over the first bytes — tablegen.go:348-379. -/
def addFirstCells (tg : XGen) (sequence : List XSymbol) : List UInt8 → Row → XR Row
  | [], res => .ok res
  | term :: rest, res => do
    let res ← addSymbols tg term sequence res
    addFirstCells tg sequence rest res

/-- One iteration of the loop over the alternatives — tablegen.go:323-380. -/
def addSequence (tg : XGen) (firsts follows : List ByteSet) (ruleIndex : Nat) (sequence : List XSymbol)
    (res : Row) : XR Row := do
  let seqFirsts ← sequenceFirsts tg firsts sequence
  if seqFirsts.contains TG.EOS then
    let seqFollows ← lift (TG.idx follows ruleIndex)
    let followBytes ← lift (TG.bytesOf seqFollows)
    let res ← lift (TG.addEmptyCells followBytes res)
    let seqFirsts := seqFirsts.remove TG.EOS
    let firstBytes ← lift (TG.bytesOf seqFirsts)
    addFirstCells tg sequence firstBytes res
  else
    let firstBytes ← lift (TG.bytesOf seqFirsts)
    addFirstCells tg sequence firstBytes res

/-- The loop of `makeTableRow` — tablegen.go:323-380. -/
def addSequences (tg : XGen) (firsts follows : List ByteSet) (ruleIndex : Nat) :
    List (List XSymbol) → Row → XR Row
  | [], res => .ok res
  | s :: ss, res => do
    let res ← addSequence tg firsts follows ruleIndex s res
    addSequences tg firsts follows ruleIndex ss res

/-- `makeTableRow` — tablegen.go:317-383. -/
def makeTableRow (tg : XGen) (firsts follows : List ByteSet) (ruleIndex : Nat) : XR Row := do
  let rule ← lift (TG.idx tg.g.rules ruleIndex)
  addSequences tg firsts follows ruleIndex rule.sequences []

/-- `makeTable` — tablegen.go:385-396. -/
def makeTable (tg : XGen) (firsts follows : List ByteSet) : XR Table :=
  forEach (fun ruleIndex (table : Table) => do
      let row ← makeTableRow tg firsts follows ruleIndex
      return table.set (ruleIndex : Int) row)
    (List.range tg.g.rules.length) []

/-- `Run` — tablegen.go:398-411. -/
def run (tg : XGen) (firsts follows : List ByteSet) : XR Table := do
  let firsts ← findFirstsLoop tg (256 * tg.ruleCount + 1) firsts
  let follows ← findFollows tg firsts follows
  makeTable tg firsts follows

/-- The initial generator — tablegen.go:417-442. -/
def newGen (g : XGrammar) : XGen :=
  { g := g, ruleCount := g.rules.length, ruleMap := TG.enumerate (g.rules.map XRule.head) }

end TGX

/-- `FromGrammar` — tablegen.go:413-455, on grammars with symbols of any type. -/
def fromGrammarAny (order : List (Str × Nat) → List (Str × Nat)) (g : TGX.XGrammar) : TGX.XR (Table × Names) := do
  let tg := TGX.newGen g
  let table ← TGX.run tg (TG.newSets tg.ruleCount) (TG.newSets tg.ruleCount)
  return (table, TG.rowNames (order tg.ruleMap) [])

end LL1
