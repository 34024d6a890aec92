import Verif.Model.TableGen
import Verif.Model.Memory

/-!
# `makeTable` with slices in memory

`Model/TableGen.lean` treats the operation list of a cell as a value.  In Go it is a slice, grown by `append`, which
may write into the array it already has.  This file models that: slices, arrays with capacity, `append` with any
growth policy.  `Props/TableHeap.lean` proves that the values come out the same and that no two cells share an array.
-/

namespace LL1
namespace TG

/-- A row under construction, `res` — tablegen.go:321, and the memory. -/
abbrev HRow := Mem ParserOp × GoMap UInt8 SliceRef

/-- tablegen.go:335-343. -/
def addEmptyCellsH : List UInt8 → HRow → R HRow
  | [], st => .ok st
  | followTerm :: rest, st =>
    match GoMap.get st.2 followTerm with
    | some _ => .err .conflict
    | none => addEmptyCellsH rest (st.1, GoMap.set st.2 followTerm SliceRef.empty)

/-- `res[term] = append(res[term], op)` — tablegen.go:352, 363. -/
def appendOpH (grow : Nat → Nat → Nat) (st : HRow) (term : UInt8) (op : ParserOp) : HRow :=
  let r := st.1.append grow ParserOp.nil ((GoMap.get st.2 term).getD SliceRef.empty) op
  (r.1, GoMap.set st.2 term r.2)

/-- tablegen.go:349-378. -/
def addSymbolsH (grow : Nat → Nat → Nat) (tg : Gen) (term : UInt8) : List Symbol → HRow → R HRow
  | [], st => .ok st
  | .terminal name :: rest, st => addSymbolsH grow tg term rest (appendOpH grow st term (.terminal name))
  | .nonTerminal name :: rest, st =>
    match tg.ruleMap.get name with
    | none => .err (.undefined name)
    | some ruleIndex => addSymbolsH grow tg term rest (appendOpH grow st term (.nonTerminal (ruleIndex : Int)))
  | .nothing :: _, _ => .panic .unreachable

/-- tablegen.go:348-379. -/
def addFirstCellsH (grow : Nat → Nat → Nat) (tg : Gen) (sequence : Sequence) : List UInt8 → HRow → R HRow
  | [], st => .ok st
  | term :: rest, st => do
    let st ← addSymbolsH grow tg term sequence.symbols st
    addFirstCellsH grow tg sequence rest st

/-- tablegen.go:323-380. -/
def addSequenceH (grow : Nat → Nat → Nat) (tg : Gen) (firsts follows : List ByteSet) (ruleIndex : Nat)
    (sequence : Sequence) (st : HRow) : R HRow := do
  let seqFirsts ← sequenceFirsts tg firsts sequence
  if seqFirsts.contains EOS then
    let seqFollows ← idx follows ruleIndex
    let followBytes ← bytesOf seqFollows
    let st ← addEmptyCellsH followBytes st
    let seqFirsts := seqFirsts.remove EOS
    let firstBytes ← bytesOf seqFirsts
    addFirstCellsH grow tg sequence firstBytes st
  else
    let firstBytes ← bytesOf seqFirsts
    addFirstCellsH grow tg sequence firstBytes st

/-- tablegen.go:323-380. -/
def addSequencesH (grow : Nat → Nat → Nat) (tg : Gen) (firsts follows : List ByteSet) (ruleIndex : Nat) :
    List Sequence → HRow → R HRow
  | [], st => .ok st
  | s :: ss, st => do
    let st ← addSequenceH grow tg firsts follows ruleIndex s st
    addSequencesH grow tg firsts follows ruleIndex ss st

/-- `makeTableRow` — tablegen.go:317-383. -/
def makeTableRowH (grow : Nat → Nat → Nat) (tg : Gen) (firsts follows : List ByteSet) (ruleIndex : Nat) (h : Mem ParserOp) :
    R HRow := do
  let rule ← idx tg.g.rules ruleIndex
  addSequencesH grow tg firsts follows ruleIndex rule.tail.sequences (h, [])

/-- The table in memory: rows hold slices. -/
abbrev HTable := Mem ParserOp × GoMap Int (GoMap UInt8 SliceRef)

/-- `makeTable` — tablegen.go:385-396. -/
def makeTableH (grow : Nat → Nat → Nat) (tg : Gen) (firsts follows : List ByteSet) (h : Mem ParserOp) : R HTable :=
  forEach (fun ruleIndex (st : HTable) => do
      let row ← makeTableRowH grow tg firsts follows ruleIndex st.1
      return (row.1, st.2.set (ruleIndex : Int) row.2))
    (List.range tg.g.rules.length) (h, [])

/-- `Run` — tablegen.go:398-411. -/
def runH (grow : Nat → Nat → Nat) (tg : Gen) (firsts follows : List ByteSet) (h : Mem ParserOp) : R HTable := do
  let firsts ← findFirsts tg firsts
  let follows ← findFollows tg firsts follows
  makeTableH grow tg firsts follows h

end TG

/-- `FromGrammar` — tablegen.go:413-455, with the table's slices in memory `h`. -/
def fromGrammarH (grow : Nat → Nat → Nat) (order : List (Str × Nat) → List (Str × Nat)) (g : Grammar) (h : Mem ParserOp) :
    TG.R (TG.HTable × Names) := do
  let tg := TG.newGen g
  let table ← TG.runH grow tg (TG.newSets tg.ruleCount) (TG.newSets tg.ruleCount) h
  return (table, TG.rowNames (order tg.ruleMap) [])

end LL1
