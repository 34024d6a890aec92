import Verif.Model.TableGen

/-!
# What `FromGrammar` prints

`makeTableRow` prints the contents of a clashing cell with `fmt.Println` before it returns the error
(tablegen.go:336-340); nothing else in the package prints.  This is the part of the package below `Run` again, now with
what has been written to standard output so far.  (`Proofs/Stdout.lean` proves that the results are those of
`Model/TableGen.lean`.)
-/

namespace LL1
namespace TG

/-- Standard output written by a call, and how the call ends. -/
abbrev Out (α : Type) := Str × R α

/-- A call that prints nothing. -/
def Out.quiet {α : Type} (r : R α) : Out α := ([], r)

/-- One call after the other (the second only if the first succeeds). -/
def Out.bind {α β : Type} (x : Out α) (f : α → Out β) : Out β :=
  match x with
  | (o, .ok a) => (o ++ (f a).1, (f a).2)
  | (o, .err e) => (o, .err e)
  | (o, .panic p) => (o, .panic p)
  | (o, .diverge) => (o, .diverge)

/-- `%v` of one operation (structs with unexported fields) — types at parser.go:37-125. -/
def fmtOp : ParserOp → Str
  | .nonTerminal n => b!"{" ++ fmtInt n ++ b!"}"
  | .terminal s => b!"{" ++ s ++ b!"}"
  | .function n pos amount => b!"{" ++ fmtInt n ++ b!" " ++ fmtInt pos ++ b!" " ++ fmtInt amount ++ b!"}"
  | .eos => b!"{}"
  | .char c => b!"{" ++ fmtNat c.toNat ++ b!"}"
  | .nil => b!"<nil>"

/-- The elements, separated by blanks. -/
def fmtOps : List ParserOp → Str
  | [] => []
  | [op] => fmtOp op
  | op :: ops => fmtOp op ++ b!" " ++ fmtOps ops

/-- `fmt.Println(v)` for `v []parser.ParserOp` — tablegen.go:337. -/
def println (v : List ParserOp) : Str := b!"[" ++ fmtOps v ++ b!"]\n"

/-- The loop over the follow bytes — tablegen.go:335-343. -/
def addEmptyCellsOut : List UInt8 → Row → Out Row
  | [], res => .quiet (.ok res)
  | followTerm :: rest, res =>
    match GoMap.get res followTerm with
    | some v => (println v, .err .conflict)
    | none => addEmptyCellsOut rest (GoMap.set res followTerm [])

/-- One iteration of the loop over the alternatives — tablegen.go:323-380. -/
def addSequenceOut (tg : Gen) (firsts follows : List ByteSet) (ruleIndex : Nat) (sequence : Sequence)
    (res : Row) : Out Row :=
  (Out.quiet (sequenceFirsts tg firsts sequence)).bind fun seqFirsts =>
  if seqFirsts.contains EOS then
    (Out.quiet (idx follows ruleIndex)).bind fun seqFollows =>
    (Out.quiet (bytesOf seqFollows)).bind fun followBytes =>
    (addEmptyCellsOut followBytes res).bind fun res =>
    (Out.quiet (bytesOf (seqFirsts.remove EOS))).bind fun firstBytes =>
    Out.quiet (addFirstCells tg sequence firstBytes res)
  else
    (Out.quiet (bytesOf seqFirsts)).bind fun firstBytes =>
    Out.quiet (addFirstCells tg sequence firstBytes res)

/-- The loop of `makeTableRow` — tablegen.go:323-380. -/
def addSequencesOut (tg : Gen) (firsts follows : List ByteSet) (ruleIndex : Nat) :
    List Sequence → Row → Out Row
  | [], res => .quiet (.ok res)
  | s :: ss, res =>
    (addSequenceOut tg firsts follows ruleIndex s res).bind fun res =>
    addSequencesOut tg firsts follows ruleIndex ss res

/-- `makeTableRow` — tablegen.go:317-383. -/
def makeTableRowOut (tg : Gen) (firsts follows : List ByteSet) (ruleIndex : Nat) : Out Row :=
  (Out.quiet (idx tg.g.rules ruleIndex)).bind fun rule =>
  addSequencesOut tg firsts follows ruleIndex rule.tail.sequences []

/-- The loop of `makeTable` — tablegen.go:389-394. -/
def makeRowsOut (tg : Gen) (firsts follows : List ByteSet) : List Nat → Table → Out Table
  | [], table => .quiet (.ok table)
  | ruleIndex :: rest, table =>
    (makeTableRowOut tg firsts follows ruleIndex).bind fun row =>
    makeRowsOut tg firsts follows rest (table.set (ruleIndex : Int) row)

/-- `makeTable` — tablegen.go:385-396. -/
def makeTableOut (tg : Gen) (firsts follows : List ByteSet) : Out Table :=
  makeRowsOut tg firsts follows (List.range tg.g.rules.length) []

/-- `Run` — tablegen.go:398-411. -/
def runOut (tg : Gen) (firsts follows : List ByteSet) : Out Table :=
  (Out.quiet (findFirsts tg firsts)).bind fun firsts =>
  (Out.quiet (findFollows tg firsts follows)).bind fun follows =>
  makeTableOut tg firsts follows

end TG

/-- `FromGrammar` — tablegen.go:413-455, with its standard output. -/
def fromGrammarOut (order : List (Str × Nat) → List (Str × Nat)) (g : Grammar) : TG.Out (Table × Names) :=
  let tg := TG.newGen g
  (TG.runOut tg (TG.newSets tg.ruleCount) (TG.newSets tg.ruleCount)).bind fun table =>
  TG.Out.quiet (.ok (table, TG.rowNames (order tg.ruleMap) []))

end LL1
