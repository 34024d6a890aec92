import Verif.Spec.Tree
import Verif.Model.FromCst

/-!
# What `ToAST` reads from a tree

A direct reading of the tree, without visitors, closures, sentinel errors or sorted slices.  `skip` says
which node types are ignored.  The results and errors are those of the model (`FC.R`).
-/

namespace LL1
namespace Read
open FC

/-- The source text of a node; out-of-range spans panic. -/
def text (n : Node) (str : Str) : R Str :=
  if n.pos ≤ n.stop ∧ n.stop ≤ str.length then .ok ((str.drop n.pos).take (n.stop - n.pos))
  else .panic .sliceBounds

/-- All topmost nodes of type `ty`, left to right. -/
def allOf (skip : Int → Bool) (ty : Int) (n : Node) : List Node := topmost skip (fun t => decide (t = ty)) n

/-- The leftmost topmost node of type `ty`. -/
def firstOf (skip : Int → Bool) (ty : Int) (n : Node) : Option Node := (allOf skip ty n).head?

/-- Read every node in order and collect the results; the first failure is the result. -/
def each {α : Type} (f : Node → R α) : List Node → R (List α)
  | [] => .ok []
  | n :: ns => do
    let a ← f n
    let as ← each f ns
    return a :: as

/-- An escape: the text of its escape-character node, looked up in the mapping. -/
def escape (skip : Int → Bool) (b : Bindings) (str : Str) (n : Node) : R Str :=
  match firstOf skip b.escapeCharacterType n with
  | none => .err .noEscape
  | some c => do
    let s ← text c str
    match b.escapeMapping.get s with
    | none => .err (.unknownEscape s)
    | some r => return r

/-- A terminal's name: literal leaves as they are, nodes of type 16 as escapes. -/
def terminalName (skip : Int → Bool) (b : Bindings) (str : Str) (n : Node) : R Str := do
  let parts ← each (fun c => if c.type = -1 then text c str else escape skip b str c)
    (topmost (fun _ => false) (fun t => decide (t = 16) || decide (t = -1)) n)
  return parts.flatten

/-- A symbol: a terminal if it has a node of one of the terminal types (tried in order), else a
non-terminal. -/
def symbol (skip : Int → Bool) (b : Bindings) (str : Str) (n : Node) : R Symbol :=
  match b.symbolTerminalTypes.findSome? (fun ty => firstOf skip ty n) with
  | some c => do
    let name ← terminalName skip b str c
    return if name = [] then .nothing else .terminal name
  | none =>
    match firstOf skip b.symbolNonTerminalType n with
    | some c => do
      let name ← text c str
      return .nonTerminal name
    | none => do
      let t ← text n str
      .err (.noSymbolType t)

/-- An alternative: its topmost symbol nodes. -/
def sequence (skip : Int → Bool) (b : Bindings) (str : Str) (n : Node) : R Sequence := do
  let ys ← each (symbol skip b str) (allOf skip b.sequencesSymbolType n)
  return ⟨ys⟩

/-- The right-hand side of a rule: its topmost sequence nodes. -/
def substitution (skip : Int → Bool) (b : Bindings) (str : Str) (n : Node) : R Substitution := do
  let ss ← each (sequence skip b str) (allOf skip b.expressionSequencesType n)
  return ⟨ss⟩

/-- A rule: the text of its first head node and its first tail node. -/
def rule (skip : Int → Bool) (b : Bindings) (str : Str) (n : Node) : R Rule :=
  match firstOf skip b.ruleHeadType n with
  | none => do
    let t ← text n str
    .err (.noRuleName t)
  | some h => do
    let head ← text h str
    match firstOf skip b.ruleTailType n with
    | none => do
      let t ← text n str
      .err (.noSubstitution t)
    | some e => do
      let tail ← substitution skip b str e
      return ⟨head, tail⟩

/-- A grammar: its topmost rule nodes. -/
def grammar (skip : Int → Bool) (b : Bindings) (str : Str) (root : Node) : R Grammar := do
  let rs ← each (rule skip b str) (allOf skip b.ruleType root)
  return ⟨rs⟩

end Read
end LL1
