import Verif.Model.FromCst

/-!
# `ToAST` on any implementation of the interface `cst.Node`

`Model/FromCst.lean` models `ToAST` on trees made by `NewNode` with non-negative positions.  Here nodes are arbitrary
values with the four methods of the interface: they may be shared, form cycles, have nil children and any `Pos` and
`End`.  The conversion is modelled with the number of calls of `Walk` that may be active at once (Go's stack is bounded):
`ToAST` recurses through `Walk` and, inside `Visit`, starts further walks.  Simplification: the four methods are pure
(they neither panic nor change anything); without that restriction: C73 for `Walk`, `Model/ToAstCalls.lean` for `ToAST`.
-/

namespace LL1
namespace FC

/-- What the methods of a node return — `cst.Node`, cst.go:3-8.  `none` in `kids` is a nil interface. -/
structure NodeView (N : Type) where
  type : N → Int
  pos : N → Int
  stop : N → Int
  kids : N → List (Option N)

/-- Run-time panics: slice bounds out of range, method call on a nil interface. -/
inductive PanicG where
  | sliceBounds
  | nilNode
  deriving DecidableEq, Repr

/-- A computation that panics, overflows the stack (`none`) or returns. -/
abbrev D := ExceptT PanicG Option

/-- The stack is exhausted. -/
def overflow {α : Type} : D α := ExceptT.mk none

/-- `str[a:b]` with any integers. -/
def sliceG (str : Str) (a b : Int) : D Str :=
  if 0 ≤ a ∧ a ≤ b ∧ b ≤ str.length then return (str.drop a.toNat).take (b - a).toNat else throw .sliceBounds

variable {N : Type}

/-- A closure `func(cst.Node) error` with captured variables `σ`; the number is how many more calls of `Walk` fit on
the stack. -/
abbrev OnNodeG (N σ : Type) := Nat → N → σ → D (σ × Option Err)

/-- `flexVisitor.Visit` — fromcst.go:21-36; the `Bool` is true if the visitor itself is returned, false for nil. -/
def flexVisitG {σ : Type} (V : NodeView N) (isTypeIgnored isSearchedType : Int → Bool) (fOnNode : OnNodeG N σ)
    (depth : Nat) (node : Option N) (s : σ × Option Err) : D ((σ × Option Err) × Bool) :=
  if s.2 ≠ none then return (s, false)
  else match node with
    | none => throw .nilNode
    | some n =>
      if isTypeIgnored (V.type n) then return (s, false)
      else if isSearchedType (V.type n) then do
        let r ← fOnNode depth n s.1
        return (r, false)
      else return (s, true)

/-- `for _, child := range node.Childs() { Walk(w, child) }` — cst.go:51-53. -/
def rangeG {S : Type} (body : Option N → S → D S) : List (Option N) → S → D S
  | [], s => return s
  | c :: cs, s => do
    let s' ← body c s
    rangeG body cs s'

/-- `Walk` with a `flexVisitor` — cst.go:46-54: at most `depth` more calls of `Walk` may become active.  (A nil node is
left before `Childs` is called: `Visit` has panicked on it or returned nil.) -/
def walkG {σ : Type} (V : NodeView N) (isTypeIgnored isSearchedType : Int → Bool) (fOnNode : OnNodeG N σ) :
    (depth : Nat) → (node : Option N) → (s : σ × Option Err) → D (σ × Option Err)
  | 0, _, _ => overflow
  | depth + 1, node, s => do
    let r ← flexVisitG V isTypeIgnored isSearchedType fOnNode depth node s
    match r, node with
    | (s', true), some n => rangeG (walkG V isTypeIgnored isSearchedType fOnNode depth) (V.kids n) s'
    | (s', _), _ => return s'

/-- `lrTraverse` — fromcst.go:45-60. -/
def lrTraverseG {σ : Type} (V : NodeView N) (depth : Nat) (root : Option N) (isTypeIgnored isSearchedType : Int → Bool)
    (fOnNode : OnNodeG N σ) (s : σ) : D (σ × Option Err) :=
  walkG V isTypeIgnored isSearchedType fOnNode depth root (s, none)

/-- `nodeName` — fromcst.go:62-64. -/
def nodeNameG (V : NodeView N) (node : N) (str : Str) : D Str := sliceG str (V.pos node) (V.stop node)

/-- `BNFCSTtoASTBindings.lrTraverse` — fromcst.go:105-121. -/
def Bindings.lrTraverseG {σ : Type} (b : Bindings) (V : NodeView N) (depth : Nat) (root : Option N) (untilType : Int)
    (f : OnNodeG N σ) (s : σ) : D (σ × Option Err) :=
  FC.lrTraverseG V depth root b.isNodeIgnored (fun nodeType => decide (nodeType = untilType)) f s

/-- `doOnEscapedChar` — fromcst.go:126-134. -/
def Bindings.doOnEscapedCharG (b : Bindings) (V : NodeView N) (str : Str) : OnNodeG N Str := fun _ escChar res => do
  let escStr ← sliceG str (V.pos escChar) (V.stop escChar)
  match b.escapeMapping.get escStr with
  | none => return (res, some (.unknownEscape escStr))
  | some resStr => return (resStr, some .searchComplete)

/-- `parseEscape` — fromcst.go:123-144. -/
def Bindings.parseEscapeG (b : Bindings) (V : NodeView N) (depth : Nat) (escSeq : N) (str : Str) : D (Except Err Str) := do
  match ← b.lrTraverseG V depth (some escSeq) b.escapeCharacterType (b.doOnEscapedCharG V str) [] with
  | (_, none) => return .error .noEscape
  | (res, some .searchComplete) => return .ok res
  | (_, some e) => return .error e

/-- The closure `fOnNode` of `parseTerminalName` — fromcst.go:150-162. -/
def Bindings.onTerminalPartG (b : Bindings) (V : NodeView N) (str : Str) : OnNodeG N Str := fun depth node sb =>
  if V.type node = builtinTerminal then do
    let t ← sliceG str (V.pos node) (V.stop node)
    return (sb ++ t, none)
  else do
    match ← b.parseEscapeG V depth node str with
    | .ok escape => return (sb ++ escape, none)
    | .error e => return (sb, some e)

/-- `parseTerminalName` — fromcst.go:147-171. -/
def Bindings.parseTerminalNameG (b : Bindings) (V : NodeView N) (depth : Nat) (symbol : N) (str : Str) :
    D (Except Err Str) := do
  match ← FC.lrTraverseG V depth (some symbol) (fun _ => false)
      (fun n => decide (n = 16) || decide (n = builtinTerminal)) (b.onTerminalPartG V str) [] with
  | (sb, none) => return .ok sb
  | (_, some e) => return .error e

/-- `doOnTerminalName` — fromcst.go:178-189. -/
def Bindings.doOnTerminalNameG (b : Bindings) (V : NodeView N) (str : Str) : OnNodeG N (Option Symbol) :=
  fun depth termNameNode res => do
    match ← b.parseTerminalNameG V depth termNameNode str with
    | .error e => return (res, some e)
    | .ok name =>
      if name.length = 0 then return (some .nothing, some .searchComplete)
      else return (some (.terminal name), some .searchComplete)

/-- `doOnNonTerminalName` — fromcst.go:201-204. -/
def doOnNonTerminalNameG (V : NodeView N) (str : Str) : OnNodeG N (Option Symbol) := fun _ node _ => do
  let n ← nodeNameG V node str
  return (some (.nonTerminal n), some .searchComplete)

/-- The loop over `SymbolTerminalTypes` — fromcst.go:191-199. -/
def Bindings.symbolTermLoopG (b : Bindings) (V : NodeView N) (depth : Nat) (symbol : N) (str : Str) :
    List Int → Option Symbol → D (Except Err (Option (Option Symbol)))
  | [], _ => return .ok none
  | t :: ts, res => do
    match ← b.lrTraverseG V depth (some symbol) t (b.doOnTerminalNameG V str) res with
    | (res', some .searchComplete) => return .ok (some res')
    | (_, some e) => return .error e
    | (res', none) => b.symbolTermLoopG V depth symbol str ts res'

/-- `parseSymbol` — fromcst.go:173-213. -/
def Bindings.parseSymbolG (b : Bindings) (V : NodeView N) (depth : Nat) (symbol : N) (str : Str) :
    D (Except Err (Option Symbol)) := do
  match ← b.symbolTermLoopG V depth symbol str b.symbolTerminalTypes none with
  | .error e => return .error e
  | .ok (some res) => return .ok res
  | .ok none =>
    match ← b.lrTraverseG V depth (some symbol) b.symbolNonTerminalType (doOnNonTerminalNameG V str) none with
    | (res, some .searchComplete) => return .ok res
    | (_, _) => do
      let t ← nodeNameG V symbol str
      return .error (.noSymbolType t)

/-- `doOnSymbol` — fromcst.go:219-226. -/
def Bindings.doOnSymbolG (b : Bindings) (V : NodeView N) (str : Str) : OnNodeG N (List Symbol) :=
  fun depth node symbols => do
    match ← b.parseSymbolG V depth node str with
    | .error e => return (symbols, some e)
    | .ok (some y) => return (symbols ++ [y], none)
    | .ok none => return (symbols, none)

/-- `parseSequence` — fromcst.go:215-233. -/
def Bindings.parseSequenceG (b : Bindings) (V : NodeView N) (depth : Nat) (sequence : N) (str : Str) :
    D (Except Err Sequence) := do
  match ← b.lrTraverseG V depth (some sequence) b.sequencesSymbolType (b.doOnSymbolG V str) [] with
  | (symbols, none) => return .ok ⟨symbols⟩
  | (_, some e) => return .error e

/-- `doOnSequence` — fromcst.go:240-247. -/
def Bindings.doOnSequenceG (b : Bindings) (V : NodeView N) (str : Str) : OnNodeG N (List Sequence) :=
  fun depth node seqs => do
    match ← b.parseSequenceG V depth node str with
    | .error e => return (seqs, some e)
    | .ok s => return (seqs ++ [s], none)

/-- `parseSubstitution` — fromcst.go:235-255. -/
def Bindings.parseSubstitutionG (b : Bindings) (V : NodeView N) (depth : Nat) (expression : N) (str : Str) :
    D (Except Err Substitution) := do
  match ← b.lrTraverseG V depth (some expression) b.expressionSequencesType (b.doOnSequenceG V str) [] with
  | (seqs, none) => return .ok ⟨seqs⟩
  | (_, some e) => return .error e

/-- `doOnHead` — fromcst.go:265-268. -/
def doOnHeadG (V : NodeView N) (str : Str) : OnNodeG N Str := fun _ node _ => do
  let n ← nodeNameG V node str
  return (n, some .searchComplete)

/-- `doOnSubstitution` — fromcst.go:280-287. -/
def Bindings.doOnSubstitutionG (b : Bindings) (V : NodeView N) (str : Str) : OnNodeG N Substitution :=
  fun depth node tail => do
    match ← b.parseSubstitutionG V depth node str with
    | .error e => return (tail, some e)
    | .ok s => return (s, some .searchComplete)

/-- `parseRule` — fromcst.go:257-300. -/
def Bindings.parseRuleG (b : Bindings) (V : NodeView N) (depth : Nat) (rule : N) (str : Str) : D (Except Err Rule) := do
  match ← b.lrTraverseG V depth (some rule) b.ruleHeadType (doOnHeadG V str) [] with
  | (head, some .searchComplete) =>
    match ← b.lrTraverseG V depth (some rule) b.ruleTailType (b.doOnSubstitutionG V str) ⟨[]⟩ with
    | (tail, some .searchComplete) => return .ok ⟨head, tail⟩
    | (_, none) => do
      let t ← nodeNameG V rule str
      return .error (.noSubstitution t)
    | (_, some e) => return .error e
  | (_, _) => do
    let t ← nodeNameG V rule str
    return .error (.noRuleName t)

/-- `doOnRule` — fromcst.go:308-315. -/
def Bindings.doOnRuleG (b : Bindings) (V : NodeView N) (str : Str) : OnNodeG N (List Rule) := fun depth node rules => do
  match ← b.parseRuleG V depth node str with
  | .error e => return (rules, some e)
  | .ok r => return (rules ++ [r], none)

/-- `ToAST` after its `sort.Sort` — fromcst.go:306-324. -/
def Bindings.toASTBodyG (b : Bindings) (V : NodeView N) (depth : Nat) (root : Option N) (str : Str) :
    D (Except Err Grammar) := do
  match ← b.lrTraverseG V depth root b.ruleType (b.doOnRuleG V str) [] with
  | (rules, none) => return .ok ⟨rules⟩
  | (_, some e) => return .error e

/-- `ToAST` — fromcst.go:302-324, with a stack that holds `depth` calls of `Walk`. -/
def Bindings.toASTG (b : Bindings) (V : NodeView N) (depth : Nat) (root : Option N) (str : Str) : D (Except Err Grammar) :=
  ({ b with ignoreNodeTypes := sortInts b.ignoreNodeTypes } : Bindings).toASTBodyG V depth root str

/-- Nodes made by `NewNode` — cst.go:17-40. -/
def ownView : NodeView Node where
  type := Node.type
  pos n := n.pos
  stop n := n.stop
  kids n := n.childs.map some

end FC
end LL1
