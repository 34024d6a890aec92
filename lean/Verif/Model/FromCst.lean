import Verif.Model.Ast
import Verif.Model.Cst
import Verif.Model.Parser

/-!
# Model of `pkg/bnf/fromcst/fromcst.go`

Closures that capture variables become functions on an explicit state `σ`; `*v.err` is part of the
state threaded by `walk`.  Out-of-range slicing of the text is an explicit panic.  The sentinel
`searchComplete := errors.New(..)`, created freshly by each function and compared by identity, is one
constructor: each function only ever receives its own sentinel or errors of callees, and callees
never return theirs (lemmas `parse*_ne_searchComplete` in `Proofs/FromCst.lean`).
-/

namespace LL1
namespace FC

/-- Errors of the package. -/
inductive Err where
  | searchComplete
  | unknownEscape (s : Str)        -- fromcst.go:130
  | noEscape                       -- fromcst.go:138
  | noSymbolType (text : Str)      -- fromcst.go:211
  | noRuleName (text : Str)        -- fromcst.go:276
  | noSubstitution (text : Str)    -- fromcst.go:292
  deriving DecidableEq, Repr

/-- Slice bounds out of range. -/
inductive Panic where
  | sliceBounds
  deriving DecidableEq, Repr

abbrev R (α : Type) := Res Err Panic α

/-- `str[a:b]`. -/
def slice (str : Str) (a b : Nat) : Except Panic Str :=
  if a ≤ b ∧ b ≤ str.length then .ok ((str.drop a).take (b - a)) else .error .sliceBounds

/-- A closure `func(cst.Node) error` with captured variables `σ`. -/
abbrev OnNode (σ : Type) := Node → σ → Except Panic (σ × Option Err)

/-- `flexVisitor` and `flexVisitor.Visit` — fromcst.go:14-36. -/
def flexVisitor {σ : Type} (isTypeIgnored isSearchedType : Int → Bool) (fOnNode : OnNode σ) :
    Visitor Unit (σ × Option Err) Panic where
  visit v node s :=
    if s.2 ≠ none then .ok (s, none)
    else if isTypeIgnored node.type then .ok (s, none)
    else if isSearchedType node.type then
      match fOnNode node s.1 with
      | .error p => .error p
      | .ok (s', e) => .ok ((s', e), none)
    else .ok (s, some v)

/-- `lrTraverse` — fromcst.go:45-60: the captured state after the traversal and the error. -/
def lrTraverse {σ : Type} (root : Node) (isTypeIgnored isSearchedType : Int → Bool)
    (fOnNode : OnNode σ) (s : σ) : Except Panic (σ × Option Err) :=
  walk (flexVisitor isTypeIgnored isSearchedType fOnNode) () root (s, none)

/-- `nodeName` — fromcst.go:62-64. -/
def nodeName (node : Node) (str : Str) : Except Panic Str := slice str node.pos node.stop

/-- `BNFCSTtoASTBindings` — fromcst.go:66-97. -/
structure Bindings where
  ignoreNodeTypes : List Int
  ruleType : Int
  ruleHeadType : Int
  ruleTailType : Int
  expressionSequencesType : Int
  sequencesSymbolType : Int
  symbolTerminalTypes : List Int
  symbolNonTerminalType : Int
  escapeCharacterType : Int
  escapeMapping : GoMap Str Str

/-- Go's `sort.Search`: binary search for the first index with `f` true, on `[i, j)`. -/
def searchLoop (f : Nat → Bool) : (fuel : Nat) → (i j : Nat) → Nat
  | 0, i, _ => i
  | fuel + 1, i, j =>
    if i < j then
      let h := (i + j) / 2
      if !f h then searchLoop f fuel (h + 1) j else searchLoop f fuel i h
    else i

/-- Go's `sort.SearchInts(a, x)`. -/
def searchInts (a : List Int) (x : Int) : Nat :=
  searchLoop (fun h => match a[h]? with | some y => decide (y ≥ x) | none => false)
    a.length 0 a.length

/-- Go's `sort.Sort(sort.IntSlice(a))`, by its contract (a sorted rearrangement). -/
def insertInt (x : Int) : List Int → List Int
  | [] => [x]
  | y :: ys => if x ≤ y then x :: y :: ys else y :: insertInt x ys
def sortInts : List Int → List Int
  | [] => []
  | x :: xs => insertInt x (sortInts xs)

/-- The closure `isNodeIgnored` — fromcst.go:110-114.  The array read carries the proof that it is in range. -/
def Bindings.isNodeIgnored (b : Bindings) (nodeType : Int) : Bool :=
  let sr := searchInts b.ignoreNodeTypes nodeType
  if h : sr < b.ignoreNodeTypes.length then decide (b.ignoreNodeTypes[sr] = nodeType) else false

/-- `BNFCSTtoASTBindings.lrTraverse` — fromcst.go:105-121. -/
def Bindings.lrTraverse {σ : Type} (b : Bindings) (root : Node) (untilType : Int)
    (f : OnNode σ) (s : σ) : Except Panic (σ × Option Err) :=
  FC.lrTraverse root b.isNodeIgnored (fun nodeType => decide (nodeType = untilType)) f s

/-- `doOnEscapedChar` — fromcst.go:126-134; the state is `res`. -/
def Bindings.doOnEscapedChar (b : Bindings) (str : Str) : OnNode Str := fun escChar res =>
  match slice str escChar.pos escChar.stop with
  | .error p => .error p
  | .ok escStr =>
    match b.escapeMapping.get escStr with
    | none => .ok (res, some (.unknownEscape escStr))
    | some resStr => .ok (resStr, some .searchComplete)

/-- `parseEscape` — fromcst.go:123-144. -/
def Bindings.parseEscape (b : Bindings) (escSeq : Node) (str : Str) : R Str :=
  match b.lrTraverse escSeq b.escapeCharacterType (b.doOnEscapedChar str) [] with
  | .error p => .panic p
  | .ok (_, none) => .err .noEscape
  | .ok (res, some .searchComplete) => .ok res
  | .ok (_, some e) => .err e

/-- The closure `fOnNode` of `parseTerminalName` — fromcst.go:150-162; the state is the builder. -/
def Bindings.onTerminalPart (b : Bindings) (str : Str) : OnNode Str := fun node sb =>
  if node.type = builtinTerminal then
    match slice str node.pos node.stop with
    | .error p => .error p
    | .ok t => .ok (sb ++ t, none)
  else
    match b.parseEscape node str with
    | .ok escape => .ok (sb ++ escape, none)
    | .err e => .ok (sb, some e)
    | .panic p => .error p
    | .diverge => .ok (sb, none)

/-- `parseTerminalName` — fromcst.go:147-171 (node type 16 is written literally in the code). -/
def Bindings.parseTerminalName (b : Bindings) (symbol : Node) (str : Str) : R Str :=
  match FC.lrTraverse symbol (fun _ => false)
      (fun n => decide (n = 16) || decide (n = builtinTerminal)) (b.onTerminalPart str) [] with
  | .error p => .panic p
  | .ok (sb, none) => .ok sb
  | .ok (_, some e) => .err e

/-- `doOnTerminalName` — fromcst.go:178-189; the state is `res`, initially the nil `Symbol`. -/
def Bindings.doOnTerminalName (b : Bindings) (str : Str) : OnNode (Option Symbol) :=
  fun termNameNode res =>
    match b.parseTerminalName termNameNode str with
    | .panic p => .error p
    | .diverge => .ok (res, none)
    | .err e => .ok (res, some e)
    | .ok name =>
      if name.length = 0 then .ok (some .nothing, some .searchComplete)
      else .ok (some (.terminal name), some .searchComplete)

/-- `doOnNonTerminalName` — fromcst.go:201-204. -/
def doOnNonTerminalName (str : Str) : OnNode (Option Symbol) := fun node _ =>
  match nodeName node str with
  | .error p => .error p
  | .ok n => .ok (some (.nonTerminal n), some .searchComplete)

/-- The loop over `SymbolTerminalTypes` — fromcst.go:191-199.  `.ok (some r)` = the function returned
`&res` (the code would return a nil `Symbol` inside if `res` were unset, which cannot happen after
`searchComplete`); `.ok none` = fell through. -/
def Bindings.symbolTermLoop (b : Bindings) (symbol : Node) (str : Str) :
    List Int → Option Symbol → R (Option (Option Symbol))
  | [], _ => .ok none
  | t :: ts, res =>
    match b.lrTraverse symbol t (b.doOnTerminalName str) res with
    | .error p => .panic p
    | .ok (res', some .searchComplete) => .ok (some res')
    | .ok (_, some e) => .err e
    | .ok (res', none) => b.symbolTermLoop symbol str ts res'

/-- `parseSymbol` — fromcst.go:173-213.  The result `none` stands for a nil `Symbol` value (never
produced, see the loop above). -/
def Bindings.parseSymbol (b : Bindings) (symbol : Node) (str : Str) : R (Option Symbol) := do
  match ← b.symbolTermLoop symbol str b.symbolTerminalTypes none with
  | some res => return res
  | none =>
    match b.lrTraverse symbol b.symbolNonTerminalType (doOnNonTerminalName str) none with
    | .error p => .panic p
    | .ok (res, some .searchComplete) => return res
    | .ok (_, _) =>
      match nodeName symbol str with
      | .error p => .panic p
      | .ok t => .err (.noSymbolType t)

/-- `doOnSymbol` — fromcst.go:219-226; the state is `res.Symbols`.  (A nil `Symbol` would be
appended as nil; the model drops it, which never happens.) -/
def Bindings.doOnSymbol (b : Bindings) (str : Str) : OnNode (List Symbol) := fun node symbols =>
  match b.parseSymbol node str with
  | .panic p => .error p
  | .diverge => .ok (symbols, none)
  | .err e => .ok (symbols, some e)
  | .ok (some y) => .ok (symbols ++ [y], none)
  | .ok none => .ok (symbols, none)

/-- `parseSequence` — fromcst.go:215-233. -/
def Bindings.parseSequence (b : Bindings) (sequence : Node) (str : Str) : R Sequence :=
  match b.lrTraverse sequence b.sequencesSymbolType (b.doOnSymbol str) [] with
  | .error p => .panic p
  | .ok (symbols, none) => .ok ⟨symbols⟩
  | .ok (_, some e) => .err e

/-- `doOnSequence` — fromcst.go:240-247. -/
def Bindings.doOnSequence (b : Bindings) (str : Str) : OnNode (List Sequence) := fun node seqs =>
  match b.parseSequence node str with
  | .panic p => .error p
  | .diverge => .ok (seqs, none)
  | .err e => .ok (seqs, some e)
  | .ok s => .ok (seqs ++ [s], none)

/-- `parseSubstitution` — fromcst.go:235-255. -/
def Bindings.parseSubstitution (b : Bindings) (expression : Node) (str : Str) : R Substitution :=
  match b.lrTraverse expression b.expressionSequencesType (b.doOnSequence str) [] with
  | .error p => .panic p
  | .ok (seqs, none) => .ok ⟨seqs⟩
  | .ok (_, some e) => .err e

/-- `doOnHead` — fromcst.go:265-268; the state is `res.Head.Name`. -/
def doOnHead (str : Str) : OnNode Str := fun node _ =>
  match nodeName node str with
  | .error p => .error p
  | .ok n => .ok (n, some .searchComplete)

/-- `doOnSubstitution` — fromcst.go:280-287; the state is `res.Tail`. -/
def Bindings.doOnSubstitution (b : Bindings) (str : Str) : OnNode Substitution := fun node tail =>
  match b.parseSubstitution node str with
  | .panic p => .error p
  | .diverge => .ok (tail, none)
  | .err e => .ok (tail, some e)
  | .ok s => .ok (s, some .searchComplete)

/-- `parseRule` — fromcst.go:257-300. -/
def Bindings.parseRule (b : Bindings) (rule : Node) (str : Str) : R Rule :=
  match b.lrTraverse rule b.ruleHeadType (doOnHead str) [] with
  | .error p => .panic p
  | .ok (head, some .searchComplete) =>
    match b.lrTraverse rule b.ruleTailType (b.doOnSubstitution str) ⟨[]⟩ with
    | .error p => .panic p
    | .ok (tail, some .searchComplete) => .ok ⟨head, tail⟩
    | .ok (_, none) =>
      match nodeName rule str with
      | .error p => .panic p
      | .ok t => .err (.noSubstitution t)
    | .ok (_, some e) => .err e
  | .ok (_, _) =>
    match nodeName rule str with
    | .error p => .panic p
    | .ok t => .err (.noRuleName t)

/-- `doOnRule` — fromcst.go:308-315. -/
def Bindings.doOnRule (b : Bindings) (str : Str) : OnNode (List Rule) := fun node rules =>
  match b.parseRule node str with
  | .panic p => .error p
  | .diverge => .ok (rules, none)
  | .err e => .ok (rules, some e)
  | .ok r => .ok (rules ++ [r], none)

/-- `ToAST` after its `sort.Sort` — fromcst.go:306-324. -/
def Bindings.toASTBody (b : Bindings) (root : Node) (str : Str) : R Grammar :=
  match b.lrTraverse root b.ruleType (b.doOnRule str) [] with
  | .error p => .panic p
  | .ok (rules, none) => .ok ⟨rules⟩
  | .ok (_, some e) => .err e

/-- `ToAST` — fromcst.go:302-324: the result for given contents of `IgnoreNodeTypes`.  `sort.Sort` sorts the
slice in place; the effect on the caller's memory is in `Model/Slices.lean` (`BindingsRef.toAST`). -/
def Bindings.toAST (b : Bindings) (root : Node) (str : Str) : R Grammar :=
  ({ b with ignoreNodeTypes := sortInts b.ignoreNodeTypes } : Bindings).toASTBody root str

/-- `SelfCSTtoASTBindings` — fromcst.go:326-345. -/
def selfBindings : Bindings where
  ignoreNodeTypes := [25]
  ruleType := 4
  ruleHeadType := 18
  ruleTailType := 5
  expressionSequencesType := 7
  sequencesSymbolType := 9
  symbolTerminalTypes := [11, 12]
  symbolNonTerminalType := 18
  escapeCharacterType := 17
  escapeMapping := [
    (b!"t", b!"\t"),
    (b!"n", b!"\n"),
    (b!"r", b!"\r"),
    (b!"\"", b!"\""),
    (b!"\\", b!"\\")]

end FC
end LL1
