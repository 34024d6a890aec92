import Verif.Model.ToAstGraph

/-!
# `ToAST` and the methods of the nodes

`Model/ToAstGraph.lean` takes the four methods of `cst.Node` for functions.  Here they are code of the user: a call may change
memory (a node that counts its calls, builds its children when first asked, or caches them), panic, or answer differently
the next time; the slice that `Childs` returned may be overwritten while `ToAST` walks along it.  `ToAST` is a program that
makes calls and goes on with the answers; what the calls do is a parameter (`NodeMethods`).  Simplification: the methods do
not write to the slices and the map of the bindings.
-/

namespace LL1
namespace FC

/-- What `ToAST` does with nodes: the four methods — `cst.Node`, cst.go:3-8 — and reading entry `i` of a slice that `Childs`
returned (`for _, child := range`, cst.go:51). -/
inductive Ask (N Sl : Type) where
  | type (n : N)
  | pos (n : N)
  | stop (n : N)
  | kids (n : N)
  | elem (sl : Sl) (i : Nat)
  deriving DecidableEq

/-- What comes back; a slice comes with its length. -/
@[reducible] def Ask.Ans {N Sl : Type} : Ask N Sl → Type
  | .type _ => Int
  | .pos _ => Int
  | .stop _ => Int
  | .kids _ => Sl × Nat
  | .elem _ _ => Option N

/-- A computation that calls methods of nodes: it returns, panics (by itself), overflows the stack, or calls something and
goes on with the answer. -/
inductive NodeProg (N Sl α : Type) where
  | ret (a : α)
  | panic (p : PanicG)
  | overflow
  | ask (q : Ask N Sl) (k : q.Ans → NodeProg N Sl α)

/-- First `p`, then with its result `f`. -/
def NodeProg.bind {N Sl α β : Type} : NodeProg N Sl α → (α → NodeProg N Sl β) → NodeProg N Sl β
  | .ret a, f => f a
  | .panic p, _ => .panic p
  | .overflow, _ => .overflow
  | .ask q k, f => .ask q fun a => (k a).bind f

instance {N Sl : Type} : Monad (NodeProg N Sl) where
  pure := .ret
  bind := .bind

/-- An implementation of `cst.Node` — cst.go:3-8.  `N`: node values, `Sl`: slices, `W`: memory, `P`: what a panic carries.  A
method may change memory, also if it panics; reading an entry of a slice reads memory. -/
structure NodeMethods (N Sl W P : Type) where
  type : N → W → Except P Int × W
  pos : N → W → Except P Int × W
  stop : N → W → Except P Int × W
  kids : N → W → Except P Sl × W
  len : Sl → Nat
  elem : Sl → Nat → W → Option N

/-- Doing one of the calls. -/
def NodeMethods.answer {N Sl W P : Type} (I : NodeMethods N Sl W P) : (q : Ask N Sl) → W → Except P q.Ans × W
  | .type n, w => I.type n w
  | .pos n, w => I.pos n w
  | .stop n, w => I.stop n w
  | .kids n, w => match I.kids n w with
    | (.ok sl, w') => (.ok (sl, I.len sl), w')
    | (.error x, w') => (.error x, w')
  | .elem sl i, w => (.ok (I.elem sl i w), w)

/-- A panic of `ToAST` itself, or one out of a method. -/
inductive PanicC (P : Type) where
  | own (p : PanicG)
  | method (x : P)

/-- Running a computation with an implementation of the methods; `none` = the stack has overflowed. -/
def NodeProg.run {N Sl W P α : Type} (I : NodeMethods N Sl W P) : NodeProg N Sl α → W → Option (Except (PanicC P) α × W)
  | .ret a, w => some (.ok a, w)
  | .panic p, w => some (.error (.own p), w)
  | .overflow, _ => none
  | .ask q k, w => match I.answer q w with
    | (.ok a, w') => (k a).run I w'
    | (.error x, w') => some (.error (.method x), w')

variable {N Sl : Type}

/-- `node.Type()`. -/
def callType (n : N) : NodeProg N Sl Int := .ask (.type n) .ret

/-- `node.Childs()`. -/
def callKids (n : N) : NodeProg N Sl (Sl × Nat) := .ask (.kids n) .ret

/-- Reading an entry of a slice. -/
def readElem (sl : Sl) (i : Nat) : NodeProg N Sl (Option N) := .ask (.elem sl i) .ret

/-- `str[node.Pos():node.End()]`: `Pos` is called first. -/
def spanE (str : Str) (n : N) : NodeProg N Sl Str :=
  .ask (.pos n) fun a => .ask (.stop n) fun b =>
    if 0 ≤ a ∧ a ≤ b ∧ b ≤ str.length then .ret ((str.drop a.toNat).take (b - a).toNat) else .panic .sliceBounds

/-- A closure `func(cst.Node) error` with captured variables `σ`; the number is how many more calls of `Walk` fit on
the stack. -/
abbrev OnNodeE (N Sl σ : Type) := Nat → N → σ → NodeProg N Sl (σ × Option Err)

/-- `flexVisitor.Visit` — fromcst.go:21-36; `Type` is called twice, unless the type is ignored. -/
def flexVisitE {σ : Type} (isTypeIgnored isSearchedType : Int → Bool) (fOnNode : OnNodeE N Sl σ)
    (depth : Nat) (node : Option N) (s : σ × Option Err) : NodeProg N Sl ((σ × Option Err) × Bool) :=
  if s.2 ≠ none then return (s, false)
  else match node with
    | none => .panic .nilNode
    | some n => do
      let t ← callType n
      if isTypeIgnored t then return (s, false)
      else do
        let t' ← callType n
        if isSearchedType t' then do
          let r ← fOnNode depth n s.1
          return (r, false)
        else return (s, true)

/-- `for _, child := range node.Childs() { Walk(w, child) }` — cst.go:51-53: `k` iterations are left, the next one has
index `i`. -/
def rangeE {S : Type} (body : Option N → S → NodeProg N Sl S) (sl : Sl) : (k i : Nat) → S → NodeProg N Sl S
  | 0, _, s => return s
  | k + 1, i, s => do
    let c ← readElem sl i
    let s' ← body c s
    rangeE body sl k (i + 1) s'

/-- `Walk` with a `flexVisitor` — cst.go:46-54: at most `depth` more calls of `Walk` may become active. -/
def walkE {σ : Type} (isTypeIgnored isSearchedType : Int → Bool) (fOnNode : OnNodeE N Sl σ) :
    (depth : Nat) → (node : Option N) → (s : σ × Option Err) → NodeProg N Sl (σ × Option Err)
  | 0, _, _ => .overflow
  | depth + 1, node, s => do
    let r ← flexVisitE isTypeIgnored isSearchedType fOnNode depth node s
    match r, node with
    | (s', true), some n => do
      let sl ← callKids n
      rangeE (walkE isTypeIgnored isSearchedType fOnNode depth) sl.1 sl.2 0 s'
    | (s', _), _ => return s'

/-- `lrTraverse` — fromcst.go:45-60. -/
def lrTraverseE {σ : Type} (depth : Nat) (root : Option N) (isTypeIgnored isSearchedType : Int → Bool)
    (fOnNode : OnNodeE N Sl σ) (s : σ) : NodeProg N Sl (σ × Option Err) :=
  walkE isTypeIgnored isSearchedType fOnNode depth root (s, none)

/-- `nodeName` — fromcst.go:62-64. -/
def nodeNameE (node : N) (str : Str) : NodeProg N Sl Str := spanE str node

/-- `BNFCSTtoASTBindings.lrTraverse` — fromcst.go:105-121. -/
def Bindings.lrTraverseE {σ : Type} (b : Bindings) (depth : Nat) (root : Option N) (untilType : Int)
    (f : OnNodeE N Sl σ) (s : σ) : NodeProg N Sl (σ × Option Err) :=
  FC.lrTraverseE depth root b.isNodeIgnored (fun nodeType => decide (nodeType = untilType)) f s

/-- `doOnEscapedChar` — fromcst.go:126-134. -/
def Bindings.doOnEscapedCharE (b : Bindings) (str : Str) : OnNodeE N Sl Str := fun _ escChar res => do
  let escStr ← spanE str escChar
  match b.escapeMapping.get escStr with
  | none => return (res, some (.unknownEscape escStr))
  | some resStr => return (resStr, some .searchComplete)

/-- `parseEscape` — fromcst.go:123-144. -/
def Bindings.parseEscapeE (b : Bindings) (depth : Nat) (escSeq : N) (str : Str) : NodeProg N Sl (Except Err Str) := do
  match ← b.lrTraverseE depth (some escSeq) b.escapeCharacterType (b.doOnEscapedCharE str) [] with
  | (_, none) => return .error .noEscape
  | (res, some .searchComplete) => return .ok res
  | (_, some e) => return .error e

/-- The closure `fOnNode` of `parseTerminalName` — fromcst.go:150-162. -/
def Bindings.onTerminalPartE (b : Bindings) (str : Str) : OnNodeE N Sl Str := fun depth node sb =>
  callType node >>= fun t =>
  if t = builtinTerminal then do
    let t ← spanE str node
    return (sb ++ t, none)
  else do
    match ← b.parseEscapeE depth node str with
    | .ok escape => return (sb ++ escape, none)
    | .error e => return (sb, some e)

/-- `parseTerminalName` — fromcst.go:147-171. -/
def Bindings.parseTerminalNameE (b : Bindings) (depth : Nat) (symbol : N) (str : Str) :
    NodeProg N Sl (Except Err Str) := do
  match ← FC.lrTraverseE depth (some symbol) (fun _ => false)
      (fun n => decide (n = 16) || decide (n = builtinTerminal)) (b.onTerminalPartE str) [] with
  | (sb, none) => return .ok sb
  | (_, some e) => return .error e

/-- `doOnTerminalName` — fromcst.go:178-189. -/
def Bindings.doOnTerminalNameE (b : Bindings) (str : Str) : OnNodeE N Sl (Option Symbol) :=
  fun depth termNameNode res => do
    match ← b.parseTerminalNameE depth termNameNode str with
    | .error e => return (res, some e)
    | .ok name =>
      if name.length = 0 then return (some .nothing, some .searchComplete)
      else return (some (.terminal name), some .searchComplete)

/-- `doOnNonTerminalName` — fromcst.go:201-204. -/
def doOnNonTerminalNameE (str : Str) : OnNodeE N Sl (Option Symbol) := fun _ node _ => do
  let n ← nodeNameE node str
  return (some (.nonTerminal n), some .searchComplete)

/-- The loop over `SymbolTerminalTypes` — fromcst.go:191-199. -/
def Bindings.symbolTermLoopE (b : Bindings) (depth : Nat) (symbol : N) (str : Str) :
    List Int → Option Symbol → NodeProg N Sl (Except Err (Option (Option Symbol)))
  | [], _ => return .ok none
  | t :: ts, res => do
    match ← b.lrTraverseE depth (some symbol) t (b.doOnTerminalNameE str) res with
    | (res', some .searchComplete) => return .ok (some res')
    | (_, some e) => return .error e
    | (res', none) => b.symbolTermLoopE depth symbol str ts res'

/-- `parseSymbol` — fromcst.go:173-213. -/
def Bindings.parseSymbolE (b : Bindings) (depth : Nat) (symbol : N) (str : Str) :
    NodeProg N Sl (Except Err (Option Symbol)) := do
  match ← b.symbolTermLoopE depth symbol str b.symbolTerminalTypes none with
  | .error e => return .error e
  | .ok (some res) => return .ok res
  | .ok none =>
    match ← b.lrTraverseE depth (some symbol) b.symbolNonTerminalType (doOnNonTerminalNameE str) none with
    | (res, some .searchComplete) => return .ok res
    | (_, _) => do
      let t ← nodeNameE symbol str
      return .error (.noSymbolType t)

/-- `doOnSymbol` — fromcst.go:219-226. -/
def Bindings.doOnSymbolE (b : Bindings) (str : Str) : OnNodeE N Sl (List Symbol) :=
  fun depth node symbols => do
    match ← b.parseSymbolE depth node str with
    | .error e => return (symbols, some e)
    | .ok (some y) => return (symbols ++ [y], none)
    | .ok none => return (symbols, none)

/-- `parseSequence` — fromcst.go:215-233. -/
def Bindings.parseSequenceE (b : Bindings) (depth : Nat) (sequence : N) (str : Str) :
    NodeProg N Sl (Except Err Sequence) := do
  match ← b.lrTraverseE depth (some sequence) b.sequencesSymbolType (b.doOnSymbolE str) [] with
  | (symbols, none) => return .ok ⟨symbols⟩
  | (_, some e) => return .error e

/-- `doOnSequence` — fromcst.go:240-247. -/
def Bindings.doOnSequenceE (b : Bindings) (str : Str) : OnNodeE N Sl (List Sequence) :=
  fun depth node seqs => do
    match ← b.parseSequenceE depth node str with
    | .error e => return (seqs, some e)
    | .ok s => return (seqs ++ [s], none)

/-- `parseSubstitution` — fromcst.go:235-255. -/
def Bindings.parseSubstitutionE (b : Bindings) (depth : Nat) (expression : N) (str : Str) :
    NodeProg N Sl (Except Err Substitution) := do
  match ← b.lrTraverseE depth (some expression) b.expressionSequencesType (b.doOnSequenceE str) [] with
  | (seqs, none) => return .ok ⟨seqs⟩
  | (_, some e) => return .error e

/-- `doOnHead` — fromcst.go:265-268. -/
def doOnHeadE (str : Str) : OnNodeE N Sl Str := fun _ node _ => do
  let n ← nodeNameE node str
  return (n, some .searchComplete)

/-- `doOnSubstitution` — fromcst.go:280-287. -/
def Bindings.doOnSubstitutionE (b : Bindings) (str : Str) : OnNodeE N Sl Substitution :=
  fun depth node tail => do
    match ← b.parseSubstitutionE depth node str with
    | .error e => return (tail, some e)
    | .ok s => return (s, some .searchComplete)

/-- `parseRule` — fromcst.go:257-300. -/
def Bindings.parseRuleE (b : Bindings) (depth : Nat) (rule : N) (str : Str) : NodeProg N Sl (Except Err Rule) := do
  match ← b.lrTraverseE depth (some rule) b.ruleHeadType (doOnHeadE str) [] with
  | (head, some .searchComplete) =>
    match ← b.lrTraverseE depth (some rule) b.ruleTailType (b.doOnSubstitutionE str) ⟨[]⟩ with
    | (tail, some .searchComplete) => return .ok ⟨head, tail⟩
    | (_, none) => do
      let t ← nodeNameE rule str
      return .error (.noSubstitution t)
    | (_, some e) => return .error e
  | (_, _) => do
    let t ← nodeNameE rule str
    return .error (.noRuleName t)

/-- `doOnRule` — fromcst.go:308-315. -/
def Bindings.doOnRuleE (b : Bindings) (str : Str) : OnNodeE N Sl (List Rule) := fun depth node rules => do
  match ← b.parseRuleE depth node str with
  | .error e => return (rules, some e)
  | .ok r => return (rules ++ [r], none)

/-- `ToAST` after its `sort.Sort` — fromcst.go:306-324. -/
def Bindings.toASTBodyE (b : Bindings) (depth : Nat) (root : Option N) (str : Str) :
    NodeProg N Sl (Except Err Grammar) := do
  match ← b.lrTraverseE depth root b.ruleType (b.doOnRuleE str) [] with
  | (rules, none) => return .ok ⟨rules⟩
  | (_, some e) => return .error e

/-- `ToAST` — fromcst.go:302-324, with a stack that holds `depth` calls of `Walk`. -/
def Bindings.toASTE (b : Bindings) (depth : Nat) (root : Option N) (str : Str) : NodeProg N Sl (Except Err Grammar) :=
  ({ b with ignoreNodeTypes := sortInts b.ignoreNodeTypes } : Bindings).toASTBodyE depth root str

end FC
end LL1
