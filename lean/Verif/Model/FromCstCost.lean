import Verif.Model.FromCst

/-!
# `ToAST` with its costs

`pkg/bnf/fromcst/fromcst.go` again (see `Model/FromCst.lean` for the functions themselves), now with two numbers: how
many calls of `Visit` a call makes in total, and how many calls of `Walk` are on the stack at the same time (at most)
while it runs.  All traversals go through `lrTraverse` and so through `cst.Walk`; the only other loops and recursions in
the package are the binary search and the sort of `IgnoreNodeTypes`, which do not depend on the tree.
(`Proofs/FromCstCost.lean` proves that the results are those of `Model/FromCst.lean`.)
-/

namespace LL1
namespace FC

/-- Costs of a call. -/
structure Cost where
  /-- calls of `Visit` -/
  visits : Nat
  /-- `Walk` frames on the stack at the same time -/
  depth : Nat
  deriving DecidableEq, Repr

/-- A call that does not use `Walk`. -/
def Cost.zero : Cost := ⟨0, 0⟩

/-- One call after the other. -/
def Cost.add (a b : Cost) : Cost := ⟨a.visits + b.visits, max a.depth b.depth⟩

/-- A result with the costs of computing it. -/
abbrev Costly (α : Type) := Cost × α

/-- A closure `func(cst.Node) error` with captured variables `σ`. -/
abbrev OnNodeC (σ : Type) := Node → σ → Costly (Except Panic (σ × Option Err))

/-- `flexVisitor.Visit` — fromcst.go:21-36; `Bool` = the visitor is returned. -/
def flexVisitC {σ : Type} (isTypeIgnored isSearchedType : Int → Bool) (fOnNode : OnNodeC σ) (node : Node)
    (s : σ × Option Err) : Costly (Except Panic ((σ × Option Err) × Bool)) :=
  if s.2 ≠ none then (.zero, .ok (s, false))
  else if isTypeIgnored node.type then (.zero, .ok (s, false))
  else if isSearchedType node.type then
    ((fOnNode node s.1).1,
      match (fOnNode node s.1).2 with
      | .error p => .error p
      | .ok (s', e) => .ok ((s', e), false))
  else (.zero, .ok (s, true))

mutual
/-- `Walk` — cst.go:46-54 (with a visitor that returns nil or itself). -/
def walkC {S : Type} (visit : Node → S → Costly (Except Panic (S × Bool))) (node : Node) (s : S) :
    Costly (Except Panic S) :=
  match node with
  | .mk t p e cs =>
    match visit (.mk t p e cs) s with
    | (c, .error x) => (⟨c.visits + 1, c.depth + 1⟩, .error x)
    | (c, .ok (s', false)) => (⟨c.visits + 1, c.depth + 1⟩, .ok s')
    | (c, .ok (s', true)) =>
      match walkListC visit cs s' with
      | (c', r) => (⟨(c.add c').visits + 1, (c.add c').depth + 1⟩, r)
/-- The loop of `Walk` — cst.go:51-53. -/
def walkListC {S : Type} (visit : Node → S → Costly (Except Panic (S × Bool))) (nodes : List Node) (s : S) :
    Costly (Except Panic S) :=
  match nodes with
  | [] => (.zero, .ok s)
  | n :: ns =>
    match walkC visit n s with
    | (c, .error x) => (c, .error x)
    | (c, .ok s') =>
      match walkListC visit ns s' with
      | (c', r) => (c.add c', r)
end

/-- `lrTraverse` — fromcst.go:45-60. -/
def lrTraverseC {σ : Type} (root : Node) (isTypeIgnored isSearchedType : Int → Bool)
    (fOnNode : OnNodeC σ) (s : σ) : Costly (Except Panic (σ × Option Err)) :=
  walkC (flexVisitC isTypeIgnored isSearchedType fOnNode) root (s, none)

/-- `BNFCSTtoASTBindings.lrTraverse` — fromcst.go:105-121. -/
def Bindings.lrTraverseC {σ : Type} (b : Bindings) (root : Node) (untilType : Int)
    (f : OnNodeC σ) (s : σ) : Costly (Except Panic (σ × Option Err)) :=
  FC.lrTraverseC root b.isNodeIgnored (fun nodeType => decide (nodeType = untilType)) f s

/-- A closure that uses no `Walk`. -/
def free {σ : Type} (f : OnNode σ) : OnNodeC σ := fun n s => (.zero, f n s)

/-- `parseEscape` — fromcst.go:123-144. -/
def Bindings.parseEscapeC (b : Bindings) (escSeq : Node) (str : Str) : Costly (R Str) :=
  match b.lrTraverseC escSeq b.escapeCharacterType (free (b.doOnEscapedChar str)) [] with
  | (c, .error p) => (c, .panic p)
  | (c, .ok (_, none)) => (c, .err .noEscape)
  | (c, .ok (res, some .searchComplete)) => (c, .ok res)
  | (c, .ok (_, some e)) => (c, .err e)

/-- The closure `fOnNode` of `parseTerminalName` — fromcst.go:150-162. -/
def Bindings.onTerminalPartC (b : Bindings) (str : Str) : OnNodeC Str := fun node sb =>
  if node.type = builtinTerminal then
    match slice str node.pos node.stop with
    | .error p => (.zero, .error p)
    | .ok t => (.zero, .ok (sb ++ t, none))
  else
    match b.parseEscapeC node str with
    | (c, .ok escape) => (c, .ok (sb ++ escape, none))
    | (c, .err e) => (c, .ok (sb, some e))
    | (c, .panic p) => (c, .error p)
    | (c, .diverge) => (c, .ok (sb, none))

/-- `parseTerminalName` — fromcst.go:147-171. -/
def Bindings.parseTerminalNameC (b : Bindings) (symbol : Node) (str : Str) : Costly (R Str) :=
  match FC.lrTraverseC symbol (fun _ => false)
      (fun n => decide (n = 16) || decide (n = builtinTerminal)) (b.onTerminalPartC str) [] with
  | (c, .error p) => (c, .panic p)
  | (c, .ok (sb, none)) => (c, .ok sb)
  | (c, .ok (_, some e)) => (c, .err e)

/-- `doOnTerminalName` — fromcst.go:178-189. -/
def Bindings.doOnTerminalNameC (b : Bindings) (str : Str) : OnNodeC (Option Symbol) :=
  fun termNameNode res =>
    match b.parseTerminalNameC termNameNode str with
    | (c, .panic p) => (c, .error p)
    | (c, .diverge) => (c, .ok (res, none))
    | (c, .err e) => (c, .ok (res, some e))
    | (c, .ok name) =>
      if name.length = 0 then (c, .ok (some .nothing, some .searchComplete))
      else (c, .ok (some (.terminal name), some .searchComplete))

/-- The loop over `SymbolTerminalTypes` — fromcst.go:191-199. -/
def Bindings.symbolTermLoopC (b : Bindings) (symbol : Node) (str : Str) :
    List Int → Option Symbol → Costly (R (Option (Option Symbol)))
  | [], _ => (.zero, .ok none)
  | t :: ts, res =>
    match b.lrTraverseC symbol t (b.doOnTerminalNameC str) res with
    | (c, .error p) => (c, .panic p)
    | (c, .ok (res', some .searchComplete)) => (c, .ok (some res'))
    | (c, .ok (_, some e)) => (c, .err e)
    | (c, .ok (res', none)) =>
      match b.symbolTermLoopC symbol str ts res' with
      | (c', r) => (c.add c', r)

/-- `parseSymbol` — fromcst.go:173-213. -/
def Bindings.parseSymbolC (b : Bindings) (symbol : Node) (str : Str) : Costly (R (Option Symbol)) :=
  match b.symbolTermLoopC symbol str b.symbolTerminalTypes none with
  | (c, .err e) => (c, .err e)
  | (c, .panic p) => (c, .panic p)
  | (c, .diverge) => (c, .diverge)
  | (c, .ok (some res)) => (c, .ok res)
  | (c, .ok none) =>
    match b.lrTraverseC symbol b.symbolNonTerminalType (free (doOnNonTerminalName str)) none with
    | (c', .error p) => (c.add c', .panic p)
    | (c', .ok (res, some .searchComplete)) => (c.add c', .ok res)
    | (c', .ok (_, _)) =>
      match nodeName symbol str with
      | .error p => (c.add c', .panic p)
      | .ok t => (c.add c', .err (.noSymbolType t))

/-- `doOnSymbol` — fromcst.go:219-226. -/
def Bindings.doOnSymbolC (b : Bindings) (str : Str) : OnNodeC (List Symbol) := fun node symbols =>
  match b.parseSymbolC node str with
  | (c, .panic p) => (c, .error p)
  | (c, .diverge) => (c, .ok (symbols, none))
  | (c, .err e) => (c, .ok (symbols, some e))
  | (c, .ok (some y)) => (c, .ok (symbols ++ [y], none))
  | (c, .ok none) => (c, .ok (symbols, none))

/-- `parseSequence` — fromcst.go:215-233. -/
def Bindings.parseSequenceC (b : Bindings) (sequence : Node) (str : Str) : Costly (R Sequence) :=
  match b.lrTraverseC sequence b.sequencesSymbolType (b.doOnSymbolC str) [] with
  | (c, .error p) => (c, .panic p)
  | (c, .ok (symbols, none)) => (c, .ok ⟨symbols⟩)
  | (c, .ok (_, some e)) => (c, .err e)

/-- `doOnSequence` — fromcst.go:240-247. -/
def Bindings.doOnSequenceC (b : Bindings) (str : Str) : OnNodeC (List Sequence) := fun node seqs =>
  match b.parseSequenceC node str with
  | (c, .panic p) => (c, .error p)
  | (c, .diverge) => (c, .ok (seqs, none))
  | (c, .err e) => (c, .ok (seqs, some e))
  | (c, .ok s) => (c, .ok (seqs ++ [s], none))

/-- `parseSubstitution` — fromcst.go:235-255. -/
def Bindings.parseSubstitutionC (b : Bindings) (expression : Node) (str : Str) : Costly (R Substitution) :=
  match b.lrTraverseC expression b.expressionSequencesType (b.doOnSequenceC str) [] with
  | (c, .error p) => (c, .panic p)
  | (c, .ok (seqs, none)) => (c, .ok ⟨seqs⟩)
  | (c, .ok (_, some e)) => (c, .err e)

/-- `doOnSubstitution` — fromcst.go:280-287. -/
def Bindings.doOnSubstitutionC (b : Bindings) (str : Str) : OnNodeC Substitution := fun node tail =>
  match b.parseSubstitutionC node str with
  | (c, .panic p) => (c, .error p)
  | (c, .diverge) => (c, .ok (tail, none))
  | (c, .err e) => (c, .ok (tail, some e))
  | (c, .ok s) => (c, .ok (s, some .searchComplete))

/-- `parseRule` — fromcst.go:257-300. -/
def Bindings.parseRuleC (b : Bindings) (rule : Node) (str : Str) : Costly (R Rule) :=
  match b.lrTraverseC rule b.ruleHeadType (free (doOnHead str)) [] with
  | (c, .error p) => (c, .panic p)
  | (c, .ok (head, some .searchComplete)) =>
    match b.lrTraverseC rule b.ruleTailType (b.doOnSubstitutionC str) ⟨[]⟩ with
    | (c', .error p) => (c.add c', .panic p)
    | (c', .ok (tail, some .searchComplete)) => (c.add c', .ok ⟨head, tail⟩)
    | (c', .ok (_, none)) =>
      match nodeName rule str with
      | .error p => (c.add c', .panic p)
      | .ok t => (c.add c', .err (.noSubstitution t))
    | (c', .ok (_, some e)) => (c.add c', .err e)
  | (c, .ok (_, _)) =>
    match nodeName rule str with
    | .error p => (c, .panic p)
    | .ok t => (c, .err (.noRuleName t))

/-- `doOnRule` — fromcst.go:308-315. -/
def Bindings.doOnRuleC (b : Bindings) (str : Str) : OnNodeC (List Rule) := fun node rules =>
  match b.parseRuleC node str with
  | (c, .panic p) => (c, .error p)
  | (c, .diverge) => (c, .ok (rules, none))
  | (c, .err e) => (c, .ok (rules, some e))
  | (c, .ok r) => (c, .ok (rules ++ [r], none))

/-- `ToAST` after its `sort.Sort` — fromcst.go:306-324. -/
def Bindings.toASTBodyC (b : Bindings) (root : Node) (str : Str) : Costly (R Grammar) :=
  match b.lrTraverseC root b.ruleType (b.doOnRuleC str) [] with
  | (c, .error p) => (c, .panic p)
  | (c, .ok (rules, none)) => (c, .ok ⟨rules⟩)
  | (c, .ok (_, some e)) => (c, .err e)

/-- `ToAST` — fromcst.go:302-324. -/
def Bindings.toASTC (b : Bindings) (root : Node) (str : Str) : Costly (R Grammar) :=
  ({ b with ignoreNodeTypes := sortInts b.ignoreNodeTypes } : Bindings).toASTBodyC root str

end FC
end LL1
