import Verif.Model.FromCst
import Verif.Model.Memory

/-!
# `ToAST` with the slices of the grammar in memory

`Model/FromCst.lean` treats the slices of a grammar as values.  Here `Grammar.Rules`, `Substitution.Sequences` and
`Sequence.Symbols` are slices in memory grown by `append`, which writes into the array at hand while there is room.
Memory is threaded through errors and panics too: what a failed call has written stays written.
-/

namespace LL1
namespace FC

/-- A `bnf.Rule` in memory — ast.go:96-99. -/
structure HRule where
  head : Str
  tail : SliceRef
  deriving DecidableEq, Repr

/-- The arrays of symbols, of sequences (a `Sequence` is one slice, ast.go:86-88) and of rules. -/
structure AstMem where
  syms : Mem Symbol
  seqs : Mem SliceRef
  rules : Mem HRule

/-- A closure `func(cst.Node) error` with captured variables `σ`; a panic keeps the memory. -/
abbrev OnNodeH (σ : Type) := Node → σ → Except (AstMem × Panic) (σ × Option Err)

/-- `flexVisitor.Visit` — fromcst.go:14-36. -/
def flexVisitorH {σ : Type} (isTypeIgnored isSearchedType : Int → Bool) (fOnNode : OnNodeH σ) :
    Visitor Unit (σ × Option Err) (AstMem × Panic) where
  visit v node s :=
    if s.2 ≠ none then .ok (s, none)
    else if isTypeIgnored node.type then .ok (s, none)
    else if isSearchedType node.type then
      match fOnNode node s.1 with
      | .error p => .error p
      | .ok (s', e) => .ok ((s', e), none)
    else .ok (s, some v)

/-- `BNFCSTtoASTBindings.lrTraverse` — fromcst.go:45-60, 105-121. -/
def Bindings.lrTraverseH {σ : Type} (b : Bindings) (root : Node) (untilType : Int) (f : OnNodeH σ) (s : σ) :
    Except (AstMem × Panic) (σ × Option Err) :=
  walk (flexVisitorH b.isNodeIgnored (fun nodeType => decide (nodeType = untilType)) f) () root (s, none)

/-- `doOnSymbol` — fromcst.go:219-226: `res.Symbols = append(res.Symbols, *symbol)`.  `parseSymbol` itself
(fromcst.go:173-213) makes no slices that reach the grammar.  Unused array elements are nil in Go; they are never read. -/
def Bindings.doOnSymbolH (grow : Nat → Nat → Nat) (b : Bindings) (str : Str) : OnNodeH (AstMem × SliceRef) :=
  fun node (m, s) =>
    match b.parseSymbol node str with
    | .panic p => .error (m, p)
    | .diverge => .ok ((m, s), none)
    | .err e => .ok ((m, s), some e)
    | .ok (some y) =>
      let r := m.syms.append grow .nothing s y
      .ok (({ m with syms := r.1 }, r.2), none)
    | .ok none => .ok ((m, s), none)

/-- `parseSequence` — fromcst.go:215-233. -/
def Bindings.parseSequenceH (grow : Nat → Nat → Nat) (b : Bindings) (sequence : Node) (str : Str) (m : AstMem) :
    AstMem × R SliceRef :=
  match b.lrTraverseH sequence b.sequencesSymbolType (b.doOnSymbolH grow str) (m, SliceRef.empty) with
  | .error (m', p) => (m', .panic p)
  | .ok ((m', s), none) => (m', .ok s)
  | .ok ((m', _), some e) => (m', .err e)

/-- `doOnSequence` — fromcst.go:240-247: `res.Sequences = append(res.Sequences, *sequence)`. -/
def Bindings.doOnSequenceH (grow : Nat → Nat → Nat) (b : Bindings) (str : Str) : OnNodeH (AstMem × SliceRef) :=
  fun node (m, s) =>
    match b.parseSequenceH grow node str m with
    | (m', .panic p) => .error (m', p)
    | (m', .diverge) => .ok ((m', s), none)
    | (m', .err e) => .ok ((m', s), some e)
    | (m', .ok q) =>
      let r := m'.seqs.append grow SliceRef.empty s q
      .ok (({ m' with seqs := r.1 }, r.2), none)

/-- `parseSubstitution` — fromcst.go:235-255. -/
def Bindings.parseSubstitutionH (grow : Nat → Nat → Nat) (b : Bindings) (expression : Node) (str : Str) (m : AstMem) :
    AstMem × R SliceRef :=
  match b.lrTraverseH expression b.expressionSequencesType (b.doOnSequenceH grow str) (m, SliceRef.empty) with
  | .error (m', p) => (m', .panic p)
  | .ok ((m', s), none) => (m', .ok s)
  | .ok ((m', _), some e) => (m', .err e)

/-- `doOnSubstitution` — fromcst.go:280-287: `res.Tail = *substitution`. -/
def Bindings.doOnSubstitutionH (grow : Nat → Nat → Nat) (b : Bindings) (str : Str) : OnNodeH (AstMem × SliceRef) :=
  fun node (m, s) =>
    match b.parseSubstitutionH grow node str m with
    | (m', .panic p) => .error (m', p)
    | (m', .diverge) => .ok ((m', s), none)
    | (m', .err e) => .ok ((m', s), some e)
    | (m', .ok q) => .ok ((m', q), some .searchComplete)

/-- `parseRule` — fromcst.go:257-300. -/
def Bindings.parseRuleH (grow : Nat → Nat → Nat) (b : Bindings) (rule : Node) (str : Str) (m : AstMem) : AstMem × R HRule :=
  match b.lrTraverse rule b.ruleHeadType (doOnHead str) [] with
  | .error p => (m, .panic p)
  | .ok (head, some .searchComplete) =>
    match b.lrTraverseH rule b.ruleTailType (b.doOnSubstitutionH grow str) (m, SliceRef.empty) with
    | .error (m', p) => (m', .panic p)
    | .ok ((m', tail), some .searchComplete) => (m', .ok ⟨head, tail⟩)
    | .ok ((m', _), none) =>
      match nodeName rule str with
      | .error p => (m', .panic p)
      | .ok t => (m', .err (.noSubstitution t))
    | .ok ((m', _), some e) => (m', .err e)
  | .ok (_, _) =>
    match nodeName rule str with
    | .error p => (m, .panic p)
    | .ok t => (m, .err (.noRuleName t))

/-- `doOnRule` — fromcst.go:308-315: `res.Rules = append(res.Rules, *rule)`. -/
def Bindings.doOnRuleH (grow : Nat → Nat → Nat) (b : Bindings) (str : Str) : OnNodeH (AstMem × SliceRef) :=
  fun node (m, s) =>
    match b.parseRuleH grow node str m with
    | (m', .panic p) => .error (m', p)
    | (m', .diverge) => .ok ((m', s), none)
    | (m', .err e) => .ok ((m', s), some e)
    | (m', .ok q) =>
      let r := m'.rules.append grow ⟨[], SliceRef.empty⟩ s q
      .ok (({ m' with rules := r.1 }, r.2), none)

/-- `ToAST` after its `sort.Sort` — fromcst.go:306-324.  The result is the slice `Rules` of the grammar. -/
def Bindings.toASTBodyH (grow : Nat → Nat → Nat) (b : Bindings) (root : Node) (str : Str) (m : AstMem) :
    AstMem × R SliceRef :=
  match b.lrTraverseH root b.ruleType (b.doOnRuleH grow str) (m, SliceRef.empty) with
  | .error (m', p) => (m', .panic p)
  | .ok ((m', s), none) => (m', .ok s)
  | .ok ((m', _), some e) => (m', .err e)

/-- `ToAST` — fromcst.go:302-324. -/
def Bindings.toASTH (grow : Nat → Nat → Nat) (b : Bindings) (root : Node) (str : Str) (m : AstMem) : AstMem × R SliceRef :=
  ({ b with ignoreNodeTypes := sortInts b.ignoreNodeTypes } : Bindings).toASTBodyH grow root str m

end FC
end LL1
