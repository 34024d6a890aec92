import Verif.Model.FromCst

/-!
# Several goroutines calling `ToAST` with bindings that share one `IgnoreNodeTypes` slice

`ToAST` has a value receiver (fromcst.go:302), so every call copies the bindings — but the copy of a slice is the same
window of the same array.  `ToAST` first sorts that window (`sort.Sort`, fromcst.go:304) and then looks node types up in
it (`sort.SearchInts` and one comparison, fromcst.go:112-113) at every visited node; it touches no other shared memory
(`SymbolTerminalTypes` and `EscapeMapping` are only read; everything else is a local variable).  So a call is a program
of reads and writes of the slice's elements.  The conversion after the sort only reads: it is the code of
`Model/FromCst.lean` with every look-up done by reads of single elements.  One step of a goroutine is one read or one
write.  Simplification: a read or write of one element is atomic (elements are machine words).
-/

namespace LL1
namespace FC

/-- The elements of the shared slice, by index. -/
abbrev Mem := Nat → Int

/-- The elements `0, ..., n - 1`. -/
def Mem.list (mem : Mem) (n : Nat) : List Int := (List.range n).map mem

/-- A computation that reads elements of the slice. -/
inductive Query (α : Type) where
  | ret (a : α)
  | read (i : Nat) (k : Int → Query α)

/-- A computation that reads and writes elements of the slice. -/
inductive Prog (α : Type) where
  | ret (a : α)
  | read (i : Nat) (k : Int → Prog α)
  | write (i : Nat) (x : Int) (k : Prog α)

namespace Query
variable {α β : Type}

def bind : Query α → (α → Query β) → Query β
  | .ret a, f => f a
  | .read i k, f => .read i fun x => (k x).bind f

instance : Monad Query where
  pure := .ret
  bind := bind

def toProg : Query α → Prog α
  | .ret a => .ret a
  | .read i k => .read i fun x => (k x).toProg

end Query

namespace Prog
variable {α β : Type}

def bind : Prog α → (α → Prog β) → Prog β
  | .ret a, f => f a
  | .read i k, f => .read i fun x => (k x).bind f
  | .write i x k, f => .write i x (k.bind f)

instance : Monad Prog where
  pure := .ret
  bind := bind

end Prog

/-! ## The conversion, reading the slice element by element (`n` is its length) -/

/-- The loop of `sort.Search` as called by `sort.SearchInts(a, x)`: reads `a[h]` and compares. -/
def searchLoopQ (x : Int) : (fuel : Nat) → (i j : Nat) → Query Nat
  | 0, i, _ => return i
  | fuel + 1, i, j =>
    if i < j then
      let h := (i + j) / 2
      .read h fun y => if !decide (y ≥ x) then searchLoopQ x fuel (h + 1) j else searchLoopQ x fuel i h
    else return i

/-- The closure `isNodeIgnored` — fromcst.go:110-114. -/
def isNodeIgnoredQ (n : Nat) (nodeType : Int) : Query Bool := do
  let sr ← searchLoopQ nodeType n 0 n
  if sr < n then .read sr fun y => .ret (decide (y = nodeType)) else return false

/-- A closure `func(cst.Node) error` with captured variables `σ`. -/
abbrev OnNodeQ (σ : Type) := Node → σ → Query (Except Panic (σ × Option Err))

/-- `flexVisitor.Visit` — fromcst.go:21-36; `Bool` = the visitor is returned. -/
def flexVisitQ {σ : Type} (isTypeIgnored : Int → Query Bool) (isSearchedType : Int → Bool) (fOnNode : OnNodeQ σ)
    (node : Node) (s : σ × Option Err) : Query (Except Panic ((σ × Option Err) × Bool)) :=
  if s.2 ≠ none then return .ok (s, false)
  else do
    let ignored ← isTypeIgnored node.type
    if ignored then return .ok (s, false)
    else if isSearchedType node.type then do
      let r ← fOnNode node s.1
      return match r with
        | .error p => .error p
        | .ok (s', e) => .ok ((s', e), false)
    else return .ok (s, true)

mutual
/-- `Walk` — cst.go:46-54 (with a visitor that returns nil or itself). -/
def walkQ {S : Type} (visit : Node → S → Query (Except Panic (S × Bool))) (node : Node) (s : S) :
    Query (Except Panic S) :=
  match node with
  | .mk t p e cs => do
    let r ← visit (.mk t p e cs) s
    match r with
    | .error x => return .error x
    | .ok (s', false) => return .ok s'
    | .ok (s', true) => walkListQ visit cs s'
/-- The loop of `Walk` — cst.go:51-53. -/
def walkListQ {S : Type} (visit : Node → S → Query (Except Panic (S × Bool))) (nodes : List Node) (s : S) :
    Query (Except Panic S) :=
  match nodes with
  | [] => return .ok s
  | n :: ns => do
    let r ← walkQ visit n s
    match r with
    | .error x => return .error x
    | .ok s' => walkListQ visit ns s'
end

/-- `lrTraverse` — fromcst.go:45-60. -/
def lrTraverseQ {σ : Type} (root : Node) (isTypeIgnored : Int → Query Bool) (isSearchedType : Int → Bool)
    (fOnNode : OnNodeQ σ) (s : σ) : Query (Except Panic (σ × Option Err)) :=
  walkQ (flexVisitQ isTypeIgnored isSearchedType fOnNode) root (s, none)

/-- `BNFCSTtoASTBindings.lrTraverse` — fromcst.go:105-121. -/
def lrTraverseB {σ : Type} (n : Nat) (root : Node) (untilType : Int)
    (f : OnNodeQ σ) (s : σ) : Query (Except Panic (σ × Option Err)) :=
  lrTraverseQ root (isNodeIgnoredQ n) (fun nodeType => decide (nodeType = untilType)) f s

/-- A closure that does not look at the slice. -/
def pureQ {σ : Type} (f : OnNode σ) : OnNodeQ σ := fun n s => return f n s

/-- `parseEscape` — fromcst.go:123-144. -/
def Bindings.parseEscapeQ (b : Bindings) (n : Nat) (escSeq : Node) (str : Str) : Query (R Str) := do
  let r ← lrTraverseB n escSeq b.escapeCharacterType (pureQ (b.doOnEscapedChar str)) []
  return match r with
    | .error p => .panic p
    | .ok (_, none) => .err .noEscape
    | .ok (res, some .searchComplete) => .ok res
    | .ok (_, some e) => .err e

/-- The closure `fOnNode` of `parseTerminalName` — fromcst.go:150-162. -/
def Bindings.onTerminalPartQ (b : Bindings) (n : Nat) (str : Str) : OnNodeQ Str := fun node sb =>
  if node.type = builtinTerminal then
    return match slice str node.pos node.stop with
      | .error p => .error p
      | .ok t => .ok (sb ++ t, none)
  else do
    let r ← b.parseEscapeQ n node str
    return match r with
      | .ok escape => .ok (sb ++ escape, none)
      | .err e => .ok (sb, some e)
      | .panic p => .error p
      | .diverge => .ok (sb, none)

/-- `parseTerminalName` — fromcst.go:147-171. -/
def Bindings.parseTerminalNameQ (b : Bindings) (n : Nat) (symbol : Node) (str : Str) : Query (R Str) := do
  let r ← lrTraverseQ symbol (fun _ => return false)
      (fun n => decide (n = 16) || decide (n = builtinTerminal)) (b.onTerminalPartQ n str) []
  return match r with
    | .error p => .panic p
    | .ok (sb, none) => .ok sb
    | .ok (_, some e) => .err e

/-- `doOnTerminalName` — fromcst.go:178-189. -/
def Bindings.doOnTerminalNameQ (b : Bindings) (n : Nat) (str : Str) : OnNodeQ (Option Symbol) :=
  fun termNameNode res => do
    let r ← b.parseTerminalNameQ n termNameNode str
    return match r with
      | .panic p => .error p
      | .diverge => .ok (res, none)
      | .err e => .ok (res, some e)
      | .ok name =>
        if name.length = 0 then .ok (some .nothing, some .searchComplete)
        else .ok (some (.terminal name), some .searchComplete)

/-- The loop over `SymbolTerminalTypes` — fromcst.go:191-199. -/
def Bindings.symbolTermLoopQ (b : Bindings) (n : Nat) (symbol : Node) (str : Str) :
    List Int → Option Symbol → Query (R (Option (Option Symbol)))
  | [], _ => return .ok none
  | t :: ts, res => do
    let r ← lrTraverseB n symbol t (b.doOnTerminalNameQ n str) res
    match r with
    | .error p => return .panic p
    | .ok (res', some .searchComplete) => return .ok (some res')
    | .ok (_, some e) => return .err e
    | .ok (res', none) => b.symbolTermLoopQ n symbol str ts res'

/-- `parseSymbol` — fromcst.go:173-213. -/
def Bindings.parseSymbolQ (b : Bindings) (n : Nat) (symbol : Node) (str : Str) : Query (R (Option Symbol)) := do
  let r ← b.symbolTermLoopQ n symbol str b.symbolTerminalTypes none
  match r with
  | .err e => return .err e
  | .panic p => return .panic p
  | .diverge => return .diverge
  | .ok (some res) => return .ok res
  | .ok none =>
    let r ← lrTraverseB n symbol b.symbolNonTerminalType (pureQ (doOnNonTerminalName str)) none
    return match r with
      | .error p => .panic p
      | .ok (res, some .searchComplete) => .ok res
      | .ok (_, _) =>
        match nodeName symbol str with
        | .error p => .panic p
        | .ok t => .err (.noSymbolType t)

/-- `doOnSymbol` — fromcst.go:219-226. -/
def Bindings.doOnSymbolQ (b : Bindings) (n : Nat) (str : Str) : OnNodeQ (List Symbol) := fun node symbols => do
  let r ← b.parseSymbolQ n node str
  return match r with
    | .panic p => .error p
    | .diverge => .ok (symbols, none)
    | .err e => .ok (symbols, some e)
    | .ok (some y) => .ok (symbols ++ [y], none)
    | .ok none => .ok (symbols, none)

/-- `parseSequence` — fromcst.go:215-233. -/
def Bindings.parseSequenceQ (b : Bindings) (n : Nat) (sequence : Node) (str : Str) : Query (R Sequence) := do
  let r ← lrTraverseB n sequence b.sequencesSymbolType (b.doOnSymbolQ n str) []
  return match r with
    | .error p => .panic p
    | .ok (symbols, none) => .ok ⟨symbols⟩
    | .ok (_, some e) => .err e

/-- `doOnSequence` — fromcst.go:240-247. -/
def Bindings.doOnSequenceQ (b : Bindings) (n : Nat) (str : Str) : OnNodeQ (List Sequence) := fun node seqs => do
  let r ← b.parseSequenceQ n node str
  return match r with
    | .panic p => .error p
    | .diverge => .ok (seqs, none)
    | .err e => .ok (seqs, some e)
    | .ok s => .ok (seqs ++ [s], none)

/-- `parseSubstitution` — fromcst.go:235-255. -/
def Bindings.parseSubstitutionQ (b : Bindings) (n : Nat) (expression : Node) (str : Str) : Query (R Substitution) := do
  let r ← lrTraverseB n expression b.expressionSequencesType (b.doOnSequenceQ n str) []
  return match r with
    | .error p => .panic p
    | .ok (seqs, none) => .ok ⟨seqs⟩
    | .ok (_, some e) => .err e

/-- `doOnSubstitution` — fromcst.go:280-287. -/
def Bindings.doOnSubstitutionQ (b : Bindings) (n : Nat) (str : Str) : OnNodeQ Substitution := fun node tail => do
  let r ← b.parseSubstitutionQ n node str
  return match r with
    | .panic p => .error p
    | .diverge => .ok (tail, none)
    | .err e => .ok (tail, some e)
    | .ok s => .ok (s, some .searchComplete)

/-- `parseRule` — fromcst.go:257-300. -/
def Bindings.parseRuleQ (b : Bindings) (n : Nat) (rule : Node) (str : Str) : Query (R Rule) := do
  let r ← lrTraverseB n rule b.ruleHeadType (pureQ (doOnHead str)) []
  match r with
  | .error p => return .panic p
  | .ok (head, some .searchComplete) =>
    let r ← lrTraverseB n rule b.ruleTailType (b.doOnSubstitutionQ n str) ⟨[]⟩
    return match r with
      | .error p => .panic p
      | .ok (tail, some .searchComplete) => .ok ⟨head, tail⟩
      | .ok (_, none) =>
        match nodeName rule str with
        | .error p => .panic p
        | .ok t => .err (.noSubstitution t)
      | .ok (_, some e) => .err e
  | .ok (_, _) =>
    return match nodeName rule str with
      | .error p => .panic p
      | .ok t => .err (.noRuleName t)

/-- `doOnRule` — fromcst.go:308-315. -/
def Bindings.doOnRuleQ (b : Bindings) (n : Nat) (str : Str) : OnNodeQ (List Rule) := fun node rules => do
  let r ← b.parseRuleQ n node str
  return match r with
    | .panic p => .error p
    | .diverge => .ok (rules, none)
    | .err e => .ok (rules, some e)
    | .ok r => .ok (rules ++ [r], none)

/-- `ToAST` after its `sort.Sort` — fromcst.go:306-324. -/
def Bindings.toASTBodyQ (b : Bindings) (n : Nat) (root : Node) (str : Str) : Query (R Grammar) := do
  let r ← lrTraverseB n root b.ruleType (b.doOnRuleQ n str) []
  return match r with
    | .error p => .panic p
    | .ok (rules, none) => .ok ⟨rules⟩
    | .ok (_, some e) => .err e

/-! ## The sort -/

/-- `IntSlice.Less(i, j)`: `x[i] < x[j]`. -/
def less (i j : Nat) : Prog Bool := .read i fun x => .read j fun y => .ret (decide (x < y))

/-- `IntSlice.Swap(i, j)`: `x[i], x[j] = x[j], x[i]` reads both elements, then writes them one after the other. -/
def swap (i j : Nat) : Prog Unit := .read j fun y => .read i fun x => .write i y (.write j x (.ret ()))

/-- The inner loop of Go's `insertionSort`: `for j := i; j > 0 && data.Less(j, j-1); j-- { data.Swap(j, j-1) }`. -/
def siftDown : Nat → Prog Unit
  | 0 => return ()
  | j + 1 => do
    let l ← less (j + 1) j
    if l then do
      swap (j + 1) j
      siftDown j
    else return ()

/-- The outer loop `for i := 1; i < n; i++`, from `i` on, `k` more times. -/
def insertionLoop : (k i : Nat) → Prog Unit
  | 0, _ => return ()
  | k + 1, i => do
    siftDown i
    insertionLoop k (i + 1)

/-- What `sort.Sort` does with at most 12 elements (`insertionSort` of Go's package sort). -/
def insertionSort (n : Nat) : Prog Unit := insertionLoop (n - 1) 1

/-! ## Calls and schedules -/

/-- `ToAST` — fromcst.go:302-324: the sort, then the conversion.  `sort` is what `sort.Sort` does with `n` elements. -/
def Bindings.toASTP (sort : Nat → Prog Unit) (b : Bindings) (n : Nat) (root : Node) (str : Str) : Prog (R Grammar) := do
  sort n
  (b.toASTBodyQ n root str).toProg

/-- The next step of a program: new memory, rest of the program. -/
def Prog.step {α : Type} (mem : Mem) : Prog α → Mem × Prog α
  | .ret a => (mem, .ret a)
  | .read i k => (mem, k (mem i))
  | .write i x k => ((fun j => if j = i then x else mem j), k)

/-- The program run alone to its end. -/
def Prog.run {α : Type} (mem : Mem) : Prog α → Mem × α
  | .ret a => (mem, a)
  | .read i k => (k (mem i)).run mem
  | .write i x k => k.run fun j => if j = i then x else mem j

/-- One call: the bindings (their list is the shared slice, not `ignoreNodeTypes`), the tree and its text. -/
structure PCall where
  bindings : Bindings
  root : Node
  str : Str

/-- The shared slice and the calls in progress. -/
structure PSystem where
  mem : Mem
  threads : List (Prog (R Grammar))

/-- All calls about to start, on a slice of `n` elements. -/
def PSystem.start (sort : Nat → Prog Unit) (n : Nat) (mem : Mem) (calls : List PCall) : PSystem :=
  ⟨mem, calls.map fun c => c.bindings.toASTP sort n c.root c.str⟩

/-- Goroutine `i` makes a step (a number without goroutine is a no-op). -/
def PSystem.step (sys : PSystem) (i : Nat) : PSystem :=
  match sys.threads[i]? with
  | none => sys
  | some p => ⟨(p.step sys.mem).1, sys.threads.set i (p.step sys.mem).2⟩

/-- A schedule: which goroutine moves at each moment. -/
def PSystem.runSchedule (sys : PSystem) (schedule : List Nat) : PSystem := schedule.foldl PSystem.step sys

end FC
end LL1
