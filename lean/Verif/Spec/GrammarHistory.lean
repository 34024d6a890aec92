import Verif.Model.SelfLiteral
import Verif.Spec.MemGrammar

/-!
# Histories of grammars in a program

What a program does with grammars: it gets them from `SelfGrammar`, from `ToAST` or writes them out, and edits them in place.
Every edit is given twice: on grammars as values, and on the slices in memory, as Go does it.
-/

namespace LL1
namespace FC

/-- Edits of the slice `Symbols` of a sequence. -/
inductive SeqEdit where
  /-- `q.Symbols[l] = y` -/
  | set (l : Nat) (y : Symbol)
  /-- `q.Symbols = append(q.Symbols, y)` -/
  | append (y : Symbol)
  /-- `q.Symbols = q.Symbols[:n]`, `n` at most the length -/
  | truncate (n : Nat)
  /-- `q = Sequence{Symbols: []Symbol{…}}` -/
  | whole (q : Sequence)

/-- Edits of the slice `Sequences` of a substitution. -/
inductive SubEdit where
  /-- an edit of `t.Sequences[j]` -/
  | at (j : Nat) (e : SeqEdit)
  /-- `t.Sequences = append(t.Sequences, Sequence{…})` -/
  | append (q : Sequence)
  /-- `t.Sequences = t.Sequences[:n]`, `n` at most the length -/
  | truncate (n : Nat)
  /-- `t = Substitution{…}` -/
  | whole (t : Substitution)

/-- Edits of a rule. -/
inductive RuleEdit where
  /-- `r.Head.Name = name` -/
  | head (name : Str)
  /-- an edit of `r.Tail` -/
  | tail (e : SubEdit)
  /-- `r = Rule{…}` -/
  | whole (r : Rule)

/-- Edits of the slice `Rules` of a grammar. -/
inductive GrammarEdit where
  /-- an edit of `g.Rules[i]` -/
  | at (i : Nat) (e : RuleEdit)
  /-- `g.Rules = append(g.Rules, Rule{…})` -/
  | append (r : Rule)
  /-- `g.Rules = g.Rules[:n]`, `n` at most the length -/
  | truncate (n : Nat)

/-! ## On values (an index out of range panics in Go and changes nothing) -/

def SeqEdit.onValue : SeqEdit → Sequence → Sequence
  | .set l y, q => ⟨q.symbols.set l y⟩
  | .append y, q => ⟨q.symbols ++ [y]⟩
  | .truncate n, q => ⟨q.symbols.take n⟩
  | .whole q', _ => q'

def SubEdit.onValue : SubEdit → Substitution → Substitution
  | .at j e, t => ⟨t.sequences.modify j e.onValue⟩
  | .append q, t => ⟨t.sequences ++ [q]⟩
  | .truncate n, t => ⟨t.sequences.take n⟩
  | .whole t', _ => t'

def RuleEdit.onValue : RuleEdit → Rule → Rule
  | .head name, r => ⟨name, r.tail⟩
  | .tail e, r => ⟨r.head, e.onValue r.tail⟩
  | .whole r', _ => r'

def GrammarEdit.onValue : GrammarEdit → Grammar → Grammar
  | .at i e, g => ⟨g.rules.modify i e.onValue⟩
  | .append r, g => ⟨g.rules ++ [r]⟩
  | .truncate n, g => ⟨g.rules.take n⟩

/-! ## In memory

Each function gets a slice header and returns the new one, which the caller of the edit stores where the old one was (storing
an unchanged header changes nothing). -/

def SeqEdit.onMemory (grow : Nat → Nat → Nat) : SeqEdit → AstMem → SliceRef → AstMem × SliceRef
  | .set l y, m, q => if l < q.len then ({ m with syms := m.syms.store q l y }, q) else (m, q)
  | .append y, m, q =>
    let r := m.syms.append grow .nothing q y
    ({ m with syms := r.1 }, r.2)
  | .truncate n, m, q => if n < q.len then (m, { q with len := n }) else (m, q)
  | .whole q', m, _ => m.sequenceLit q'

def SubEdit.onMemory (grow : Nat → Nat → Nat) : SubEdit → AstMem → SliceRef → AstMem × SliceRef
  | .at j e, m, t =>
    match (m.seqs.read t)[j]? with
    | none => (m, t)
    | some q =>
      let r := e.onMemory grow m q
      ({ r.1 with seqs := r.1.seqs.store t j r.2 }, t)
  | .append q, m, t =>
    let a := m.sequenceLit q
    let r := a.1.seqs.append grow SliceRef.empty t a.2
    ({ a.1 with seqs := r.1 }, r.2)
  | .truncate n, m, t => if n < t.len then (m, { t with len := n }) else (m, t)
  | .whole t', m, _ => m.substitutionLit t'

def RuleEdit.onMemory (grow : Nat → Nat → Nat) : RuleEdit → AstMem → HRule → AstMem × HRule
  | .head name, m, r => (m, ⟨name, r.tail⟩)
  | .tail e, m, r =>
    let a := e.onMemory grow m r.tail
    (a.1, ⟨r.head, a.2⟩)
  | .whole r', m, _ => m.ruleLit r'

def GrammarEdit.onMemory (grow : Nat → Nat → Nat) : GrammarEdit → AstMem → SliceRef → AstMem × SliceRef
  | .at i e, m, s =>
    match (m.rules.read s)[i]? with
    | none => (m, s)
    | some r =>
      let a := e.onMemory grow m r
      ({ a.1 with rules := a.1.rules.store s i a.2 }, s)
  | .append r, m, s =>
    let a := m.ruleLit r
    let b := a.1.rules.append grow ⟨[], SliceRef.empty⟩ s a.2
    ({ a.1 with rules := b.1 }, b.2)
  | .truncate n, m, s => if n < s.len then (m, { s with len := n }) else (m, s)

/-! ## Programs -/

/-- One thing a program does. -/
inductive Deed where
  /-- it calls `SelfGrammar()` -/
  | self
  /-- it calls `ToAST`; a grammar is kept, an error or a panic is dealt with -/
  | toAST (b : Bindings) (root : Node) (str : Str)
  /-- it writes a grammar out -/
  | write (g : Grammar)
  /-- it edits the `k`-th grammar it has -/
  | edit (k : Nat) (e : GrammarEdit)

/-- If grammars were values: the grammars the program has afterwards. -/
def Deed.onValues (gs : List Grammar) : Deed → List Grammar
  | .self => gs ++ [selfGrammar]
  | .toAST b root str => match b.toAST root str with
    | .ok g => gs ++ [g]
    | _ => gs
  | .write g => gs ++ [g]
  | .edit k e => gs.modify k e.onValue

/-- In memory: memory and the grammars (slices of rules) that the program has afterwards. -/
def Deed.onMemory (grow : Nat → Nat → Nat) (w : AstMem × List SliceRef) : Deed → AstMem × List SliceRef
  | .self =>
    let r := selfGrammarH w.1
    (r.1, w.2 ++ [r.2])
  | .toAST b root str => match b.toASTH grow root str w.1 with
    | (m, .ok s) => (m, w.2 ++ [s])
    | (m, _) => (m, w.2)
  | .write g =>
    let r := w.1.grammarLit g
    (r.1, w.2 ++ [r.2])
  | .edit k e => match w.2[k]? with
    | none => w
    | some s =>
      let r := e.onMemory grow w.1 s
      (r.1, w.2.set k r.2)

end FC
end LL1
