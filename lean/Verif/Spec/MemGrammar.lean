import Verif.Model.ToAstHeap

/-!
# What a grammar in memory says
-/

namespace LL1
namespace FC

/-- What a caller sees who looks at a sequence, … -/
def AstMem.sequence (m : AstMem) (s : SliceRef) : Sequence := ⟨m.syms.read s⟩
/-- … at a substitution, … -/
def AstMem.substitution (m : AstMem) (s : SliceRef) : Substitution := ⟨(m.seqs.read s).map m.sequence⟩
/-- … at a rule, … -/
def AstMem.rule (m : AstMem) (r : HRule) : Rule := ⟨r.head, m.substitution r.tail⟩
/-- … at a grammar. -/
def AstMem.grammar (m : AstMem) (s : SliceRef) : Grammar := ⟨(m.rules.read s).map m.rule⟩

/-- Some calls of `ToAST` one after the other, with any bindings, trees and texts, on one memory: the memory after them
and how each ends. -/
def toASTCalls (grow : Nat → Nat → Nat) : AstMem → List (Bindings × Node × Str) → AstMem × List (R SliceRef)
  | m, [] => (m, [])
  | m, (b, root, str) :: calls =>
    let o := b.toASTH grow root str m
    let rest := toASTCalls grow o.1 calls
    (rest.1, o.2 :: rest.2)

/-- A caller's assignments and appends to the slices of a grammar. -/
inductive Edit where
  | symbol (s : SliceRef) (l : Nat) (y : Symbol)
  | sequence (s : SliceRef) (j : Nat) (q : SliceRef)
  | rule (s : SliceRef) (i : Nat) (r : HRule)
  | appendSymbol (s : SliceRef) (y : Symbol)
  | appendSequence (s : SliceRef) (q : SliceRef)
  | appendRule (s : SliceRef) (r : HRule)

/-- `s[l] = y` or `append(s, y)` (the new slice is not stored anywhere yet). -/
def AstMem.edit (grow : Nat → Nat → Nat) (m : AstMem) : Edit → AstMem
  | .symbol s l y => { m with syms := m.syms.store s l y }
  | .sequence s j q => { m with seqs := m.seqs.store s j q }
  | .rule s i r => { m with rules := m.rules.store s i r }
  | .appendSymbol s y => { m with syms := (m.syms.append grow .nothing s y).1 }
  | .appendSequence s q => { m with seqs := (m.seqs.append grow SliceRef.empty s q).1 }
  | .appendRule s r => { m with rules := (m.rules.append grow ⟨[], SliceRef.empty⟩ s r).1 }

/-- `g` with symbol `l` of alternative `j` of rule `i` replaced. -/
def _root_.LL1.Grammar.setSymbol (g : Grammar) (i j l : Nat) (y : Symbol) : Grammar :=
  ⟨g.rules.modify i fun r => ⟨r.head, ⟨r.tail.sequences.modify j fun q => ⟨q.symbols.set l y⟩⟩⟩⟩

/-- `g` with alternative `j` of rule `i` replaced. -/
def _root_.LL1.Grammar.setAlternative (g : Grammar) (i j : Nat) (q : Sequence) : Grammar :=
  ⟨g.rules.modify i fun r => ⟨r.head, ⟨r.tail.sequences.set j q⟩⟩⟩

/-- `g` with rule `i` replaced. -/
def _root_.LL1.Grammar.setRule (g : Grammar) (i : Nat) (r : Rule) : Grammar := ⟨g.rules.set i r⟩

end FC
end LL1
