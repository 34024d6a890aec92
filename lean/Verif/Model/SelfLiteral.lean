import Verif.Model.SelfGrammar
import Verif.Model.ToAstHeap

/-!
# `SelfGrammar` and `SelfCSTtoASTBindings` in memory

Both functions return one nested composite literal.  Evaluating it makes a new array for every slice literal in it and a
new map for every map literal, each time the function is called.
-/

namespace LL1

/-- A slice literal `[]T{…}` with at least one element makes a new array of exactly that length; an empty one makes none. -/
def Mem.literal {α : Type} (m : Mem α) (l : List α) : Mem α × SliceRef :=
  if l = [] then (m, SliceRef.empty)
  else ({ next := m.next + 1, arrays := m.write m.next l }, { arr := m.next, len := l.length, cap := l.length })

namespace FC

/-- `Sequence{Symbols: []Symbol{…}}`, e.g. selfgrammar.go:67-79. -/
def AstMem.sequenceLit (m : AstMem) (q : Sequence) : AstMem × SliceRef :=
  let r := m.syms.literal q.symbols
  ({ m with syms := r.1 }, r.2)

/-- The elements of `[]Sequence{…}`, from left to right. -/
def AstMem.sequencesLit (m : AstMem) : List Sequence → AstMem × List SliceRef
  | [] => (m, [])
  | q :: qs =>
    let a := m.sequenceLit q
    let b := a.1.sequencesLit qs
    (b.1, a.2 :: b.2)

/-- `Substitution{Sequences: []Sequence{…}}`, e.g. selfgrammar.go:65-81. -/
def AstMem.substitutionLit (m : AstMem) (t : Substitution) : AstMem × SliceRef :=
  let a := m.sequencesLit t.sequences
  let r := a.1.seqs.literal a.2
  ({ a.1 with seqs := r.1 }, r.2)

/-- `Rule{Head: …, Tail: …}`, e.g. selfgrammar.go:61-82. -/
def AstMem.ruleLit (m : AstMem) (r : Rule) : AstMem × HRule :=
  let a := m.substitutionLit r.tail
  (a.1, ⟨r.head, a.2⟩)

/-- The elements of `[]Rule{…}`. -/
def AstMem.rulesLit (m : AstMem) : List Rule → AstMem × List HRule
  | [] => (m, [])
  | r :: rs =>
    let a := m.ruleLit r
    let b := a.1.rulesLit rs
    (b.1, a.2 :: b.2)

/-- `Grammar{Rules: []Rule{…}}` — a grammar written out in Go. -/
def AstMem.grammarLit (m : AstMem) (g : Grammar) : AstMem × SliceRef :=
  let a := m.rulesLit g.rules
  let r := a.1.rules.literal a.2
  ({ a.1 with rules := r.1 }, r.2)

/-- `SelfGrammar()` — selfgrammar.go:58-1335: returns the literal; nothing is kept from one call to the next. -/
def selfGrammarH (m : AstMem) : AstMem × SliceRef := m.grammarLit selfGrammar

/-! ## Bindings -/

/-- The arrays of `[]int` and the maps `map[string]string`. -/
structure BindMem where
  ints : Mem Int
  nextMap : Nat
  maps : Nat → GoMap Str Str

/-- A `BNFCSTtoASTBindings` value — fromcst.go:66-97: the two slices and the map are references, the integers (`rest`; its own
slices and map are not used) are not. -/
structure HBindings where
  ignore : SliceRef
  terminals : SliceRef
  escapes : Nat
  rest : Bindings

/-- `SelfCSTtoASTBindings()` — fromcst.go:326-345. -/
def selfBindingsH (m : BindMem) : BindMem × HBindings :=
  let a := m.ints.literal [25]
  let b := a.1.literal [11, 12]
  ({ ints := b.1, nextMap := m.nextMap + 1,
     maps := fun j => if j = m.nextMap then selfBindings.escapeMapping else m.maps j },
   { ignore := a.2, terminals := b.2, escapes := m.nextMap, rest := selfBindings })

end FC
end LL1
