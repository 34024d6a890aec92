import Verif.Model.SelfLiteral

/-!
# Histories of bindings in a program

What a program does with bindings: it gets them from `SelfCSTtoASTBindings`, edits them in place and calls `ToAST`.
-/

namespace LL1
namespace FC

/-- What a caller sees who looks at bindings. -/
def HBindings.value (b : HBindings) (m : BindMem) : Bindings :=
  { b.rest with ignoreNodeTypes := m.ints.read b.ignore, symbolTerminalTypes := m.ints.read b.terminals,
                escapeMapping := m.maps b.escapes }

/-- Edits of bindings. -/
inductive BindEdit where
  /-- `b.IgnoreNodeTypes[i] = x` -/
  | setIgnore (i : Nat) (x : Int)
  /-- `b.IgnoreNodeTypes = append(b.IgnoreNodeTypes, x)` -/
  | appendIgnore (x : Int)
  /-- `b.SymbolTerminalTypes[i] = x` -/
  | setTerminal (i : Nat) (x : Int)
  /-- `b.SymbolTerminalTypes = append(b.SymbolTerminalTypes, x)` -/
  | appendTerminal (x : Int)
  /-- `b.EscapeMapping[k] = v` -/
  | setEscape (k v : Str)
  /-- `delete(b.EscapeMapping, k)` -/
  | deleteEscape (k : Str)
  /-- assignments to the integer fields, which become those of `r` -/
  | numbers (r : Bindings)
  /-- `b.ToAST(…)`, which sorts `IgnoreNodeTypes` in place — fromcst.go:304 -/
  | toAST

/-- On values. -/
def BindEdit.onValue : BindEdit → Bindings → Bindings
  | .setIgnore i x, b => { b with ignoreNodeTypes := b.ignoreNodeTypes.set i x }
  | .appendIgnore x, b => { b with ignoreNodeTypes := b.ignoreNodeTypes ++ [x] }
  | .setTerminal i x, b => { b with symbolTerminalTypes := b.symbolTerminalTypes.set i x }
  | .appendTerminal x, b => { b with symbolTerminalTypes := b.symbolTerminalTypes ++ [x] }
  | .setEscape k v, b => { b with escapeMapping := b.escapeMapping.set k v }
  | .deleteEscape k, b => { b with escapeMapping := b.escapeMapping.filter fun e => e.1 ≠ k }
  | .numbers r, b => { r with ignoreNodeTypes := b.ignoreNodeTypes, symbolTerminalTypes := b.symbolTerminalTypes,
                              escapeMapping := b.escapeMapping }
  | .toAST, b => { b with ignoreNodeTypes := sortInts b.ignoreNodeTypes }

/-- `sort.Sort(sort.IntSlice(s))`: the window of the array is overwritten. -/
def sortSlice (m : Mem Int) (s : SliceRef) : Mem Int :=
  if s.len = 0 then m else { m with arrays := m.write s.arr (sortInts (m.read s) ++ (m.arrays s.arr).drop s.len) }

/-- In memory. -/
def BindEdit.onMemory (grow : Nat → Nat → Nat) : BindEdit → BindMem → HBindings → BindMem × HBindings
  | .setIgnore i x, m, b => (if i < b.ignore.len then { m with ints := m.ints.store b.ignore i x } else m, b)
  | .appendIgnore x, m, b =>
    let r := m.ints.append grow 0 b.ignore x
    ({ m with ints := r.1 }, { b with ignore := r.2 })
  | .setTerminal i x, m, b => (if i < b.terminals.len then { m with ints := m.ints.store b.terminals i x } else m, b)
  | .appendTerminal x, m, b =>
    let r := m.ints.append grow 0 b.terminals x
    ({ m with ints := r.1 }, { b with terminals := r.2 })
  | .setEscape k v, m, b => ({ m with maps := fun j => if j = b.escapes then (m.maps j).set k v else m.maps j }, b)
  | .deleteEscape k, m, b =>
    ({ m with maps := fun j => if j = b.escapes then (m.maps j).filter (fun e => e.1 ≠ k) else m.maps j }, b)
  | .numbers r, m, b => (m, { b with rest := r })
  | .toAST, m, b => ({ m with ints := sortSlice m.ints b.ignore }, b)

/-- One thing a program does. -/
inductive BindDeed where
  /-- it calls `SelfCSTtoASTBindings()` -/
  | self
  /-- it edits the `k`-th bindings it has -/
  | edit (k : Nat) (e : BindEdit)

def BindDeed.onValues (bs : List Bindings) : BindDeed → List Bindings
  | .self => bs ++ [selfBindings]
  | .edit k e => bs.modify k e.onValue

def BindDeed.onMemory (grow : Nat → Nat → Nat) (w : BindMem × List HBindings) : BindDeed → BindMem × List HBindings
  | .self =>
    let r := selfBindingsH w.1
    (r.1, w.2 ++ [r.2])
  | .edit k e => match w.2[k]? with
    | none => w
    | some b =>
      let r := e.onMemory grow w.1 b
      (r.1, w.2.set k r.2)

end FC
end LL1
