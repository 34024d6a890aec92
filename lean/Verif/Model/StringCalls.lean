import Verif.Model.ForeignText

/-!
# `Grammar.String` when the `String` methods of foreign symbols have effects

`Model/ForeignText.lean` lets the symbols of a grammar be of any type, but their methods answer the same at every call.  Here
a foreign `String` is code: it sees and changes the world, the arrays that hold the grammar being printed included.
-/

namespace LL1
namespace Told

/-- A slice: `len` elements of the array `array`, from `start` on. -/
structure Slice where
  array : Nat
  start : Nat
  len : Nat
  deriving DecidableEq, Repr

/-- A value of the interface `bnf.Symbol` — ast.go:16-22: one of the package's own types, nil, or a value of another type. -/
inductive Sym where
  | own (s : Symbol)
  | nil
  | other (id : Nat)
  deriving DecidableEq, Repr

/-- A `Rule` — ast.go:96-99 (its `Substitution`, ast.go:91-93, is a struct of one slice). -/
structure RuleVal where
  head : Str
  sequences : Slice
  deriving DecidableEq, Repr

/-- The arrays that hold grammars: of `Rule`s, of `Sequence`s (structs of one slice, ast.go:86-88) and of `Symbol`s. -/
structure Mem where
  rules : Nat → Nat → RuleVal
  sequences : Nat → Nat → Slice
  symbols : Nat → Nat → Sym

/-- Reading element `i` of a slice. -/
def Mem.rule (m : Mem) (s : Slice) (i : Nat) : RuleVal := m.rules s.array (s.start + i)
def Mem.sequence (m : Mem) (s : Slice) (i : Nat) : Slice := m.sequences s.array (s.start + i)
def Mem.symbol (m : Mem) (s : Slice) (i : Nat) : Sym := m.symbols s.array (s.start + i)

/-- The world: the memory in it, and what the `String` methods of foreign symbols do to it (`error v`: panic with `v`). -/
structure World (W : Type) where
  mem : W → Mem
  text : Nat → W → Except Str Str × W

variable {W : Type}

/-- `symbol.String()` — ast.go:32-38, 49-71, 81-83 for the own types. -/
def Sym.ask (E : World W) (y : Sym) (w : W) : Except AnySym.Panic Str × W :=
  match y with
  | .own s => (.ok s.toStr, w)
  | .nil => (.error .nilMethod, w)
  | .other id =>
    match E.text id w with
    | (.ok t, w) => (.ok t, w)
    | (.error v, w) => (.error (.thrown v), w)

/-- The inner loop of `Rule.String` — ast.go:109-112, with `n` rounds to go: `range` fixes the slice and its length before
the loop and reads each element when its turn comes. -/
def symbolsLoop (E : World W) (s : Slice) : Nat → Nat → Str → W → Except AnySym.Panic Str × W
  | 0, _, sb, w => (.ok sb, w)
  | n + 1, i, sb, w =>
    let symbol := (E.mem w).symbol s i
    let sb := sb ++ [32]
    match symbol.ask E w with
    | (.error p, w) => (.error p, w)
    | (.ok t, w) => symbolsLoop E s n (i + 1) (sb ++ t) w

/-- The outer loop of `Rule.String` — ast.go:105-113. -/
def sequencesLoop (E : World W) (s : Slice) : Nat → Nat → Str → W → Except AnySym.Panic Str × W
  | 0, _, sb, w => (.ok sb, w)
  | n + 1, i, sb, w =>
    let sequence := (E.mem w).sequence s i
    let sb := if i > 0 then sb ++ [32, 124] else sb
    match symbolsLoop E sequence sequence.len 0 sb w with
    | (.error p, w) => (.error p, w)
    | (.ok sb, w) => sequencesLoop E s n (i + 1) sb w

/-- `Rule.String` — ast.go:101-116; the receiver is a copy. -/
def ruleString (E : World W) (r : RuleVal) (w : W) : Except AnySym.Panic Str × W :=
  sequencesLoop E r.sequences r.sequences.len 0 (ntString r.head ++ [32, 58, 58, 61]) w

/-- The loop of `Grammar.String` — ast.go:133-136. -/
def rulesLoop (E : World W) (g : Slice) : Nat → Nat → Str → W → Except AnySym.Panic Str × W
  | 0, _, sb, w => (.ok sb, w)
  | n + 1, i, sb, w =>
    let sb := sb ++ [10]
    match ruleString E ((E.mem w).rule g i) w with
    | (.error p, w) => (.error p, w)
    | (.ok t, w) => rulesLoop E g n (i + 1) (sb ++ t) w

/-- `Grammar.String` — ast.go:123-139; the receiver, a struct of the one slice `g`, is a copy, and `rulesCount` is read once. -/
def grammarString (E : World W) (g : Slice) (w : W) : Except AnySym.Panic Str × W :=
  if g.len = 0 then (.ok [], w)
  else
    match ruleString E ((E.mem w).rule g 0) w with
    | (.error p, w) => (.error p, w)
    | (.ok t, w) => rulesLoop E g (g.len - 1) 1 t w

end Told
end LL1
