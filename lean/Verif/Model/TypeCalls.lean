import Verif.Model.StringCalls

/-!
# The comparison of `examples/parseownsyntax` when the `Type` methods of foreign symbols have effects

`Model/ForeignText.lean` lets the symbols of a grammar be of any type, but their methods answer the same at every call.  Here
a foreign `Type` is code: it sees and changes the world, the arrays that hold the two grammars included.
-/

namespace LL1
namespace Weigh

open Told (Slice Sym RuleVal Mem)
open AnySym (Panic Cmp)

/-- The world: the memory in it, and what the `Type` methods of foreign symbols do to it (`error v`: panic with `v`). -/
structure World (W : Type) where
  mem : W → Mem
  type : Nat → W → Except Str Int × W

variable {W : Type}

/-- `symbol.Type()` — ast.go:28-30, 45-47, 77-79 for the own types, with the numbers of ast.go:8-12. -/
def askType (E : World W) (y : Sym) (w : W) : Except Panic Int × W :=
  match y with
  | .own (.nonTerminal _) => (.ok 0, w)
  | .own (.terminal _) => (.ok 1, w)
  | .own .nothing => (.ok 2, w)
  | .nil => (.error .nilMethod, w)
  | .other id =>
    match E.type id w with
    | (.ok t, w) => (.ok t, w)
    | (.error v, w) => (.error (.thrown v), w)

/-- `isNonTerminalsEqual(a.(bnf.SymbolNonTerminal), b.(bnf.SymbolNonTerminal))` — examples/parseownsyntax/main.go:17-21,
34-35; a failed assertion panics. -/
def compareNonTerminals : Sym → Sym → Cmp
  | .own (.nonTerminal n), .own (.nonTerminal m) => .result (decide (n = m))
  | _, _ => .panic .conversion

/-- `isTerminalsEqual(a.(bnf.SymbolTerminal), b.(bnf.SymbolTerminal))` — examples/parseownsyntax/main.go:23-25, 38-39. -/
def compareTerminals : Sym → Sym → Cmp
  | .own (.terminal n), .own (.terminal m) => .result (decide (n = m))
  | _, _ => .panic .conversion

/-- `isSymbolsEqual` — examples/parseownsyntax/main.go:27-50: `Type` of the first symbol is called at :28, :32 and, for the
message, at :47; that of the second at :28 only. -/
def isSymbolsEqual (E : World W) (a b : Sym) (w : W) : Cmp × W :=
  match askType E a w with
  | (.error p, w) => (.panic p, w)
  | (.ok ta, w) =>
    match askType E b w with
    | (.error p, w) => (.panic p, w)
    | (.ok tb, w) =>
      if ta ≠ tb then (.result false, w)
      else
        match askType E a w with
        | (.error p, w) => (.panic p, w)
        | (.ok t, w) =>
          if t = 0 then (compareNonTerminals a b, w)
          else if t = 1 then (compareTerminals a b, w)
          else if t = 2 then (.result true, w)
          else
            match askType E a w with
            | (.error p, w) => (.panic p, w)
            | (.ok t, w) => (.exit t, w)

/-- `for i := range a { if !eq(a[i], b[i]) { return false } }; return true` with `n` rounds to go; the elements are read when
their turn comes — examples/parseownsyntax/main.go:57-63, 71-76, 93-99. -/
def compareLoop {α : Type} (readA readB : W → Nat → α) (eq : α → α → W → Cmp × W) : Nat → Nat → W → Cmp × W
  | 0, _, w => (.result true, w)
  | n + 1, i, w =>
    match eq (readA w i) (readB w i) w with
    | (.result true, w) => compareLoop readA readB eq n (i + 1) w
    | (c, w) => (c, w)

/-- `isSequencesEqual` — examples/parseownsyntax/main.go:52-64; the arguments are copies of the two slices. -/
def isSequencesEqual (E : World W) (a b : Slice) (w : W) : Cmp × W :=
  if a.len ≠ b.len then (.result false, w)
  else compareLoop (fun w i => (E.mem w).symbol a i) (fun w i => (E.mem w).symbol b i) (isSymbolsEqual E) a.len 0 w

/-- `isSubstitutionsEqual` — examples/parseownsyntax/main.go:66-77. -/
def isSubstitutionsEqual (E : World W) (a b : Slice) (w : W) : Cmp × W :=
  if a.len ≠ b.len then (.result false, w)
  else compareLoop (fun w i => (E.mem w).sequence a i) (fun w i => (E.mem w).sequence b i) (isSequencesEqual E) a.len 0 w

/-- `isRulesEqual` — examples/parseownsyntax/main.go:79-86. -/
def isRulesEqual (E : World W) (a b : RuleVal) (w : W) : Cmp × W :=
  if a.head ≠ b.head then (.result false, w) else isSubstitutionsEqual E a.sequences b.sequences w

/-- `isGrammarsEqual` — examples/parseownsyntax/main.go:88-100; the arguments are copies of the two slices of rules. -/
def isGrammarsEqual (E : World W) (a b : Slice) (w : W) : Cmp × W :=
  if a.len ≠ b.len then (.result false, w)
  else compareLoop (fun w i => (E.mem w).rule a i) (fun w i => (E.mem w).rule b i) (isRulesEqual E) a.len 0 w

end Weigh
end LL1
