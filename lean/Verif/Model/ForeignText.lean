import Verif.Model.Ast
import Verif.Model.Basic

/-!
# `String` and the comparison of `examples/parseownsyntax` on grammars with symbols of any type

`bnf.Symbol` is an interface (ast.go:16-22).  `Model/Ast.lean` and `Model/Examples.lean` know the package's own three
types; here a symbol can also be nil or of any other type (a pointer to one of the three types included).
Simplification: what the methods of a foreign symbol do does not change from call to call.
-/

namespace LL1
namespace AnySym

/-- What a panic carries: a method call on a nil interface, a failed type assertion, or a value thrown by a method of the
caller's own type. -/
inductive Panic where
  | nilMethod
  | conversion
  | thrown (v : Str)
  deriving DecidableEq, Repr

/-- A value of the interface `bnf.Symbol` — ast.go:16-22: one of the package's own types, nil, or something else, of which
the results of `Type()` and `String()` are all that can be seen (`error v`: the method panics with `v`). -/
inductive Sym where
  | own (s : Symbol)
  | nil
  | other (type : Except Str Int) (text : Except Str Str)

/-- `Rule` — ast.go:96-99, with its `Substitution` and `Sequence`s (ast.go:86-93) as lists. -/
structure Rule where
  head : Str
  sequences : List (List Sym)

/-- `Grammar` — ast.go:119-121. -/
structure Grammar where
  rules : List Rule

/-- `symbol.String()` — ast.go:32-38, 49-71, 81-83 for the own types. -/
def Sym.string : Sym → Except Panic Str
  | .own s => .ok s.toStr
  | .nil => .error .nilMethod
  | .other _ (.ok t) => .ok t
  | .other _ (.error v) => .error (.thrown v)

/-- `symbol.Type()` — ast.go:28-30, 45-47, 77-79 for the own types, with the numbers of ast.go:8-12. -/
def Sym.type : Sym → Except Panic Int
  | .own (.nonTerminal _) => .ok 0
  | .own (.terminal _) => .ok 1
  | .own .nothing => .ok 2
  | .nil => .error .nilMethod
  | .other (.ok t) _ => .ok t
  | .other (.error v) _ => .error (.thrown v)

/-- The inner loop of `Rule.String` — ast.go:109-112; `sb` is what the builder holds. -/
def symbolsLoop (sb : Str) : List Sym → Except Panic Str
  | [] => .ok sb
  | y :: ys =>
    let sb := sb ++ [32]
    match y.string with
    | .error p => .error p
    | .ok t => symbolsLoop (sb ++ t) ys

/-- The outer loop of `Rule.String` — ast.go:105-113. -/
def sequencesLoop (sb : Str) (i : Nat) : List (List Sym) → Except Panic Str
  | [] => .ok sb
  | s :: ss =>
    let sb := if i > 0 then sb ++ [32, 124] else sb
    match symbolsLoop sb s with
    | .error p => .error p
    | .ok sb => sequencesLoop sb (i + 1) ss

/-- `Rule.String` — ast.go:101-116. -/
def Rule.string (r : Rule) : Except Panic Str :=
  sequencesLoop (ntString r.head ++ [32, 58, 58, 61]) 0 r.sequences

/-- The loop of `Grammar.String` — ast.go:133-136. -/
def rulesLoop (sb : Str) : List Rule → Except Panic Str
  | [] => .ok sb
  | r :: rs =>
    let sb := sb ++ [10]
    match r.string with
    | .error p => .error p
    | .ok t => rulesLoop (sb ++ t) rs

/-- `Grammar.String` — ast.go:123-139. -/
def Grammar.string (g : Grammar) : Except Panic Str :=
  match g.rules with
  | [] => .ok []
  | r :: rs =>
    match r.string with
    | .error p => .error p
    | .ok t => rulesLoop t rs

/-- How a comparison ends: with a result, a panic, or the end of the program with the message
`ERROR: unknown BNF type: <type>` and exit code 1. -/
inductive Cmp where
  | result (b : Bool)
  | panic (p : Panic)
  | exit (type : Int)
  deriving DecidableEq, Repr

/-- `a.(bnf.SymbolNonTerminal)` and its `Name`. -/
def asNonTerminal : Sym → Except Panic Str
  | .own (.nonTerminal n) => .ok n
  | .nil => .error .conversion
  | _ => .error .conversion

/-- `a.(bnf.SymbolTerminal)` and its `Name`. -/
def asTerminal : Sym → Except Panic Str
  | .own (.terminal n) => .ok n
  | _ => .error .conversion

/-- `isSymbolsEqual` — examples/parseownsyntax/main.go:27-50, with `isNonTerminalsEqual` and `isTerminalsEqual` (17-25). -/
def isSymbolsEqual (a b : Sym) : Cmp :=
  match a.type with
  | .error p => .panic p
  | .ok ta =>
    match b.type with
    | .error p => .panic p
    | .ok tb =>
      if ta ≠ tb then .result false
      else if ta = 0 then
        match asNonTerminal a with
        | .error p => .panic p
        | .ok n =>
          match asNonTerminal b with
          | .error p => .panic p
          | .ok n' => .result (decide (n = n'))
      else if ta = 1 then
        match asTerminal a with
        | .error p => .panic p
        | .ok n =>
          match asTerminal b with
          | .error p => .panic p
          | .ok n' => .result (decide (n = n'))
      else if ta = 2 then .result true
      else .exit ta

/-- `for i := range a { if !eq(a[i], b[i]) { return false } }; return true` (the lengths have been compared before) —
examples/parseownsyntax/main.go:57-63, 71-76, 93-99. -/
def compareLoop {α : Type} (eq : α → α → Cmp) : List α → List α → Cmp
  | x :: xs, y :: ys =>
    match eq x y with
    | .result true => compareLoop eq xs ys
    | c => c
  | _, _ => .result true

/-- `isSequencesEqual` — examples/parseownsyntax/main.go:52-64. -/
def isSequencesEqual (a b : List Sym) : Cmp :=
  if a.length ≠ b.length then .result false else compareLoop isSymbolsEqual a b

/-- `isSubstitutionsEqual` — examples/parseownsyntax/main.go:66-77. -/
def isSubstitutionsEqual (a b : List (List Sym)) : Cmp :=
  if a.length ≠ b.length then .result false else compareLoop isSequencesEqual a b

/-- `isRulesEqual` — examples/parseownsyntax/main.go:79-86. -/
def isRulesEqual (a b : Rule) : Cmp :=
  if a.head ≠ b.head then .result false else isSubstitutionsEqual a.sequences b.sequences

/-- `isGrammarsEqual` — examples/parseownsyntax/main.go:88-100. -/
def isGrammarsEqual (a b : Grammar) : Cmp :=
  if a.rules.length ≠ b.rules.length then .result false else compareLoop isRulesEqual a.rules b.rules

end AnySym
end LL1
