import Verif.Model.Basic

/-!
# Model of `pkg/bnf/ast.go`

Simplification: the `Symbol` interface is closed — exactly the three kinds the package defines
(a nil `Symbol` or a type from another package is not modelled).
-/

namespace LL1

/-- `Symbol` and its three implementations — ast.go:16-26, 41-43, 74-75. -/
inductive Symbol where
  | nonTerminal (name : Str)
  | terminal (name : Str)
  | nothing
  deriving DecidableEq, Repr

/-- `type Sequence struct` — ast.go:86-88. -/
structure Sequence where
  symbols : List Symbol
  deriving DecidableEq, Repr

/-- `type Substitution struct` — ast.go:91-93. -/
structure Substitution where
  sequences : List Sequence
  deriving DecidableEq, Repr

/-- `type Rule struct` — ast.go:96-99; `head` is `Head.Name`. -/
structure Rule where
  head : Str
  tail : Substitution
  deriving DecidableEq, Repr

/-- `type Grammar struct` — ast.go:119-121. -/
structure Grammar where
  rules : List Rule
  deriving DecidableEq, Repr

/-- `strings.ReplaceAll(s, old, new)` for a one-byte `old` (the only use) — ast.go:52-55,66. -/
def replaceAll (s : Str) (old : UInt8) (new : Str) : Str :=
  s.flatMap fun c => if c = old then new else [c]

/-- `SymbolNonTerminal.String` — ast.go:32-38. -/
def ntString (name : Str) : Str := 60 :: (name ++ [62])

/-- The body escapes common to both quoting styles — ast.go:51-55. -/
def escapeBody (name : Str) : Str :=
  let res := name
  let res := replaceAll res 92 [92, 92]     -- \  -> \\
  let res := replaceAll res 9 [92, 116]     -- TAB -> \t
  let res := replaceAll res 10 [92, 110]    -- LF -> \n
  let res := replaceAll res 13 [92, 114]    -- CR -> \r
  res

/-- `SymbolTerminal.String` — ast.go:49-71. (`strings.ContainsRune` with an ASCII rune is byte
membership.) -/
def termString (name : Str) : Str :=
  let res := escapeBody name
  if res.contains 34 && !res.contains 39 then
    39 :: (res ++ [39])
  else
    let res := replaceAll res 34 [92, 34]   -- "  -> \"
    34 :: (res ++ [34])

/-- `Symbol.String` — ast.go:32-38, 49-71, 81-83. -/
def Symbol.toStr : Symbol → Str
  | .nonTerminal n => ntString n
  | .terminal n => termString n
  | .nothing => [34, 34]

/-- The inner loop of `Rule.String` — ast.go:109-112. -/
def Sequence.toStr (s : Sequence) : Str :=
  s.symbols.flatMap fun y => 32 :: y.toStr

/-- The outer loop of `Rule.String` — ast.go:105-113; `first` is `i == 0`. -/
def seqsToStr : (first : Bool) → List Sequence → Str
  | _, [] => []
  | first, s :: ss => (if first then [] else [32, 124]) ++ s.toStr ++ seqsToStr false ss

/-- `Rule.String` — ast.go:101-116. -/
def Rule.toStr (r : Rule) : Str :=
  ntString r.head ++ [32, 58, 58, 61] ++ seqsToStr true r.tail.sequences

/-- `Grammar.String` — ast.go:123-139. -/
def Grammar.toStr (g : Grammar) : Str :=
  match g.rules with
  | [] => []
  | r :: rs => r.toStr ++ rs.flatMap fun r => 10 :: r.toStr

end LL1
