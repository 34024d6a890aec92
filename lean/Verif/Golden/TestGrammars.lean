import Verif.Model.Ast

/-!
# `test/testgrammars/testgrammars.go`

Generated by `tools/gen_selfgrammar.py` from the Go literals.
-/

namespace LL1.Golden

/-- `LinearMultiRule` — testgrammars.go:10. -/
def linearMultiRule : Grammar :=
{ rules := [
  -- rule 0, line 15
  ⟨b!"Expr", ⟨[
    ⟨[.terminal b!"A", .terminal b!"::=", .nonTerminal b!"T"]⟩]⟩⟩,
  -- rule 1, line 38
  ⟨b!"T", ⟨[
    ⟨[.terminal b!"C"]⟩]⟩⟩
] }

/-- `Or` — testgrammars.go:58. -/
def or : Grammar :=
{ rules := [
  -- rule 0, line 63
  ⟨b!"A", ⟨[
    ⟨[.terminal b!"\"", .nonTerminal b!"T", .terminal b!"^"]⟩]⟩⟩,
  -- rule 1, line 86
  ⟨b!"T", ⟨[
    ⟨[.terminal b!"B"]⟩, ⟨[.terminal b!"C"]⟩, ⟨[.nothing]⟩]⟩⟩
] }

/-- `LRecursive` — testgrammars.go:117. -/
def lRecursive : Grammar :=
{ rules := [
  -- rule 0, line 122
  ⟨b!"T", ⟨[
    ⟨[.terminal b!"_"]⟩, ⟨[.nonTerminal b!"T", .terminal b!"B"]⟩]⟩⟩
] }

/-- `ResolvedLRecursive` — testgrammars.go:158. -/
def resolvedLRecursive : Grammar :=
{ rules := [
  -- rule 0, line 164
  ⟨b!"T", ⟨[
    ⟨[.terminal b!"_", .nonTerminal b!"Ta"]⟩]⟩⟩,
  -- rule 1, line 184
  ⟨b!"Ta", ⟨[
    ⟨[.nothing]⟩, ⟨[.terminal b!"B", .nonTerminal b!"Ta"]⟩]⟩⟩
] }

end LL1.Golden
