import Verif.Golden.TestGrammars
import Verif.Model.Parser
import Verif.Spec.Derivation

/-!
# The languages of the repository's test grammars, and the trees of their sentences

`/repo/test/testgrammars/testgrammars.go` and the hand-written table of
`/repo/test/parser/parser_test.go:18-66`, described without grammars, tables or parsers. A node is `⟨id, pos, end, children⟩`; id `-1` is
a literal, id `-2` "nothing".
-/

namespace LL1.TestLang

/-- `LinearMultiRule` (testgrammars.go:8-9): one sentence, `A::=C`. -/
def linear : Str := b!"A::=C"

/-- The tree of `A::=C`: the literals `A` and `::=`, then rule 1 with the literal `C`. -/
def linearTree : Node := .mk 0 0 5 [.mk (-1) 0 1 [], .mk (-1) 1 4 [], .mk 1 4 5 [.mk (-1) 4 5 []]]

/-- `Or` (testgrammars.go:56-57): three sentences, `"B^`, `"C^` and `"^`. -/
inductive IsOr : Str → Node → Prop
  | b : IsOr b!"\"B^" (.mk 0 0 3 [.mk (-1) 0 1 [], .mk 1 1 2 [.mk (-1) 1 2 []], .mk (-1) 2 3 []])
  | c : IsOr b!"\"C^" (.mk 0 0 3 [.mk (-1) 0 1 [], .mk 1 1 2 [.mk (-1) 1 2 []], .mk (-1) 2 3 []])
  | none : IsOr b!"\"^" (.mk 0 0 2 [.mk (-1) 0 1 [], .mk 1 1 1 [.mk (-2) 1 1 []], .mk (-1) 1 2 []])

/-- `ResolvedLRecursive` (testgrammars.go:155-157): `_` followed by any number of `B`. -/
def resolved (n : Nat) : Str := 95 :: List.replicate n 66

/-- The node of rule 1 over `n` letters `B` from offset `i`: the first `B`, then the node of the others. -/
def chain : Nat → Nat → Node
  | i, 0 => .mk 1 i i [.mk (-2) i i []]
  | i, n + 1 => .mk 1 i (i + (n + 1)) [.mk (-1) i (i + 1) [], chain (i + 1) n]

/-- The tree of `_BB…B`. -/
def resolvedTree (n : Nat) : Node := .mk 0 0 (n + 1) [.mk (-1) 0 1 [], chain 1 n]

/-- The hand-written table of `TestCustomParserCanParse` (parser_test.go:30-52). -/
def customTable : Table := [
  (0, [(34, [.terminal b!"\"", .nonTerminal 1, .terminal b!"^", .nonTerminal 2])]),
  (1, [(66, [.terminal b!"B"]), (67, [.terminal b!"C"])]),
  (2, [(10, [.terminal b!"\n"])])]

/-- Its two sentences, `"B^` and `"C^` with a line feed, and their common tree. -/
def IsCustom (w : Str) (t : Node) : Prop :=
  (w = b!"\"B^\n" ∨ w = b!"\"C^\n") ∧
  t = .mk 0 0 4 [.mk (-1) 0 1 [], .mk 1 1 2 [.mk (-1) 1 2 []], .mk (-1) 2 3 [], .mk 2 3 4 [.mk (-1) 3 4 []]]

end LL1.TestLang
