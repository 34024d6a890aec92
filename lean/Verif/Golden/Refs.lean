import Verif.Model.TestTools

/-!
# Reference outputs of the repository's parser and tree tests

Generated by `tools/gen_refs.py` from `/repo/test/parser` and `/repo/test/cst`.
-/

namespace LL1.Golden

/-- The tree in `TestFprintTreeNamed` (test/cst/cst_test.go). -/
def testTree : Node :=
  .mk 0 0 15 [
    .mk 1 0 15 [
      .mk 2 0 1 [
        .mk 8000 0 1 [],
        .mk 2 1 1 [
          .mk 8000 1 1 []]],
      .mk 8000 1 2 [],
      .mk 3 2 6 [
        .mk 3 2 5 [
          .mk 3 2 4 [
            .mk 3 2 3 [
              .mk 4 2 3 [
                .mk 8000 2 3 []]],
            .mk 5 3 4 [
              .mk 4 3 4 [
                .mk 8000 3 4 []]]],
          .mk 5 4 5 [
            .mk 4 4 5 [
              .mk 8000 4 5 []]]],
        .mk 5 5 6 [
          .mk 4 5 6 [
            .mk 8000 5 6 []]]],
      .mk 8000 6 7 [],
      .mk 2 7 8 [
        .mk 8000 7 8 [],
        .mk 2 8 8 [
          .mk 8000 8 8 []]],
      .mk 8000 8 11 [],
      .mk 2 11 12 [
        .mk 8000 11 12 [],
        .mk 2 12 12 [
          .mk 8000 12 12 []]],
      .mk 6 12 15 [
        .mk 8 12 15 [
          .mk 9 12 15 [
            .mk 10 12 15 [
              .mk 8000 12 13 [],
              .mk 11 13 14 [
                .mk 12 13 14 [
                  .mk 13 13 14 [
                    .mk 4 13 14 [
                      .mk 8000 13 14 []]]],
                .mk 11 14 14 [
                  .mk 8000 14 14 []]],
              .mk 8000 14 15 []]]]],
      .mk 7 15 15 [
        .mk 2 15 15 [
          .mk 8000 15 15 []],
        .mk 8001 15 15 []]]]

/-- `typeNames` there. -/
def testTreeNames : Names := [(0, b!"syntax"), (1, b!"rule"), (2, b!"opt-whitespace"), (3, b!"rule-name"), (4, b!"letter"), (5, b!"rule-char"), (6, b!"expression"), (7, b!"line-end"), (8, b!"line-end-repeat"), (9, b!"list"), (10, b!"term"), (11, b!"literal"), (12, b!"text1"), (13, b!"character1"), (14, b!"character"), (8000, b!"_literal"), (8001, b!"EOL"), (-3, b!"_nothing")]

/-- `str` there. -/
def testTreeText : Str := b!" <Expr> ::= \"A\""

/-- `refTestFprintTreeNamed.bin`. -/
def testTreePrinted : Str :=
  b!"syntax: string( <Expr> ::= \"A\")\n" ++ (
  b!"  rule: string( <Expr> ::= \"A\")\n" ++ (
  b!"    opt-whitespace: string( )\n" ++ (
  b!"      _literal: string( )\n" ++ (
  b!"      opt-whitespace: string()\n" ++ (
  b!"        _literal: string()\n" ++ (
  b!"    _literal: string(<)\n" ++ (
  b!"    rule-name: string(Expr)\n" ++ (
  b!"      rule-name: string(Exp)\n" ++ (
  b!"        rule-name: string(Ex)\n" ++ (
  b!"          rule-name: string(E)\n" ++ (
  b!"            letter: string(E)\n" ++ (
  b!"              _literal: string(E)\n" ++ (
  b!"          rule-char: string(x)\n" ++ (
  b!"            letter: string(x)\n" ++ (
  b!"              _literal: string(x)\n" ++ (
  b!"        rule-char: string(p)\n" ++ (
  b!"          letter: string(p)\n" ++ (
  b!"            _literal: string(p)\n" ++ (
  b!"      rule-char: string(r)\n" ++ (
  b!"        letter: string(r)\n" ++ (
  b!"          _literal: string(r)\n" ++ (
  b!"    _literal: string(>)\n" ++ (
  b!"    opt-whitespace: string( )\n" ++ (
  b!"      _literal: string( )\n" ++ (
  b!"      opt-whitespace: string()\n" ++ (
  b!"        _literal: string()\n" ++ (
  b!"    _literal: string(::=)\n" ++ (
  b!"    opt-whitespace: string( )\n" ++ (
  b!"      _literal: string( )\n" ++ (
  b!"      opt-whitespace: string()\n" ++ (
  b!"        _literal: string()\n" ++ (
  b!"    expression: string(\"A\")\n" ++ (
  b!"      line-end-repeat: string(\"A\")\n" ++ (
  b!"        list: string(\"A\")\n" ++ (
  b!"          term: string(\"A\")\n" ++ (
  b!"            _literal: string(\")\n" ++ (
  b!"            literal: string(A)\n" ++ (
  b!"              text1: string(A)\n" ++ (
  b!"                character1: string(A)\n" ++ (
  b!"                  letter: string(A)\n" ++ (
  b!"                    _literal: string(A)\n" ++ (
  b!"              literal: string()\n" ++ (
  b!"                _literal: string()\n" ++ (
  b!"            _literal: string(\")\n" ++ (
  b!"    line-end: string()\n" ++ (
  b!"      opt-whitespace: string()\n" ++ (
  b!"        _literal: string()\n" ++ (
  b!"      EOL: string()\n"))))))))))))))))))))))))))))))))))))))))))))))))

/-- Grammar, input, printed tree (`%v`), printed names map (`%v`). -/
def parserRefs : List (String × Str × Str × Str) := [
  ("or", b!"\"B^",
    b!"{0 0 3 [{-1 0 1 []} {1 1 2 [{-1 1 2 []}]} {-1 2 3 []}]}",
    b!"map[-2:_nothing -1:_literal 0:A 1:T]"),
  ("or", b!"\"^",
    b!"{0 0 2 [{-1 0 1 []} {1 1 1 [{-2 1 1 []}]} {-1 1 2 []}]}",
    b!"map[-2:_nothing -1:_literal 0:A 1:T]"),
  ("resolvedLRecursive", b!"_B",
    b!"{0 0 2 [{-1 0 1 []} {1 1 2 [{-1 1 2 []} {1 2 2 [{-2 2 2 []}]}]}]}",
    b!"map[-2:_nothing -1:_literal 0:T 1:Ta]"),
  ("resolvedLRecursive", b!"_",
    b!"{0 0 1 [{-1 0 1 []} {1 1 1 [{-2 1 1 []}]}]}",
    b!"map[-2:_nothing -1:_literal 0:T 1:Ta]"),
  ("resolvedLRecursive", b!"_BBBBBBB",
    b!"{0 0 8 [{-1 0 1 []} {1 1 8 [{-1 1 2 []} {1 2 8 [{-1 2 3 []} {1 3 8 [{-1 3 4 []} {1 4 8 [{-1 4 5 []} {1 5 8 [{-1 5 6 []} {1 6 8 [{-1 6 7 []} {1 7 8 [{-1 7 8 []} {1 8 8 [{-2 8 8 []}]}]}]}]}]}]}]}]}]}",
    b!"map[-2:_nothing -1:_literal 0:T 1:Ta]"),
  ("linearMultiRule", b!"A::=C",
    b!"{0 0 5 [{-1 0 1 []} {-1 1 4 []} {1 4 5 [{-1 4 5 []}]}]}",
    b!"map[-2:_nothing -1:_literal 0:Expr 1:T]")]

/-- Input and error message for the grammar `linearMultiRule`. -/
def parserErrors : List (Str × Str) := [
  (b!"!::=C", b!"no rules for '!' (33) and non terminal op <Expr>"),
  (b!"A:!=C", b!"expected char ':' (58), got '!' (33)"),
  (b!"A::=!", b!"no rules for '!' (33) and non terminal op <T>"),
  (b!"A::=C!", b!"expected end of input got '!' (33)")]

end LL1.Golden
