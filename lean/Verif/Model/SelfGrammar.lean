import Verif.Model.Ast

/-!
# `pkg/bnf/selfgrammar.go`

Generated by `tools/gen_selfgrammar.py` from the Go literal, symbol by symbol.
-/

namespace LL1

/-- `SelfGrammar` — selfgrammar.go:58-1335. -/
def selfGrammar : Grammar :=
{ rules := [
  -- rule 0, line 63
  ⟨b!"syntax", ⟨[
    ⟨[.nonTerminal b!"opt-whitespace", .nonTerminal b!"content", .nonTerminal b!"more-lines"]⟩]⟩⟩,
  -- rule 1, line 85
  ⟨b!"more-lines", ⟨[
    ⟨[.nothing]⟩, ⟨[.nonTerminal b!"EOL", .nonTerminal b!"line", .nonTerminal b!"more-lines"]⟩]⟩⟩,
  -- rule 2, line 112
  ⟨b!"line", ⟨[
    ⟨[.nonTerminal b!"opt-whitespace", .nonTerminal b!"opt-content"]⟩]⟩⟩,
  -- rule 3, line 134
  ⟨b!"opt-content", ⟨[
    ⟨[.nonTerminal b!"content"]⟩, ⟨[.nothing]⟩]⟩⟩,
  -- rule 4, line 155
  ⟨b!"content", ⟨[

    ⟨[.terminal b!"<", .nonTerminal b!"rule-name", .terminal b!">", .nonTerminal b!"opt-whitespace", .terminal b!"::=", .nonTerminal b!"opt-whitespace", .nonTerminal b!"expression"]⟩]⟩⟩,
  -- rule 5, line 189
  ⟨b!"expression", ⟨[
    ⟨[.nonTerminal b!"list", .nonTerminal b!"expression-tail"]⟩]⟩⟩,
  -- rule 6, line 208
  ⟨b!"expression-tail", ⟨[
    ⟨[.nothing]⟩,
    ⟨[.terminal b!"|", .nonTerminal b!"opt-whitespace", .nonTerminal b!"list", .nonTerminal b!"expression-tail"]⟩]⟩⟩,
  -- rule 7, line 238
  ⟨b!"list", ⟨[
    ⟨[.nonTerminal b!"term", .nonTerminal b!"opt-whitespace", .nonTerminal b!"list-tail"]⟩]⟩⟩,
  -- rule 8, line 260
  ⟨b!"list-tail", ⟨[
    ⟨[.nothing]⟩,
    ⟨[.nonTerminal b!"term", .nonTerminal b!"opt-whitespace", .nonTerminal b!"list-tail"]⟩]⟩⟩,
  -- rule 9, line 287
  ⟨b!"term", ⟨[
    ⟨[.nonTerminal b!"literal"]⟩,
    ⟨[.terminal b!"<", .nonTerminal b!"rule-name", .terminal b!">"]⟩]⟩⟩,
  -- rule 10, line 315
  ⟨b!"literal", ⟨[
    ⟨[.terminal b!"\"", .nonTerminal b!"text1", .terminal b!"\""]⟩,
    ⟨[.terminal b!"'", .nonTerminal b!"text2", .terminal b!"'"]⟩]⟩⟩,
  -- rule 11, line 350
  ⟨b!"text1", ⟨[
    ⟨[.nothing]⟩, ⟨[.nonTerminal b!"character1", .nonTerminal b!"text1"]⟩]⟩⟩,
  -- rule 12, line 374
  ⟨b!"text2", ⟨[
    ⟨[.nothing]⟩, ⟨[.nonTerminal b!"character2", .nonTerminal b!"text2"]⟩]⟩⟩,
  -- rule 13, line 398
  ⟨b!"character1", ⟨[
    ⟨[.terminal b!"'"]⟩, ⟨[.nonTerminal b!"character"]⟩]⟩⟩,
  -- rule 14, line 421
  ⟨b!"character2", ⟨[
    ⟨[.terminal b!"\""]⟩, ⟨[.nonTerminal b!"character"]⟩]⟩⟩,
  -- rule 15, line 444
  ⟨b!"character", ⟨[
    ⟨[.nonTerminal b!"letter"]⟩, ⟨[.nonTerminal b!"digit"]⟩, ⟨[.nonTerminal b!"symbol"]⟩,
    ⟨[.nonTerminal b!"escape-sequence"]⟩]⟩⟩,
  -- rule 16, line 481
  ⟨b!"escape-sequence", ⟨[
    ⟨[.terminal b!"\\", .nonTerminal b!"escaped-char"]⟩]⟩⟩,
  -- rule 17, line 500
  ⟨b!"escaped-char", ⟨[
    ⟨[.terminal b!"t"]⟩, ⟨[.terminal b!"n"]⟩, ⟨[.terminal b!"r"]⟩, ⟨[.terminal b!"\""]⟩,
    ⟨[.terminal b!"\\"]⟩]⟩⟩,
  -- rule 18, line 544
  ⟨b!"rule-name", ⟨[
    ⟨[.nonTerminal b!"letter", .nonTerminal b!"rule-name-tail"]⟩]⟩⟩,
  -- rule 19, line 563
  ⟨b!"rule-name-tail", ⟨[
    ⟨[.nothing]⟩, ⟨[.nonTerminal b!"rule-char", .nonTerminal b!"rule-name-tail"]⟩]⟩⟩,
  -- rule 20, line 587
  ⟨b!"rule-char", ⟨[
    ⟨[.nonTerminal b!"letter"]⟩, ⟨[.nonTerminal b!"digit"]⟩, ⟨[.terminal b!"-"]⟩]⟩⟩,
  -- rule 21, line 617
  ⟨b!"letter", ⟨[
    ⟨[.terminal b!"A"]⟩, ⟨[.terminal b!"B"]⟩, ⟨[.terminal b!"C"]⟩, ⟨[.terminal b!"D"]⟩,
    ⟨[.terminal b!"E"]⟩, ⟨[.terminal b!"F"]⟩, ⟨[.terminal b!"G"]⟩, ⟨[.terminal b!"H"]⟩,
    ⟨[.terminal b!"I"]⟩, ⟨[.terminal b!"J"]⟩, ⟨[.terminal b!"K"]⟩, ⟨[.terminal b!"L"]⟩,
    ⟨[.terminal b!"M"]⟩, ⟨[.terminal b!"N"]⟩, ⟨[.terminal b!"O"]⟩, ⟨[.terminal b!"P"]⟩,
    ⟨[.terminal b!"Q"]⟩, ⟨[.terminal b!"R"]⟩, ⟨[.terminal b!"S"]⟩, ⟨[.terminal b!"T"]⟩,
    ⟨[.terminal b!"U"]⟩, ⟨[.terminal b!"V"]⟩, ⟨[.terminal b!"W"]⟩, ⟨[.terminal b!"X"]⟩,
    ⟨[.terminal b!"Y"]⟩, ⟨[.terminal b!"Z"]⟩, ⟨[.terminal b!"a"]⟩, ⟨[.terminal b!"b"]⟩,
    ⟨[.terminal b!"c"]⟩, ⟨[.terminal b!"d"]⟩, ⟨[.terminal b!"e"]⟩, ⟨[.terminal b!"f"]⟩,
    ⟨[.terminal b!"g"]⟩, ⟨[.terminal b!"h"]⟩, ⟨[.terminal b!"i"]⟩, ⟨[.terminal b!"j"]⟩,
    ⟨[.terminal b!"k"]⟩, ⟨[.terminal b!"l"]⟩, ⟨[.terminal b!"m"]⟩, ⟨[.terminal b!"n"]⟩,
    ⟨[.terminal b!"o"]⟩, ⟨[.terminal b!"p"]⟩, ⟨[.terminal b!"q"]⟩, ⟨[.terminal b!"r"]⟩,
    ⟨[.terminal b!"s"]⟩, ⟨[.terminal b!"t"]⟩, ⟨[.terminal b!"u"]⟩, ⟨[.terminal b!"v"]⟩,
    ⟨[.terminal b!"w"]⟩, ⟨[.terminal b!"x"]⟩, ⟨[.terminal b!"y"]⟩, ⟨[.terminal b!"z"]⟩]⟩⟩,
  -- rule 22, line 990
  ⟨b!"digit", ⟨[
    ⟨[.terminal b!"0"]⟩, ⟨[.terminal b!"1"]⟩, ⟨[.terminal b!"2"]⟩, ⟨[.terminal b!"3"]⟩,
    ⟨[.terminal b!"4"]⟩, ⟨[.terminal b!"5"]⟩, ⟨[.terminal b!"6"]⟩, ⟨[.terminal b!"7"]⟩,
    ⟨[.terminal b!"8"]⟩, ⟨[.terminal b!"9"]⟩]⟩⟩,
  -- rule 23, line 1069
  ⟨b!"symbol", ⟨[
    ⟨[.terminal b!"|"]⟩, ⟨[.terminal b!" "]⟩, ⟨[.terminal b!"!"]⟩, ⟨[.terminal b!"#"]⟩,
    ⟨[.terminal b!"$"]⟩, ⟨[.terminal b!"%"]⟩, ⟨[.terminal b!"&"]⟩, ⟨[.terminal b!"("]⟩,
    ⟨[.terminal b!")"]⟩, ⟨[.terminal b!"*"]⟩, ⟨[.terminal b!"+"]⟩, ⟨[.terminal b!","]⟩,
    ⟨[.terminal b!"-"]⟩, ⟨[.terminal b!"."]⟩, ⟨[.terminal b!"/"]⟩, ⟨[.terminal b!":"]⟩,
    ⟨[.terminal b!";"]⟩, ⟨[.terminal b!">"]⟩, ⟨[.terminal b!"="]⟩, ⟨[.terminal b!"<"]⟩,
    ⟨[.terminal b!"?"]⟩, ⟨[.terminal b!"@"]⟩, ⟨[.terminal b!"["]⟩, ⟨[.terminal b!"]"]⟩,
    ⟨[.terminal b!"^"]⟩, ⟨[.terminal b!"_"]⟩, ⟨[.terminal b!"`"]⟩, ⟨[.terminal b!"{"]⟩,
    ⟨[.terminal b!"}"]⟩, ⟨[.terminal b!"~"]⟩]⟩⟩,
  -- rule 24, line 1288
  ⟨b!"opt-whitespace", ⟨[
    ⟨[.terminal b!" ", .nonTerminal b!"opt-whitespace"]⟩, ⟨[.nothing]⟩]⟩⟩,
  -- rule 25, line 1312
  ⟨b!"EOL", ⟨[
    ⟨[.terminal b!"\n"]⟩, ⟨[.terminal b!"\r\n"]⟩]⟩⟩
] }

end LL1
