import Verif.Model.Ast

/-!
# `examples/json/json.bnf`

Generated by `tools/gen_json.py`: the text of the file, the grammar it stands for (a separate reading by
the script), and the layout that turns the grammar into the text.
-/

namespace LL1.Golden

/-- The contents of examples/json/json.bnf. -/
def jsonBnfText : Str :=
  b!"<json> ::= <element>\n" ++
  b!"<element> ::= <opt-whitespaced-value>\n" ++
  b!"<opt-value-list> ::=  \"\" | <opt-whitespaced-value> <opt-value-list-tail>\n" ++
  b!"<opt-value-list-tail> ::= \"\" | \",\" <opt-whitespaced-value> <opt-value-list-tail>\n" ++
  b!"<opt-key-value-list> ::= \"\" | <key-value> <opt-whitespace> <opt-key-value-list-tail>\n" ++
  b!"<opt-key-value-list-tail> ::= \"\" | \",\" <opt-whitespace> <key-value> <opt-whitespace> <opt-key-value-list-tail>\n" ++
  b!"<key-value> ::= <string> <opt-whitespace> \":\" <opt-whitespace> <value>\n" ++
  b!"<opt-whitespaced-value> ::= <opt-whitespace> <value> <opt-whitespace>\n" ++
  b!"<value> ::= <object> | <array> | <string> | <number> | \"true\" | \"false\" | \"null\"\n" ++
  b!"<object> ::= \"{\" <opt-whitespace> <opt-key-value-list> \"}\"\n" ++
  b!"<array> ::= \"[\" <opt-value-list> \"]\"\n" ++
  b!"<string> ::= '\"' <text> '\"'\n" ++
  b!"<text> ::= \"\" | <character> <text>\n" ++
  b!"<character> ::= <digit> | <letter> | <escape-sequence> | <symbol>\n" ++
  b!"<escape-sequence> ::= '\\\\' <escape>\n" ++
  b!"<escape> ::= '\"' | '\\\\' | '/' | 'b' | 'f' | 'n' | 'r' | 't' | 'u' <hex> <hex> <hex>\n" ++
  b!"<hex> ::= <digit> | \"A\" | \"B\" | \"C\" | \"D\" | \"E\" | \"F\" | \"a\" | \"b\" | \"c\" | \"d\" | \"e\" | \"f\"\n" ++
  b!"<number> ::= <integer> <fraction> <exponent>\n" ++
  b!"<integer> ::= <opt-minus> <unsigned-integer>\n" ++
  b!"<unsigned-integer> ::= \"0\" | <one-nine> <opt-digits>\n" ++
  b!"<opt-minus> ::= \"\" | \"-\"\n" ++
  b!"<fraction> ::= \"\" | \".\" <digits>\n" ++
  b!"<exponent> ::= \"\" | \"E\" <opt-sign> <digits> | \"e\" <opt-sign> <digits>\n" ++
  b!"<digits> ::= <digit> <opt-digits>\n" ++
  b!"<opt-digits> ::= \"\" | <digit> <opt-digits>\n" ++
  b!"<opt-sign> ::= \"\" | \"+\" | \"-\"\n" ++
  b!"<digit> ::= \"0\" | <one-nine>\n" ++
  b!"<one-nine> ::= \"1\" | \"2\" | \"3\" | \"4\" | \"5\" | \"6\" | \"7\" | \"8\" | \"9\"\n" ++
  b!"<letter> ::= \"A\" | \"B\" | \"C\" | \"D\" | \"E\" | \"F\" | \"G\" | \"H\" | \"I\" | \"J\" | \"K\" | \"L\" | \"M\" | \"N\" | \"O\" | \"P\" | \"Q\" | \"R\" | \"S\" | \"T\" | \"U\" | \"V\" | \"W\" | \"X\" | \"Y\" | \"Z\" | \"a\" | \"b\" | \"c\" | \"d\" | \"e\" | \"f\" | \"g\" | \"h\" | \"i\" | \"j\" | \"k\" | \"l\" | \"m\" | \"n\" | \"o\" | \"p\" | \"q\" | \"r\" | \"s\" | \"t\" | \"u\" | \"v\" | \"w\" | \"x\" | \"y\" | \"z\"\n" ++
  b!"<symbol> ::= \"|\" | \" \" | \"!\" | \"#\" | \"$\" | \"%\" | \"&\" | \"(\" | \")\" | \"*\" | \"+\" | \",\" | \"-\" | \".\" | \"/\" | \":\" | \";\" | \">\" | \"=\" | \"<\" | \"?\" | \"@\" | \"[\" | \"]\" | \"^\" | \"_\" | \"`\" | \"{\" | \"}\" | \"~\" | \"'\"\n" ++
  b!"<opt-whitespace> ::= \"\" | <space-symobls> <opt-whitespace>\n" ++
  b!"<space-symobls> ::= \" \" | <EOL>\n" ++
  b!"<EOL> ::= \"\\n\" | \"\\r\\n\"\n"

/-- The grammar written in examples/json/json.bnf. -/
def jsonGrammar : Grammar :=
{ rules := [
  -- rule 0, json.bnf:1
  ⟨b!"json", ⟨[
    ⟨[.nonTerminal b!"element"]⟩]⟩⟩,
  -- rule 1, json.bnf:2
  ⟨b!"element", ⟨[
    ⟨[.nonTerminal b!"opt-whitespaced-value"]⟩]⟩⟩,
  -- rule 2, json.bnf:3
  ⟨b!"opt-value-list", ⟨[
    ⟨[.nothing]⟩, ⟨[.nonTerminal b!"opt-whitespaced-value", .nonTerminal b!"opt-value-list-tail"]⟩]⟩⟩,
  -- rule 3, json.bnf:4
  ⟨b!"opt-value-list-tail", ⟨[
    ⟨[.nothing]⟩,
    ⟨[.terminal b!",", .nonTerminal b!"opt-whitespaced-value", .nonTerminal b!"opt-value-list-tail"]⟩]⟩⟩,
  -- rule 4, json.bnf:5
  ⟨b!"opt-key-value-list", ⟨[
    ⟨[.nothing]⟩,
    ⟨[.nonTerminal b!"key-value", .nonTerminal b!"opt-whitespace", .nonTerminal b!"opt-key-value-list-tail"]⟩]⟩⟩,
  -- rule 5, json.bnf:6
  ⟨b!"opt-key-value-list-tail", ⟨[
    ⟨[.nothing]⟩,
    ⟨[.terminal b!",", .nonTerminal b!"opt-whitespace", .nonTerminal b!"key-value", .nonTerminal b!"opt-whitespace", .nonTerminal b!"opt-key-value-list-tail"]⟩]⟩⟩,
  -- rule 6, json.bnf:7
  ⟨b!"key-value", ⟨[

    ⟨[.nonTerminal b!"string", .nonTerminal b!"opt-whitespace", .terminal b!":", .nonTerminal b!"opt-whitespace", .nonTerminal b!"value"]⟩]⟩⟩,
  -- rule 7, json.bnf:8
  ⟨b!"opt-whitespaced-value", ⟨[
    ⟨[.nonTerminal b!"opt-whitespace", .nonTerminal b!"value", .nonTerminal b!"opt-whitespace"]⟩]⟩⟩,
  -- rule 8, json.bnf:9
  ⟨b!"value", ⟨[
    ⟨[.nonTerminal b!"object"]⟩, ⟨[.nonTerminal b!"array"]⟩, ⟨[.nonTerminal b!"string"]⟩,
    ⟨[.nonTerminal b!"number"]⟩, ⟨[.terminal b!"true"]⟩, ⟨[.terminal b!"false"]⟩,
    ⟨[.terminal b!"null"]⟩]⟩⟩,
  -- rule 9, json.bnf:10
  ⟨b!"object", ⟨[

    ⟨[.terminal b!"{", .nonTerminal b!"opt-whitespace", .nonTerminal b!"opt-key-value-list", .terminal b!"}"]⟩]⟩⟩,
  -- rule 10, json.bnf:11
  ⟨b!"array", ⟨[
    ⟨[.terminal b!"[", .nonTerminal b!"opt-value-list", .terminal b!"]"]⟩]⟩⟩,
  -- rule 11, json.bnf:12
  ⟨b!"string", ⟨[
    ⟨[.terminal b!"\"", .nonTerminal b!"text", .terminal b!"\""]⟩]⟩⟩,
  -- rule 12, json.bnf:13
  ⟨b!"text", ⟨[
    ⟨[.nothing]⟩, ⟨[.nonTerminal b!"character", .nonTerminal b!"text"]⟩]⟩⟩,
  -- rule 13, json.bnf:14
  ⟨b!"character", ⟨[
    ⟨[.nonTerminal b!"digit"]⟩, ⟨[.nonTerminal b!"letter"]⟩, ⟨[.nonTerminal b!"escape-sequence"]⟩,
    ⟨[.nonTerminal b!"symbol"]⟩]⟩⟩,
  -- rule 14, json.bnf:15
  ⟨b!"escape-sequence", ⟨[
    ⟨[.terminal b!"\\", .nonTerminal b!"escape"]⟩]⟩⟩,
  -- rule 15, json.bnf:16
  ⟨b!"escape", ⟨[
    ⟨[.terminal b!"\""]⟩, ⟨[.terminal b!"\\"]⟩, ⟨[.terminal b!"/"]⟩, ⟨[.terminal b!"b"]⟩,
    ⟨[.terminal b!"f"]⟩, ⟨[.terminal b!"n"]⟩, ⟨[.terminal b!"r"]⟩, ⟨[.terminal b!"t"]⟩,
    ⟨[.terminal b!"u", .nonTerminal b!"hex", .nonTerminal b!"hex", .nonTerminal b!"hex"]⟩]⟩⟩,
  -- rule 16, json.bnf:17
  ⟨b!"hex", ⟨[
    ⟨[.nonTerminal b!"digit"]⟩, ⟨[.terminal b!"A"]⟩, ⟨[.terminal b!"B"]⟩, ⟨[.terminal b!"C"]⟩,
    ⟨[.terminal b!"D"]⟩, ⟨[.terminal b!"E"]⟩, ⟨[.terminal b!"F"]⟩, ⟨[.terminal b!"a"]⟩,
    ⟨[.terminal b!"b"]⟩, ⟨[.terminal b!"c"]⟩, ⟨[.terminal b!"d"]⟩, ⟨[.terminal b!"e"]⟩,
    ⟨[.terminal b!"f"]⟩]⟩⟩,
  -- rule 17, json.bnf:18
  ⟨b!"number", ⟨[
    ⟨[.nonTerminal b!"integer", .nonTerminal b!"fraction", .nonTerminal b!"exponent"]⟩]⟩⟩,
  -- rule 18, json.bnf:19
  ⟨b!"integer", ⟨[
    ⟨[.nonTerminal b!"opt-minus", .nonTerminal b!"unsigned-integer"]⟩]⟩⟩,
  -- rule 19, json.bnf:20
  ⟨b!"unsigned-integer", ⟨[
    ⟨[.terminal b!"0"]⟩, ⟨[.nonTerminal b!"one-nine", .nonTerminal b!"opt-digits"]⟩]⟩⟩,
  -- rule 20, json.bnf:21
  ⟨b!"opt-minus", ⟨[
    ⟨[.nothing]⟩, ⟨[.terminal b!"-"]⟩]⟩⟩,
  -- rule 21, json.bnf:22
  ⟨b!"fraction", ⟨[
    ⟨[.nothing]⟩, ⟨[.terminal b!".", .nonTerminal b!"digits"]⟩]⟩⟩,
  -- rule 22, json.bnf:23
  ⟨b!"exponent", ⟨[
    ⟨[.nothing]⟩, ⟨[.terminal b!"E", .nonTerminal b!"opt-sign", .nonTerminal b!"digits"]⟩,
    ⟨[.terminal b!"e", .nonTerminal b!"opt-sign", .nonTerminal b!"digits"]⟩]⟩⟩,
  -- rule 23, json.bnf:24
  ⟨b!"digits", ⟨[
    ⟨[.nonTerminal b!"digit", .nonTerminal b!"opt-digits"]⟩]⟩⟩,
  -- rule 24, json.bnf:25
  ⟨b!"opt-digits", ⟨[
    ⟨[.nothing]⟩, ⟨[.nonTerminal b!"digit", .nonTerminal b!"opt-digits"]⟩]⟩⟩,
  -- rule 25, json.bnf:26
  ⟨b!"opt-sign", ⟨[
    ⟨[.nothing]⟩, ⟨[.terminal b!"+"]⟩, ⟨[.terminal b!"-"]⟩]⟩⟩,
  -- rule 26, json.bnf:27
  ⟨b!"digit", ⟨[
    ⟨[.terminal b!"0"]⟩, ⟨[.nonTerminal b!"one-nine"]⟩]⟩⟩,
  -- rule 27, json.bnf:28
  ⟨b!"one-nine", ⟨[
    ⟨[.terminal b!"1"]⟩, ⟨[.terminal b!"2"]⟩, ⟨[.terminal b!"3"]⟩, ⟨[.terminal b!"4"]⟩,
    ⟨[.terminal b!"5"]⟩, ⟨[.terminal b!"6"]⟩, ⟨[.terminal b!"7"]⟩, ⟨[.terminal b!"8"]⟩,
    ⟨[.terminal b!"9"]⟩]⟩⟩,
  -- rule 28, json.bnf:29
  ⟨b!"letter", ⟨[
    ⟨[.terminal b!"A"]⟩, ⟨[.terminal b!"B"]⟩, ⟨[.terminal b!"C"]⟩, ⟨[.terminal b!"D"]⟩,
    ⟨[.terminal b!"E"]⟩, ⟨[.terminal b!"F"]⟩, ⟨[.terminal b!"G"]⟩, ⟨[.terminal b!"H"]⟩,
    ⟨[.terminal b!"I"]⟩, ⟨[.terminal b!"J"]⟩, ⟨[.terminal b!"K"]⟩, ⟨[.terminal b!"L"]⟩,
    ⟨[.terminal b!"M"]⟩, ⟨[.terminal b!"N"]⟩, ⟨[.terminal b!"O"]⟩, ⟨[.terminal b!"P"]⟩,
    ⟨[.terminal b!"Q"]⟩, ⟨[.terminal b!"R"]⟩, ⟨[.terminal b!"S"]⟩, ⟨[.terminal b!"T"]⟩,
    ⟨[.terminal b!"U"]⟩, ⟨[.terminal b!"V"]⟩, ⟨[.terminal b!"W"]⟩, ⟨[.terminal b!"X"]⟩,
    ⟨[.terminal b!"Y"]⟩, ⟨[.terminal b!"Z"]⟩, ⟨[.terminal b!"a"]⟩, ⟨[.terminal b!"b"]⟩,
    ⟨[.terminal b!"c"]⟩, ⟨[.terminal b!"d"]⟩, ⟨[.terminal b!"e"]⟩, ⟨[.terminal b!"f"]⟩,
    ⟨[.terminal b!"g"]⟩, ⟨[.terminal b!"h"]⟩, ⟨[.terminal b!"i"]⟩, ⟨[.terminal b!"j"]⟩,
    ⟨[.terminal b!"k"]⟩, ⟨[.terminal b!"l"]⟩, ⟨[.terminal b!"m"]⟩, ⟨[.terminal b!"n"]⟩,
    ⟨[.terminal b!"o"]⟩, ⟨[.terminal b!"p"]⟩, ⟨[.terminal b!"q"]⟩, ⟨[.terminal b!"r"]⟩,
    ⟨[.terminal b!"s"]⟩, ⟨[.terminal b!"t"]⟩, ⟨[.terminal b!"u"]⟩, ⟨[.terminal b!"v"]⟩,
    ⟨[.terminal b!"w"]⟩, ⟨[.terminal b!"x"]⟩, ⟨[.terminal b!"y"]⟩, ⟨[.terminal b!"z"]⟩]⟩⟩,
  -- rule 29, json.bnf:30
  ⟨b!"symbol", ⟨[
    ⟨[.terminal b!"|"]⟩, ⟨[.terminal b!" "]⟩, ⟨[.terminal b!"!"]⟩, ⟨[.terminal b!"#"]⟩,
    ⟨[.terminal b!"$"]⟩, ⟨[.terminal b!"%"]⟩, ⟨[.terminal b!"&"]⟩, ⟨[.terminal b!"("]⟩,
    ⟨[.terminal b!")"]⟩, ⟨[.terminal b!"*"]⟩, ⟨[.terminal b!"+"]⟩, ⟨[.terminal b!","]⟩,
    ⟨[.terminal b!"-"]⟩, ⟨[.terminal b!"."]⟩, ⟨[.terminal b!"/"]⟩, ⟨[.terminal b!":"]⟩,
    ⟨[.terminal b!";"]⟩, ⟨[.terminal b!">"]⟩, ⟨[.terminal b!"="]⟩, ⟨[.terminal b!"<"]⟩,
    ⟨[.terminal b!"?"]⟩, ⟨[.terminal b!"@"]⟩, ⟨[.terminal b!"["]⟩, ⟨[.terminal b!"]"]⟩,
    ⟨[.terminal b!"^"]⟩, ⟨[.terminal b!"_"]⟩, ⟨[.terminal b!"`"]⟩, ⟨[.terminal b!"{"]⟩,
    ⟨[.terminal b!"}"]⟩, ⟨[.terminal b!"~"]⟩, ⟨[.terminal b!"'"]⟩]⟩⟩,
  -- rule 30, json.bnf:31
  ⟨b!"opt-whitespace", ⟨[
    ⟨[.nothing]⟩, ⟨[.nonTerminal b!"space-symobls", .nonTerminal b!"opt-whitespace"]⟩]⟩⟩,
  -- rule 31, json.bnf:32
  ⟨b!"space-symobls", ⟨[
    ⟨[.terminal b!" "]⟩, ⟨[.nonTerminal b!"EOL"]⟩]⟩⟩,
  -- rule 32, json.bnf:33
  ⟨b!"EOL", ⟨[
    ⟨[.terminal b!"\n"]⟩, ⟨[.terminal b!"\r\n"]⟩]⟩⟩
] }

/-- How one alternative is laid out: blanks before it (after `|`), then for each symbol the quote used
(for literals) and the number of blanks after it. -/
structure AltLayout where
  before : Nat
  symbols : List (UInt8 × Nat)

/-- How a rule is laid out: blanks before and after `::=`, then the alternatives. -/
structure RuleLayout where
  before : Nat
  after : Nat
  alts : List AltLayout

/-- The layout of examples/json/json.bnf. -/
def jsonLayout : List RuleLayout := [
  ⟨1, 1, [
    ⟨0, [(34, 0)]⟩]⟩,
  ⟨1, 1, [
    ⟨0, [(34, 0)]⟩]⟩,
  ⟨1, 2, [
    ⟨0, [(34, 1)]⟩, ⟨1, [(34, 1), (34, 0)]⟩]⟩,
  ⟨1, 1, [
    ⟨0, [(34, 1)]⟩, ⟨1, [(34, 1), (34, 1), (34, 0)]⟩]⟩,
  ⟨1, 1, [
    ⟨0, [(34, 1)]⟩, ⟨1, [(34, 1), (34, 1), (34, 0)]⟩]⟩,
  ⟨1, 1, [
    ⟨0, [(34, 1)]⟩, ⟨1, [(34, 1), (34, 1), (34, 1), (34, 1), (34, 0)]⟩]⟩,
  ⟨1, 1, [
    ⟨0, [(34, 1), (34, 1), (34, 1), (34, 1), (34, 0)]⟩]⟩,
  ⟨1, 1, [
    ⟨0, [(34, 1), (34, 1), (34, 0)]⟩]⟩,
  ⟨1, 1, [
    ⟨0, [(34, 1)]⟩, ⟨1, [(34, 1)]⟩, ⟨1, [(34, 1)]⟩, ⟨1, [(34, 1)]⟩, ⟨1, [(34, 1)]⟩, ⟨1, [(34, 1)]⟩,
    ⟨1, [(34, 0)]⟩]⟩,
  ⟨1, 1, [
    ⟨0, [(34, 1), (34, 1), (34, 1), (34, 0)]⟩]⟩,
  ⟨1, 1, [
    ⟨0, [(34, 1), (34, 1), (34, 0)]⟩]⟩,
  ⟨1, 1, [
    ⟨0, [(39, 1), (34, 1), (39, 0)]⟩]⟩,
  ⟨1, 1, [
    ⟨0, [(34, 1)]⟩, ⟨1, [(34, 1), (34, 0)]⟩]⟩,
  ⟨1, 1, [
    ⟨0, [(34, 1)]⟩, ⟨1, [(34, 1)]⟩, ⟨1, [(34, 1)]⟩, ⟨1, [(34, 0)]⟩]⟩,
  ⟨1, 1, [
    ⟨0, [(39, 1), (34, 0)]⟩]⟩,
  ⟨1, 1, [
    ⟨0, [(39, 1)]⟩, ⟨1, [(39, 1)]⟩, ⟨1, [(39, 1)]⟩, ⟨1, [(39, 1)]⟩, ⟨1, [(39, 1)]⟩, ⟨1, [(39, 1)]⟩,
    ⟨1, [(39, 1)]⟩, ⟨1, [(39, 1)]⟩, ⟨1, [(39, 1), (34, 1), (34, 1), (34, 0)]⟩]⟩,
  ⟨1, 1, [
    ⟨0, [(34, 1)]⟩, ⟨1, [(34, 1)]⟩, ⟨1, [(34, 1)]⟩, ⟨1, [(34, 1)]⟩, ⟨1, [(34, 1)]⟩, ⟨1, [(34, 1)]⟩,
    ⟨1, [(34, 1)]⟩, ⟨1, [(34, 1)]⟩, ⟨1, [(34, 1)]⟩, ⟨1, [(34, 1)]⟩, ⟨1, [(34, 1)]⟩, ⟨1, [(34, 1)]⟩,
    ⟨1, [(34, 0)]⟩]⟩,
  ⟨1, 1, [
    ⟨0, [(34, 1), (34, 1), (34, 0)]⟩]⟩,
  ⟨1, 1, [
    ⟨0, [(34, 1), (34, 0)]⟩]⟩,
  ⟨1, 1, [
    ⟨0, [(34, 1)]⟩, ⟨1, [(34, 1), (34, 0)]⟩]⟩,
  ⟨1, 1, [
    ⟨0, [(34, 1)]⟩, ⟨1, [(34, 0)]⟩]⟩,
  ⟨1, 1, [
    ⟨0, [(34, 1)]⟩, ⟨1, [(34, 1), (34, 0)]⟩]⟩,
  ⟨1, 1, [
    ⟨0, [(34, 1)]⟩, ⟨1, [(34, 1), (34, 1), (34, 1)]⟩, ⟨1, [(34, 1), (34, 1), (34, 0)]⟩]⟩,
  ⟨1, 1, [
    ⟨0, [(34, 1), (34, 0)]⟩]⟩,
  ⟨1, 1, [
    ⟨0, [(34, 1)]⟩, ⟨1, [(34, 1), (34, 0)]⟩]⟩,
  ⟨1, 1, [
    ⟨0, [(34, 1)]⟩, ⟨1, [(34, 1)]⟩, ⟨1, [(34, 0)]⟩]⟩,
  ⟨1, 1, [
    ⟨0, [(34, 1)]⟩, ⟨1, [(34, 0)]⟩]⟩,
  ⟨1, 1, [
    ⟨0, [(34, 1)]⟩, ⟨1, [(34, 1)]⟩, ⟨1, [(34, 1)]⟩, ⟨1, [(34, 1)]⟩, ⟨1, [(34, 1)]⟩, ⟨1, [(34, 1)]⟩,
    ⟨1, [(34, 1)]⟩, ⟨1, [(34, 1)]⟩, ⟨1, [(34, 0)]⟩]⟩,
  ⟨1, 1, [
    ⟨0, [(34, 1)]⟩, ⟨1, [(34, 1)]⟩, ⟨1, [(34, 1)]⟩, ⟨1, [(34, 1)]⟩, ⟨1, [(34, 1)]⟩, ⟨1, [(34, 1)]⟩,
    ⟨1, [(34, 1)]⟩, ⟨1, [(34, 1)]⟩, ⟨1, [(34, 1)]⟩, ⟨1, [(34, 1)]⟩, ⟨1, [(34, 1)]⟩, ⟨1, [(34, 1)]⟩,
    ⟨1, [(34, 1)]⟩, ⟨1, [(34, 1)]⟩, ⟨1, [(34, 1)]⟩, ⟨1, [(34, 1)]⟩, ⟨1, [(34, 1)]⟩, ⟨1, [(34, 1)]⟩,
    ⟨1, [(34, 1)]⟩, ⟨1, [(34, 1)]⟩, ⟨1, [(34, 1)]⟩, ⟨1, [(34, 1)]⟩, ⟨1, [(34, 1)]⟩, ⟨1, [(34, 1)]⟩,
    ⟨1, [(34, 1)]⟩, ⟨1, [(34, 1)]⟩, ⟨1, [(34, 1)]⟩, ⟨1, [(34, 1)]⟩, ⟨1, [(34, 1)]⟩, ⟨1, [(34, 1)]⟩,
    ⟨1, [(34, 1)]⟩, ⟨1, [(34, 1)]⟩, ⟨1, [(34, 1)]⟩, ⟨1, [(34, 1)]⟩, ⟨1, [(34, 1)]⟩, ⟨1, [(34, 1)]⟩,
    ⟨1, [(34, 1)]⟩, ⟨1, [(34, 1)]⟩, ⟨1, [(34, 1)]⟩, ⟨1, [(34, 1)]⟩, ⟨1, [(34, 1)]⟩, ⟨1, [(34, 1)]⟩,
    ⟨1, [(34, 1)]⟩, ⟨1, [(34, 1)]⟩, ⟨1, [(34, 1)]⟩, ⟨1, [(34, 1)]⟩, ⟨1, [(34, 1)]⟩, ⟨1, [(34, 1)]⟩,
    ⟨1, [(34, 1)]⟩, ⟨1, [(34, 1)]⟩, ⟨1, [(34, 1)]⟩, ⟨1, [(34, 0)]⟩]⟩,
  ⟨1, 1, [
    ⟨0, [(34, 1)]⟩, ⟨1, [(34, 1)]⟩, ⟨1, [(34, 1)]⟩, ⟨1, [(34, 1)]⟩, ⟨1, [(34, 1)]⟩, ⟨1, [(34, 1)]⟩,
    ⟨1, [(34, 1)]⟩, ⟨1, [(34, 1)]⟩, ⟨1, [(34, 1)]⟩, ⟨1, [(34, 1)]⟩, ⟨1, [(34, 1)]⟩, ⟨1, [(34, 1)]⟩,
    ⟨1, [(34, 1)]⟩, ⟨1, [(34, 1)]⟩, ⟨1, [(34, 1)]⟩, ⟨1, [(34, 1)]⟩, ⟨1, [(34, 1)]⟩, ⟨1, [(34, 1)]⟩,
    ⟨1, [(34, 1)]⟩, ⟨1, [(34, 1)]⟩, ⟨1, [(34, 1)]⟩, ⟨1, [(34, 1)]⟩, ⟨1, [(34, 1)]⟩, ⟨1, [(34, 1)]⟩,
    ⟨1, [(34, 1)]⟩, ⟨1, [(34, 1)]⟩, ⟨1, [(34, 1)]⟩, ⟨1, [(34, 1)]⟩, ⟨1, [(34, 1)]⟩, ⟨1, [(34, 1)]⟩,
    ⟨1, [(34, 0)]⟩]⟩,
  ⟨1, 1, [
    ⟨0, [(34, 1)]⟩, ⟨1, [(34, 1), (34, 0)]⟩]⟩,
  ⟨1, 1, [
    ⟨0, [(34, 1)]⟩, ⟨1, [(34, 0)]⟩]⟩,
  ⟨1, 1, [
    ⟨0, [(34, 1)]⟩, ⟨1, [(34, 0)]⟩]⟩]

end LL1.Golden
