import Verif.Model.FromCst
import Verif.Model.Stdout
import Verif.Model.SelfGrammar

/-!
# Model of the programs in `examples/`

A program run is what it writes to standard output and standard error and its exit code, or a panic and what was written
to standard output before it.
The two `Parse` calls of a run share one fuel number; `none` = the program is still running.  Reading a
file gives its contents or the text of the error.  The line `FromGrammar` itself writes to standard output before it
reports a conflict (tablegen.go:337) comes from `Model/Stdout.lean`.  Not modelled: failing writes to standard output.
-/

namespace LL1

/-- Iteration orders of the naming map (see `fromGrammar`). -/
abbrev MapOrder := List (Str × Nat) → List (Str × Nat)

namespace Prog

/-- `err.Error()` for errors of `FromGrammar`; format strings cited at `TG.Err`. -/
def tgError : TG.Err → Str
  | .nothingNotAlone => b!"empty string is not a single sequence symbol"
  | .undefined name => b!"no rules defined for non terminal <" ++ name ++ b!">"
  | .ruleIndex => b!"ruleIndex exceeding grammar rules"
  | .emptyTerminal => b!"terminal with empty string check grammar"
  | .emptySequence => b!"empty sequencese"
  | .conflict => b!"grammar lead to multiple parser op sets per table cell"

/-- `err.Error()` for errors of `ToAST`; format strings cited at `FC.Err`. -/
def fcError : FC.Err → Str
  | .searchComplete => b!"headSearchComplete"
  | .unknownEscape s => b!"unkknown escape character: " ++ s
  | .noEscape => b!"not found escape character"
  | .noSymbolType text => b!"could not determine terminal type of `" ++ text ++ b!"`"
  | .noRuleName text => b!"could not find rule name in `" ++ text ++ b!"`"
  | .noSubstitution text => b!"could not find rule substitution in `" ++ text ++ b!"`"

/-- How a program ends. -/
inductive End where
  | exit (stdout stderr : Str) (code : Nat)
  | panic (stdout : Str)
  deriving DecidableEq, Repr

/-! ## examples/json/main.go -/

/-- Panics of `keyPrintingVisitor.Visit`. -/
inductive VPanic where
  | indexOutOfRange
  | sliceBounds
  deriving DecidableEq, Repr

/-- `for i := 0; i < v.level; i++ { fmt.Fprint(v.f, "  ") }` — examples/json/main.go:123-125. -/
def indent : Nat → Str
  | 0 => []
  | n + 1 => b!"  " ++ indent n

/-- `(*v.str)[s.Pos():s.End()]` — examples/json/main.go:126. -/
def sliceText (str : Str) (s : Node) : Except VPanic Str :=
  if s.pos ≤ s.stop ∧ s.stop ≤ str.length then .ok ((str.drop s.pos).take (s.stop - s.pos))
  else .error .sliceBounds

/-- `node.Childs()[0].Childs()[1]` — examples/json/main.go:122. -/
def keyNode (node : Node) : Except VPanic Node :=
  match node.childs[0]? with
  | none => .error .indexOutOfRange
  | some c =>
    match c.childs[1]? with
    | none => .error .indexOutOfRange
    | some d => .ok d

/-- `v.level++` for objects and arrays — examples/json/main.go:129-131. -/
def nextLevel (level : Nat) (nt : Int) : Nat := if nt = 9 ∨ nt = 10 then level + 1 else level

/-- `keyPrintingVisitor.Visit` — examples/json/main.go:110-134.  The visitor value is its `level` (`f` and
`str` never change); the state is what has been written to `f`, which a panic keeps.  `node == nil` cannot occur in the model. -/
def keyVisitor (str : Str) : Visitor Nat Str (Str × VPanic) where
  visit level node out :=
    if node.type > 10 then .ok (out, none)
    else if node.type = 6 then
      match keyNode node with
      | .error p => .error (out, p)
      | .ok s =>
        match sliceText str s with
        | .error p => .error (out ++ indent level, p)
        | .ok k => .ok (out ++ (indent level ++ (k ++ [10])), some (nextLevel level node.type))
    else .ok (out, some (nextLevel level node.type))

/-- `fatalError` — examples/json/main.go:35-39: `"ERROR: "`, then the operands separated by blanks and an
LF; exit code 1. -/
def fatalError (stdout : Str) (a : Str) (e : Str) : End := .exit stdout (b!"ERROR: " ++ (a ++ (32 :: (e ++ [10])))) 1

/-- The end of `main` — examples/json/main.go:78-94: parse the JSON text and print the keys. -/
def jsonRun (fuel : Nat) (table : Table) (names : Names) (jsonText : Str) (stdout : Str) : Option End :=
  match (Parser.mk table (some names)).parseFuel fuel (.string jsonText) with
  | none => none
  | some (.panic _) => some (.panic stdout)
  | some (.err e) => some (fatalError stdout b!"can't parse JSON text:" e.render)
  | some (.ok jsonCST _) =>
    match walk (keyVisitor jsonText) 0 jsonCST (stdout ++ (b!"Parsed successfully\n" ++ b!"JSON key structure:\n")) with
    | .error (out, _) => some (.panic out)
    | .ok out => some (.exit out [] 0)

/-- `main` of examples/json/main.go:41-94.  `order₁`, `order₂`: the map iteration orders of the two
`FromGrammar` calls; `bnfFile`, `jsonFile`: what reading the two files gives. -/
def jsonMain (fuel : Nat) (order₁ order₂ : MapOrder) (bnfFile jsonFile : Except Str Str) : Option End :=
  match bnfFile with
  | .error e => some (fatalError [] b!"can't read JSON BNF text:" e)
  | .ok jsonBnfText =>
    match jsonFile with
    | .error e => some (fatalError [] b!"can't read JSON file: " e)
    | .ok jsonText =>
      match fromGrammar order₁ selfGrammar with
      | .err e => some (fatalError (fromGrammarOut order₁ selfGrammar).1
          b!"can't build parser table from BNF grammar:" (tgError e))
      | .panic _ => some (.panic (fromGrammarOut order₁ selfGrammar).1)
      | .diverge => none
      | .ok (bnfParserTable, bnfParserTableNames) =>
        match (Parser.mk bnfParserTable (some bnfParserTableNames)).parseFuel fuel (.string jsonBnfText) with
        | none => none
        | some (.panic _) => some (.panic [])
        | some (.err e) => some (fatalError [] b!"can't parse JSON BNF text:" e.render)
        | some (.ok jsonGrammarCst _) =>
          match FC.selfBindings.toAST jsonGrammarCst jsonBnfText with
          | .err e => some (fatalError [] b!"can't build JSON BNF AST from JSON BNF CST:" (fcError e))
          | .panic _ => some (.panic [])
          | .diverge => none
          | .ok jsonGrammar =>
            match fromGrammar order₂ jsonGrammar with
            | .err e => some (fatalError (fromGrammarOut order₂ jsonGrammar).1
                b!"can't build parser table from JSON grammar:" (tgError e))
            | .panic _ => some (.panic (fromGrammarOut order₂ jsonGrammar).1)
            | .diverge => none
            | .ok (jsonParserTable, jsonParserTableNames) =>
              jsonRun fuel jsonParserTable jsonParserTableNames jsonText b!"Created table for JSON parser\n"

/-- The program ends with `e`. -/
def JsonMainEnds (order₁ order₂ : MapOrder) (bnfFile jsonFile : Except Str Str) (e : End) : Prop :=
  ∃ fuel, jsonMain fuel order₁ order₂ bnfFile jsonFile = some e

/-! ## examples/parseownsyntax/main.go -/

/-- `isNonTerminalsEqual` — examples/parseownsyntax/main.go:17-21. -/
def isNonTerminalsEqual (a b : Str) : Bool := decide (a = b)

/-- `isTerminalsEqual` — examples/parseownsyntax/main.go:23-25. -/
def isTerminalsEqual (a b : Str) : Bool := decide (a = b)

/-- `isSymbolsEqual` — examples/parseownsyntax/main.go:27-50.  The type comparison and the type switch are
one match; the unknown-type exit cannot occur with the three symbol types. -/
def isSymbolsEqual : Symbol → Symbol → Bool
  | .nonTerminal a, .nonTerminal b => isNonTerminalsEqual a b
  | .terminal a, .terminal b => isTerminalsEqual a b
  | .nothing, .nothing => true
  | _, _ => false

/-- A loop `for i := range a { if !eq(a[i], b[i]) { return false } }; return true`; `b[i]` is in range
because the lengths were compared before. -/
def allEqualAt {α : Type} (eq : α → α → Bool) : List α → List α → Bool
  | x :: xs, y :: ys => if !eq x y then false else allEqualAt eq xs ys
  | _, _ => true

/-- `isSequencesEqual` — examples/parseownsyntax/main.go:52-64. -/
def isSequencesEqual (a b : Sequence) : Bool :=
  if a.symbols.length ≠ b.symbols.length then false else allEqualAt isSymbolsEqual a.symbols b.symbols

/-- `isSubstitutionsEqual` — examples/parseownsyntax/main.go:66-77. -/
def isSubstitutionsEqual (a b : Substitution) : Bool :=
  if a.sequences.length ≠ b.sequences.length then false
  else allEqualAt isSequencesEqual a.sequences b.sequences

/-- `isRulesEqual` — examples/parseownsyntax/main.go:79-86. -/
def isRulesEqual (a b : Rule) : Bool :=
  if !isNonTerminalsEqual a.head b.head then false else isSubstitutionsEqual a.tail b.tail

/-- `isGrammarsEqual` — examples/parseownsyntax/main.go:88-100. -/
def isGrammarsEqual (a b : Grammar) : Bool :=
  if a.rules.length ≠ b.rules.length then false else allEqualAt isRulesEqual a.rules b.rules

/-- `main` of examples/parseownsyntax/main.go:102-138. -/
def ownSyntaxMain (fuel : Nat) (order : MapOrder) : Option End :=
  let reference := selfGrammar
  let bnfStr := reference.toStr
  match fromGrammar order reference with
  | .err e => some (.exit (fromGrammarOut order reference).1
      (b!"ERROR: can't build Parser table from grammar:" ++ (32 :: (tgError e ++ [10]))) 1)
  | .panic _ => some (.panic (fromGrammarOut order reference).1)
  | .diverge => none
  | .ok (parserTable, parserTableNames) =>
    match (Parser.mk parserTable (some parserTableNames)).parseFuel fuel (.string bnfStr) with
    | none => none
    | some (.panic _) => some (.panic [])
    | some (.err e) => some (.exit [] (b!"ERROR: can't parse input:" ++ (32 :: (e.render ++ [10]))) 1)
    | some (.ok cst _) =>
      match FC.selfBindings.toAST cst bnfStr with
      | .err e => some (.exit [] (b!"ERROR: can't build AST from CST:" ++ (32 :: (fcError e ++ [10]))) 1)
      | .panic _ => some (.panic [])
      | .diverge => none
      | .ok result =>
        if !isGrammarsEqual reference result then
          some (.exit [] b!"ERROR: final AST not equal to initial\n" 1)
        else some (.exit b!"Resulted AST equal to initial\n" [] 0)

/-- The program ends with `e`. -/
def OwnSyntaxMainEnds (order : MapOrder) (e : End) : Prop := ∃ fuel, ownSyntaxMain fuel order = some e

end Prog
end LL1
