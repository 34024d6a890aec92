import Verif.Spec.Reading
import Verif.Model.TableGen

/-!
# What the errors of `FromGrammar` say
-/

namespace LL1

/-- What each error (errors.New / fmt.Errorf in tablegen.go) says about the grammar. -/
def GrammarFault (g : Grammar) : TG.Err → Prop
  /- "empty string is not a single sequence symbol" -/
  | .nothingNotAlone => ∃ i alt, g.Alt i alt ∧ .nothing ∈ alt.symbols ∧ alt.symbols ≠ [.nothing]
  /- "no rules defined for non terminal <name>" -/
  | .undefined name => (∃ i alt, g.Alt i alt ∧ .nonTerminal name ∈ alt.symbols) ∧ ∀ j, ¬ g.Head j name
  /- "ruleIndex exceeding grammar rules": never -/
  | .ruleIndex => False
  /- "terminal with empty string check grammar" -/
  | .emptyTerminal => ∃ i alt, g.Alt i alt ∧ .terminal [] ∈ alt.symbols
  /- "empty sequencese" -/
  | .emptySequence => ∃ i alt, g.Alt i alt ∧ alt.symbols = []
  /- "grammar lead to multiple parser op sets per table cell" -/
  | .conflict => ∃ i, RClash g i

end LL1
