import Verif.Model.TableGen
import Verif.Model.Parser

/-!
# Renaming the non-terminals of a grammar
-/

namespace LL1

/-- The symbol with its name changed. -/
def Symbol.rename (ρ : Str → Str) : Symbol → Symbol
  | .nonTerminal name => .nonTerminal (ρ name)
  | .terminal t => .terminal t
  | .nothing => .nothing

/-- The grammar with every non-terminal name, in heads and in alternatives, changed. -/
def Grammar.rename (ρ : Str → Str) (g : Grammar) : Grammar :=
  ⟨g.rules.map fun r => ⟨ρ r.head, ⟨r.tail.sequences.map fun s => ⟨s.symbols.map (Symbol.rename ρ)⟩⟩⟩⟩

/-- The error about the renamed grammar. -/
def TG.Err.rename (ρ : Str → Str) : TG.Err → TG.Err
  | .undefined name => .undefined (ρ name)
  | e => e

/-- The parse error about the renamed grammar: only the rule name it mentions changes. -/
def PErr.rename (ρ : Str → Str) : PErr → PErr
  | .noRulesFor (.known s) => .noRulesFor (.known (ρ s))
  | .noRule c (.known s) => .noRule c (.known (ρ s))
  | e => e

/-- `o'` is the outcome `o` with the rule names changed: the same tree with the renamed map of names (the
two built-in names excepted), the same error about the renamed rule, or the same panic. -/
inductive Outcome.Renamed (ρ : Str → Str) : Outcome → Outcome → Prop
  | ok {t : Node} {m m' : Names} :
      (∀ k, k ≠ builtinTerminal → k ≠ builtinNothing → m'.get k = (m.get k).map ρ) →
      m'.get builtinTerminal = m.get builtinTerminal → m'.get builtinNothing = m.get builtinNothing →
      Outcome.Renamed ρ (.ok t m) (.ok t m')
  | err {e : PErr} : Outcome.Renamed ρ (.err e) (.err (e.rename ρ))
  | panic {p : PPanic} : Outcome.Renamed ρ (.panic p) (.panic p)

end LL1
