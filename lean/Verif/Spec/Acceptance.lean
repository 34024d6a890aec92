import Verif.Spec.Reading

/-!
# Which grammars the table generator accepts

`FromGrammar` does not check a grammar before it works on it: it stumbles over a symbol only if it looks at that symbol.
These are the places where it looks, in terms of the grammar alone.
-/

namespace LL1

/-- `name` is the head of some rule. -/
def Grammar.Defines (g : Grammar) (name : Str) : Prop := ∃ j, g.Head j name

/-- FIRST of a sequence looks at its first symbol, and past every non-terminal that reads as nullable. -/
inductive FirstLooksAt (g : Grammar) : List Symbol → Symbol → Prop
  | first {x : Symbol} {rest : List Symbol} : FirstLooksAt g (x :: rest) x
  | past {name : Str} {i : Nat} {rest : List Symbol} {x : Symbol} :
      g.Refers name i → RRuleNullable g i → FirstLooksAt g rest x → FirstLooksAt g (.nonTerminal name :: rest) x

/-- Nothing the generator looks at is amiss (clashes of table cells aside). -/
structure Examined (g : Grammar) : Prop where
  /-- There is a rule. -/
  rules : g.rules ≠ []
  /-- No alternative without symbols. -/
  alternatives : ∀ i alt, g.Alt i alt → alt.symbols ≠ []
  /-- Where FIRST looks there is no empty terminal, no undefined name and no `""` beside other symbols. -/
  firsts : ∀ i alt x, g.Alt i alt → FirstLooksAt g alt.symbols x →
    x ≠ .terminal [] ∧ (∀ name, x = .nonTerminal name → g.Defines name) ∧ (x = .nothing → alt.symbols = [.nothing])
  /-- FOLLOW looks at the symbol to the right of every defined non-terminal: no empty terminal, no undefined name. -/
  follows : ∀ i alt pre name next post, g.Alt i alt → alt.symbols = pre ++ .nonTerminal name :: next :: post →
    g.Defines name → next ≠ .terminal [] ∧ ∀ n, next = .nonTerminal n → g.Defines n
  /-- The cells look at every symbol of an alternative that can begin with some byte: no `""`, no undefined name. -/
  cells : ∀ i alt b x, g.Alt i alt → RFirst g alt.symbols b → x ∈ alt.symbols →
    x ≠ .nothing ∧ ∀ name, x = .nonTerminal name → g.Defines name

end LL1
