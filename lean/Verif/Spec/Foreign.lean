import Verif.Model.Foreign

/-!
# Vocabulary for grammars with symbols of any type
-/

namespace LL1
namespace TGX

/-- The symbol read as a reference to the non-terminal `u` if it is of another type. -/
def XSymbol.asRef (u : Str) : XSymbol → Symbol
  | .own s => s
  | .other _ => .nonTerminal u

/-- The grammar in which all symbols of other types are references to `u`. -/
def XGrammar.asRefs (u : Str) (g : XGrammar) : Grammar :=
  ⟨g.rules.map fun r => ⟨r.head, ⟨r.sequences.map fun s => ⟨s.map (XSymbol.asRef u)⟩⟩⟩⟩

/-- The types that are not the package's, in the grammar. -/
def XGrammar.HasOther (g : XGrammar) (t : Str) : Prop :=
  ∃ r ∈ g.rules, ∃ s ∈ r.sequences, XSymbol.other t ∈ s

/-- `u` is no head and is not referred to. -/
def XGrammar.Fresh (g : XGrammar) (u : Str) : Prop :=
  ∀ r ∈ g.rules, r.head ≠ u ∧ ∀ s ∈ r.sequences, XSymbol.own (.nonTerminal u) ∉ s

/-- A grammar of the package's own symbols. -/
def XGrammar.ofGrammar (g : Grammar) : XGrammar :=
  ⟨g.rules.map fun r => ⟨r.head, r.tail.sequences.map fun s => s.symbols.map .own⟩⟩

end TGX
end LL1
