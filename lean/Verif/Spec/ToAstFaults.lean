import Verif.Spec.ToAst
import Verif.Spec.Derivation

/-!
# What is wrong with a tree

The faults of a tree that `ToAST` may complain about, with the texts of the complaints; `slice str n.pos n.stop` is the
text of node `n`.
-/

namespace LL1
namespace Read
open FC

/-- Symbol nodes of a rule node: below its first tail node, the topmost symbol nodes of the topmost sequence nodes. -/
def SymbolNode (skip : Int → Bool) (b : Bindings) (rule k : Node) : Prop :=
  ∃ e m, firstOf skip b.ruleTailType rule = some e ∧ m ∈ allOf skip b.expressionSequencesType e ∧
    k ∈ allOf skip b.sequencesSymbolType m

/-- The node a symbol is read from as a terminal: the first node of the first of the terminal types that occurs. -/
def TerminalNode (skip : Int → Bool) (b : Bindings) (symbol c : Node) : Prop :=
  ∃ pre ty post, b.symbolTerminalTypes = pre ++ ty :: post ∧ (∀ u ∈ pre, firstOf skip u symbol = none) ∧
    firstOf skip ty symbol = some c

/-- The escapes in a terminal node: the topmost nodes of type 16 that are not below literal leaves. -/
def EscapeNode (terminal x : Node) : Prop :=
  x ∈ topmost (fun _ => false) (fun t => decide (t = 16) || decide (t = -1)) terminal ∧ x.type = 16

/-- `RuleFault skip b str n msg`: the rule node `n` has a fault, described by `msg`. -/
inductive RuleFault (skip : Int → Bool) (b : Bindings) (str : Str) (n : Node) : Str → Prop
  | noHead : firstOf skip b.ruleHeadType n = none →
      RuleFault skip b str n (b!"could not find rule name in `" ++ slice str n.pos n.stop ++ b!"`")
  | noTail : firstOf skip b.ruleTailType n = none →
      RuleFault skip b str n (b!"could not find rule substitution in `" ++ slice str n.pos n.stop ++ b!"`")
  | noSymbol {k : Node} : SymbolNode skip b n k → (∀ ty ∈ b.symbolTerminalTypes, firstOf skip ty k = none) →
      firstOf skip b.symbolNonTerminalType k = none →
      RuleFault skip b str n (b!"could not determine terminal type of `" ++ slice str k.pos k.stop ++ b!"`")
  | noEscape {k c x : Node} : SymbolNode skip b n k → TerminalNode skip b k c → EscapeNode c x →
      firstOf skip b.escapeCharacterType x = none → RuleFault skip b str n b!"not found escape character"
  | unknownEscape {k c x y : Node} : SymbolNode skip b n k → TerminalNode skip b k c → EscapeNode c x →
      firstOf skip b.escapeCharacterType x = some y → b.escapeMapping.get (slice str y.pos y.stop) = none →
      RuleFault skip b str n (b!"unkknown escape character: " ++ slice str y.pos y.stop)

end Read
end LL1
