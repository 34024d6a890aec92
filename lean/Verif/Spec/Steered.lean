import Verif.Spec.Reading
import Verif.Spec.Derivation

/-!
# What a generated parser does, in terms of the grammar alone

For every grammar the table generator accepts, also with alternatives that begin alike.
-/

namespace LL1

open Classical in
/-- Those of the alternatives that read as beginning with `b`, in the order written. -/
noncomputable def pick (g : Grammar) (b : UInt8) (alts : List Sequence) : List Sequence :=
  alts.filter fun alt => RFirst g alt.symbols b

/-- Rule `i`, used where the next byte is `b`, stands for `syms`: **all** alternatives that read as beginning with `b`,
one after the other; or, if there is none, for nothing, provided some alternative reads as nullable and `b` may come after
the rule. -/
def StandsFor (g : Grammar) (i : Nat) (b : UInt8) (syms : List Symbol) : Prop :=
  ∃ r, g.rules[i]? = some r ∧ syms = (pick g b r.tail.sequences).flatMap (·.symbols) ∧
    (pick g b r.tail.sequences ≠ [] ∨ RRuleNullable g i ∧ RNextFollow g i b)

/-- The node for rule `i`: an empty node has the single child "nothing". -/
def ruleNode (i : Nat) (a b : Nat) (childs : List Node) : Node :=
  .mk i a b (if childs = [] then [nothingNode a] else childs)

/-- `Steered g text syms a b ns`: the symbols, tried in order from offset `a`, match the text up to offset `b`, one node
per symbol. -/
inductive Steered (g : Grammar) (text : Str) : List Symbol → Nat → Nat → List Node → Prop
  | nil (a : Nat) : Steered g text [] a a []
  | terminal {t : Str} {rest : List Symbol} {a b : Nat} {ns : List Node} :
      LitAt text t a → Steered g text rest (a + t.length) b ns →
      Steered g text (.terminal t :: rest) a b (literalNode t a :: ns)
  | nonTerminal {name : Str} {i : Nat} {syms rest : List Symbol} {a b c : Nat} {ks ns : List Node} :
      g.Refers name i → StandsFor g i (byteAt text a) syms → Steered g text syms a b ks →
      Steered g text rest b c ns → Steered g text (.nonTerminal name :: rest) a c (ruleNode i a b ks :: ns)

/-- `Derails g names text syms a k e`: trying the symbols in order from offset `a` fails at offset `k` with error `e`. -/
inductive Derails (g : Grammar) (names : Option Names) (text : Str) : List Symbol → Nat → Nat → PErr → Prop
  | terminal {t : Str} {rest : List Symbol} {a k : Nat} {c : UInt8} :
      LitAt text (t.take k) a → t[k]? = some c → c ≠ byteAt text (a + k) →
      Derails g names text (.terminal t :: rest) a (a + k) (.expectedChar c (byteAt text (a + k)))
  | afterTerminal {t : Str} {rest : List Symbol} {a k : Nat} {e : PErr} :
      LitAt text t a → Derails g names text rest (a + t.length) k e →
      Derails g names text (.terminal t :: rest) a k e
  | lost {name : Str} {i : Nat} {rest : List Symbol} {a : Nat} :
      g.Refers name i → (∀ syms, ¬ StandsFor g i (byteAt text a) syms) →
      Derails g names text (.nonTerminal name :: rest) a a (.noRule (byteAt text a) (rowName names i))
  | inside {name : Str} {i : Nat} {syms rest : List Symbol} {a k : Nat} {e : PErr} :
      g.Refers name i → StandsFor g i (byteAt text a) syms → Derails g names text syms a k e →
      Derails g names text (.nonTerminal name :: rest) a k e
  | after {name : Str} {i : Nat} {syms rest : List Symbol} {a b k : Nat} {ks : List Node} {e : PErr} :
      g.Refers name i → StandsFor g i (byteAt text a) syms → Steered g text syms a b ks →
      Derails g names text rest b k e → Derails g names text (.nonTerminal name :: rest) a k e

/-- The whole text: the first rule matches it up to its end or a NUL byte. -/
def Accepts (g : Grammar) (text : Str) (t : Node) : Prop :=
  ∃ syms b ks, StandsFor g 0 (byteAt text 0) syms ∧ Steered g text syms 0 b ks ∧ t = ruleNode 0 0 b ks ∧ byteAt text b = 0

/-- The whole text fails with `e` at offset `k`: the first rule stands for nothing that fits, or what it stands for
derails, or it ends too early. -/
def Rejects (g : Grammar) (names : Option Names) (text : Str) (k : Nat) (e : PErr) : Prop :=
  (k = 0 ∧ (∀ syms, ¬ StandsFor g 0 (byteAt text 0) syms) ∧ e = .noRule (byteAt text 0) (rowName names 0)) ∨
  (∃ syms, StandsFor g 0 (byteAt text 0) syms ∧ Derails g names text syms 0 k e) ∨
  (∃ syms ks, StandsFor g 0 (byteAt text 0) syms ∧ Steered g text syms 0 k ks ∧ byteAt text k ≠ 0 ∧
    e = .expectedEnd (byteAt text k))

end LL1
