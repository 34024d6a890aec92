import Verif.Spec.Grammar

/-!
# Predictive derivations

A grammar-level description (no table, no parser) of the derivations a generated parser can find: at each
use of a rule it looks at one byte; if an alternative can begin with that byte it is used, otherwise the
rule may vanish, provided it is nullable and the byte may follow it *by the next-symbol rule*
(`NextFollow`).
-/

namespace LL1

/-- The byte the parser sees in front of `w` when `c` comes after `w` (0: end of input). -/
def ahead (w : Str) (c : UInt8) : UInt8 :=
  match w with
  | [] => c
  | b :: _ => b

/-- `Predictive g syms w c`: the symbols `syms` are derived to `w`, while the byte after `w` is `c`, and
every use of a rule obeys the discipline above. -/
inductive Predictive (g : Grammar) : List Symbol → Str → UInt8 → Prop
  | nil {c : UInt8} : Predictive g [] [] c
  | terminal {t : Str} {rest : List Symbol} {w : Str} {c : UInt8} :
      Predictive g rest w c → Predictive g (.terminal t :: rest) (t ++ w) c
  | use {name : Str} {i : Nat} {alt : Sequence} {rest : List Symbol} {u w : Str} {c : UInt8} :
      g.Refers name i → g.Alt i alt → First g alt.symbols (ahead (u ++ w) c) →
      Predictive g alt.symbols u (ahead w c) → Predictive g rest w c →
      Predictive g (.nonTerminal name :: rest) (u ++ w) c
  | vanish {name : Str} {i : Nat} {rest : List Symbol} {w : Str} {c : UInt8} :
      g.Refers name i → RuleNullable g i → ¬ RuleFirst g i (ahead w c) → NextFollow g i (ahead w c) →
      Predictive g rest w c →
      Predictive g (.nonTerminal name :: rest) w c

/-- The same for rule number `i`. -/
def PredictiveRule (g : Grammar) (i : Nat) (w : Str) (c : UInt8) : Prop :=
  (∃ alt, g.Alt i alt ∧ First g alt.symbols (ahead w c) ∧ Predictive g alt.symbols w c) ∨
  (w = [] ∧ RuleNullable g i ∧ ¬ RuleFirst g i c ∧ NextFollow g i c)

end LL1
