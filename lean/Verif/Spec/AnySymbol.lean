import Verif.Model.ForeignText
import Mathlib.Data.List.Forall2

/-!
# Grammars with symbols of any type: their text, and comparing two of them
-/

namespace LL1
namespace AnySym

/-- All symbols of a grammar in the order of the text. -/
def Grammar.symbols (g : Grammar) : List Sym := g.rules.flatMap fun r => r.sequences.flatten

/-- The words of a rule, when `write y` is how symbol `y` is written. -/
def Rule.words (write : Sym → Str) (r : Rule) : List Str :=
  [60 :: (r.head ++ [62]), [58, 58, 61]] ++ ([[124]] : List Str).intercalate (r.sequences.map fun s => s.map write)

/-- One line per rule, its words separated by blanks. -/
def Grammar.written (write : Sym → Str) (g : Grammar) : Str :=
  [10].intercalate (g.rules.map fun r => [32].intercalate (r.words write))

/-- `g` is `g₀` with other values in the place of some of its symbols, all of which have the text of the symbol they stand
for (such as pointers to the package's symbols). -/
def Rule.Like (r : Rule) (r₀ : LL1.Rule) : Prop :=
  r.head = r₀.head ∧ List.Forall₂ (fun s (s₀ : Sequence) => List.Forall₂ (fun y y₀ => Sym.string y = .ok y₀.toStr) s s₀.symbols)
    r.sequences r₀.tail.sequences

def Grammar.Like (g : Grammar) (g₀ : LL1.Grammar) : Prop := List.Forall₂ Rule.Like g.rules g₀.rules

/-- The outcome of comparing two symbols. -/
inductive SymCmp : Sym → Sym → Cmp → Prop
  | left {a b : Sym} {p : Panic} : a.type = .error p → SymCmp a b (.panic p)
  | right {a b : Sym} {p : Panic} {t : Int} : a.type = .ok t → b.type = .error p → SymCmp a b (.panic p)
  | types {a b : Sym} {t u : Int} : a.type = .ok t → b.type = .ok u → t ≠ u → SymCmp a b (.result false)
  | nonTerminals {n m : Str} : SymCmp (.own (.nonTerminal n)) (.own (.nonTerminal m)) (.result (decide (n = m)))
  | terminals {n m : Str} : SymCmp (.own (.terminal n)) (.own (.terminal m)) (.result (decide (n = m)))
  | nothing {a b : Sym} : a.type = .ok 2 → b.type = .ok 2 → SymCmp a b (.result true)
  | pretends {a b : Sym} {t : Int} : a.type = .ok t → b.type = .ok t → t = 0 ∨ t = 1 →
      (∀ s, a ≠ .own s) ∨ (∀ s, b ≠ .own s) → SymCmp a b (.panic .conversion)
  | unknown {a b : Sym} {t : Int} : a.type = .ok t → b.type = .ok t → t < 0 ∨ 2 < t → SymCmp a b (.exit t)

/-- The outcome of comparing two lists element by element: different lengths are seen at once; then the first pair that is
not equal decides. -/
inductive Lockstep {α : Type} (R : α → α → Cmp → Prop) : List α → List α → Cmp → Prop
  | lengths {a b : List α} : a.length ≠ b.length → Lockstep R a b (.result false)
  | same {a b : List α} : List.Forall₂ (fun x y => R x y (.result true)) a b → Lockstep R a b (.result true)
  | first {pre pre' post post' : List α} {x y : α} {c : Cmp} : List.Forall₂ (fun x y => R x y (.result true)) pre pre' →
      R x y c → c ≠ .result true → post.length = post'.length → Lockstep R (pre ++ x :: post) (pre' ++ y :: post') c

/-- The outcome of comparing two rules: heads first. -/
def RuleCmp (a b : Rule) (c : Cmp) : Prop :=
  (a.head ≠ b.head ∧ c = .result false) ∨ (a.head = b.head ∧ Lockstep (Lockstep SymCmp) a.sequences b.sequences c)

/-- The outcome of comparing two grammars. -/
def GrammarCmp (a b : Grammar) (c : Cmp) : Prop := Lockstep RuleCmp a.rules b.rules c

/-- Equal, or both of the type of the empty-string symbol. -/
def SymAlike (a b : Sym) : Prop :=
  (∃ s, a = .own s ∧ b = .own s) ∨ (a.type = .ok 2 ∧ b.type = .ok 2)

def GrammarAlike (a b : Grammar) : Prop :=
  List.Forall₂ (fun r s => r.head = s.head ∧ List.Forall₂ (List.Forall₂ SymAlike) r.sequences s.sequences) a.rules b.rules

end AnySym
end LL1
