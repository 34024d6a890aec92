import Verif.Model.TypeCalls
import Mathlib.Data.List.Forall2

/-!
# What comparing two grammars asks of their symbols
-/

namespace LL1
namespace Weigh

open Told (Slice Sym RuleVal Mem)
open AnySym (Panic Cmp)

variable {W : Type}

/-- Asking a symbol for its type: the package's symbols answer 0, 1 and 2 and change nothing, nil panics. -/
inductive Asked (E : World W) : Sym → W → Except Panic Int → W → Prop
  | nonTerminal {n : Str} {w : W} : Asked E (.own (.nonTerminal n)) w (.ok 0) w
  | terminal {n : Str} {w : W} : Asked E (.own (.terminal n)) w (.ok 1) w
  | nothing {w : W} : Asked E (.own .nothing) w (.ok 2) w
  | nil {w : W} : Asked E .nil w (.error .nilMethod) w
  | answer {id : Nat} {t : Int} {w w' : W} : E.type id w = (.ok t, w') → Asked E (.other id) w (.ok t) w'
  | throws {id : Nat} {v : Str} {w w' : W} : E.type id w = (.error v, w') → Asked E (.other id) w (.error (.thrown v)) w'

/-- The outcome of comparing two symbols.  The first is asked, then the second; if the answers agree the first is asked again,
and that answer decides what happens. -/
inductive SymCmp (E : World W) (a b : Sym) (w : W) : Cmp → W → Prop
  | left {p : Panic} {w₁ : W} : Asked E a w (.error p) w₁ → SymCmp E a b w (.panic p) w₁
  | right {p : Panic} {t : Int} {w₁ w₂ : W} : Asked E a w (.ok t) w₁ → Asked E b w₁ (.error p) w₂ →
      SymCmp E a b w (.panic p) w₂
  | types {t u : Int} {w₁ w₂ : W} : Asked E a w (.ok t) w₁ → Asked E b w₁ (.ok u) w₂ → t ≠ u →
      SymCmp E a b w (.result false) w₂
  | again {p : Panic} {t : Int} {w₁ w₂ w₃ : W} : Asked E a w (.ok t) w₁ → Asked E b w₁ (.ok t) w₂ →
      Asked E a w₂ (.error p) w₃ → SymCmp E a b w (.panic p) w₃
  | nonTerminals {t : Int} {n m : Str} {w₁ w₂ w₃ : W} : Asked E a w (.ok t) w₁ → Asked E b w₁ (.ok t) w₂ →
      Asked E a w₂ (.ok 0) w₃ → a = .own (.nonTerminal n) → b = .own (.nonTerminal m) →
      SymCmp E a b w (.result (decide (n = m))) w₃
  | terminals {t : Int} {n m : Str} {w₁ w₂ w₃ : W} : Asked E a w (.ok t) w₁ → Asked E b w₁ (.ok t) w₂ →
      Asked E a w₂ (.ok 1) w₃ → a = .own (.terminal n) → b = .own (.terminal m) →
      SymCmp E a b w (.result (decide (n = m))) w₃
  | pretends {t u : Int} {w₁ w₂ w₃ : W} : Asked E a w (.ok t) w₁ → Asked E b w₁ (.ok t) w₂ → Asked E a w₂ (.ok u) w₃ →
      u = 0 ∨ u = 1 → (∀ s, a ≠ .own s) ∨ (∀ s, b ≠ .own s) → SymCmp E a b w (.panic .conversion) w₃
  | nothing {t : Int} {w₁ w₂ w₃ : W} : Asked E a w (.ok t) w₁ → Asked E b w₁ (.ok t) w₂ → Asked E a w₂ (.ok 2) w₃ →
      SymCmp E a b w (.result true) w₃
  | unknown {t u v : Int} {w₁ w₂ w₃ w₄ : W} : Asked E a w (.ok t) w₁ → Asked E b w₁ (.ok t) w₂ → Asked E a w₂ (.ok u) w₃ →
      u < 0 ∨ 2 < u → Asked E a w₃ (.ok v) w₄ → SymCmp E a b w (.exit v) w₄
  | message {p : Panic} {t u : Int} {w₁ w₂ w₃ w₄ : W} : Asked E a w (.ok t) w₁ → Asked E b w₁ (.ok t) w₂ →
      Asked E a w₂ (.ok u) w₃ → u < 0 ∨ 2 < u → Asked E a w₃ (.error p) w₄ → SymCmp E a b w (.panic p) w₄

/-- Elements `0, …, n - 1` are compared one after the other, `R i` being the comparison at place `i`; the first that does not
come out equal ends it.  `worlds` are the worlds before, between and after the comparisons that come out equal. -/
def InOrder (n : Nat) (R : Nat → W → Cmp → W → Prop) (w : W) (c : Cmp) (w' : W) : Prop :=
  ∃ worlds : List W, worlds.head? = some w ∧
    (∀ i u v, worlds[i]? = some u → worlds[i + 1]? = some v → R i u (.result true) v) ∧
    ((worlds.length = n + 1 ∧ worlds.getLast? = some w' ∧ c = .result true) ∨
      ∃ i u, worlds.length = i + 1 ∧ i < n ∧ worlds.getLast? = some u ∧ R i u c w' ∧ c ≠ .result true)

/-- Comparing two slices: different lengths are seen at once; then the elements as they stand when their turn comes. -/
def SliceCmp {α : Type} (read : W → Slice → Nat → α) (R : α → α → W → Cmp → W → Prop) (a b : Slice) (w : W) (c : Cmp)
    (w' : W) : Prop :=
  (a.len ≠ b.len ∧ c = .result false ∧ w' = w) ∨
    (a.len = b.len ∧ InOrder a.len (fun i u => R (read u a i) (read u b i) u) w c w')

/-- The outcome of comparing two rules: heads first. -/
def RuleCmp (E : World W) (a b : RuleVal) (w : W) (c : Cmp) (w' : W) : Prop :=
  (a.head ≠ b.head ∧ c = .result false ∧ w' = w) ∨
    (a.head = b.head ∧
      SliceCmp (fun u s i => (E.mem u).sequences s.array (s.start + i))
        (SliceCmp (fun u s i => (E.mem u).symbols s.array (s.start + i)) (SymCmp E)) a.sequences b.sequences w c w')

/-- The outcome of comparing two grammars. -/
def GrammarCmp (E : World W) (a b : Slice) (w : W) (c : Cmp) (w' : W) : Prop :=
  SliceCmp (fun u s i => (E.mem u).rules s.array (s.start + i)) (RuleCmp E) a b w c w'

/-- Same shape, same heads, and `P` for every two symbols at the same place. -/
def PlaceByPlace (P : Sym → Sym → Prop) (m : Mem) (a b : Slice) : Prop :=
  a.len = b.len ∧ ∀ i < a.len,
    let r := m.rules a.array (a.start + i)
    let r' := m.rules b.array (b.start + i)
    r.head = r'.head ∧ r.sequences.len = r'.sequences.len ∧ ∀ j < r.sequences.len,
      let s := m.sequences r.sequences.array (r.sequences.start + j)
      let s' := m.sequences r'.sequences.array (r'.sequences.start + j)
      s.len = s'.len ∧ ∀ k < s.len, P (m.symbols s.array (s.start + k)) (m.symbols s'.array (s'.start + k))

/-- A grammar that stands in memory as a value, when the foreign symbol `id` always answers `answer id`. -/
def asValue (answer : Nat → Except Str Int) (m : Mem) (g : Slice) : AnySym.Grammar :=
  ⟨(List.range g.len).map fun i =>
    let r := m.rules g.array (g.start + i)
    ⟨r.head, (List.range r.sequences.len).map fun j =>
      let s := m.sequences r.sequences.array (r.sequences.start + j)
      (List.range s.len).map fun k =>
        match m.symbols s.array (s.start + k) with
        | .own y => .own y
        | .nil => .nil
        | .other id => .other (answer id) (.ok [])⟩⟩

end Weigh
end LL1
