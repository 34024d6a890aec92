import Verif.Proofs.TypeCalls

/-!
# C110: comparing grammars whose symbols' `Type` methods have effects
-/

namespace LL1
namespace Weigh

open Told (Slice Sym RuleVal Mem)
open AnySym (Panic Cmp)

variable {W : Type}

/-- **C110.** Comparing two grammars ends as the specification says, whatever the `Type` methods do: place by place, each
element as it stands when its turn comes, and the first pair that does not come out equal ends the comparison. -/
theorem C110_compare (E : World W) (a b : Slice) (w : W) (c : Cmp) (w' : W) :
    isGrammarsEqual E a b w = (c, w') ↔ GrammarCmp E a b w c w' := grammars_iff E a b w c w'

/-- If the methods leave the memory of grammars alone, the result `true` means: same shape and heads; the package's symbols
stand opposite equal ones or opposite foreign symbols, and those other than the empty-string symbol of the first grammar only
opposite equal ones; nil occurs nowhere. -/
theorem C110_true (E : World W) (hE : ∀ id u, E.mem (E.type id u).2 = E.mem u) (a b : Slice) (w : W)
    (h : (isGrammarsEqual E a b w).1 = .result true) :
    PlaceByPlace (fun x y => x ≠ .nil ∧ y ≠ .nil ∧ (∀ s t, x = .own s → y = .own t → s = t) ∧
      ∀ s, x = .own s → s ≠ .nothing → y = .own s) (E.mem w) a b := by
  refine grammar_true hE (fun x y u v hs => ?_) ((grammars_iff E a b w _ (isGrammarsEqual E a b w).2).1 (Prod.ext h rfl))
  rcases sym_true hs with ⟨s, rfl, rfl⟩ | ⟨⟨id, rfl⟩, hy⟩ | ⟨rfl, id, rfl⟩ <;> simp_all

/-- Grammars of the package's own symbols only: the comparison decides equality, never panics, and touches nothing. -/
theorem C110_own (E : World W) (a b : Slice) (w : W) (ha : ∀ y ∈ Told.symbolsIn (E.mem w) a, ∃ s, y = .own s)
    (hb : ∀ y ∈ Told.symbolsIn (E.mem w) b, ∃ s, y = .own s) :
    ∃ r, isGrammarsEqual E a b w = (.result r, w) ∧ (r = true ↔ PlaceByPlace (· = ·) (E.mem w) a b) :=
  grammars_own E a b w ha hb

/-- If the methods have no effects and always answer the same, this is the comparison of C89 and the world stays as it is. -/
theorem C110_constant (E : World W) (answer : Nat → Except Str Int) (hE : ∀ id u, E.type id u = (answer id, u)) (a b : Slice)
    (w : W) : isGrammarsEqual E a b w = (AnySym.isGrammarsEqual (asValue answer (E.mem w) a) (asValue answer (E.mem w) b), w) :=
  grammars_constant hE w a b

/-! ## Examples -/

/-- `<x> ::= F` and `<x> ::= <y>`, where the foreign symbol `F` answers 0 and 2 in turn; the world is the number of calls. -/
def fickle : World Nat :=
  { mem := fun _ => ⟨fun a _ => ⟨b!"x", ⟨a, 0, 1⟩⟩, fun a _ => ⟨a, 0, 1⟩, fun a _ => if a = 0 then .other 0 else .own (.nonTerminal b!"y")⟩
    type := fun _ w => (.ok (if w % 2 = 0 then 0 else 2), w + 1) }

/-- `F` is equal to `<y>`, but `<y>` is not equal to `F`, nor is `F` to itself. -/
theorem C110_fickle :
    (∀ id u, fickle.mem (fickle.type id u).2 = fickle.mem u) ∧
    isGrammarsEqual fickle ⟨0, 0, 1⟩ ⟨1, 0, 1⟩ 0 = (.result true, 2) ∧
    isGrammarsEqual fickle ⟨1, 0, 1⟩ ⟨0, 0, 1⟩ 0 = (.panic .conversion, 1) ∧
    isGrammarsEqual fickle ⟨0, 0, 1⟩ ⟨0, 0, 1⟩ 0 = (.result false, 2) ∧
    isGrammarsEqual fickle ⟨0, 0, 1⟩ ⟨1, 0, 1⟩ 1 = (.result false, 2) ∧
    isGrammarsEqual fickle ⟨1, 0, 1⟩ ⟨1, 0, 1⟩ 5 = (.result true, 5) :=
  ⟨fun _ _ => rfl, by decide +kernel, by decide +kernel, by decide +kernel, by decide +kernel, by decide +kernel⟩

/-- `<x> ::= F "a"` and `<x> ::= "" "b"`, where asking `F` turns `"a"` into `"b"`: the world is whether that has happened. -/
def meddler : World Bool :=
  { mem := fun w => ⟨fun a _ => ⟨b!"x", ⟨a, 0, 1⟩⟩, fun a _ => ⟨a, 0, 2⟩, fun a i =>
      if a = 0 then (if i = 0 then .other 0 else .own (.terminal (if w then b!"b" else b!"a")))
      else (if i = 0 then .own .nothing else .own (.terminal b!"b"))⟩
    type := fun _ _ => (.ok 2, true) }

/-- Elements are read when their turn comes: the grammars come out equal although they were not when the comparison began.
An unknown type is asked for once more for the message. -/
theorem C110_meddler :
    isGrammarsEqual meddler ⟨0, 0, 1⟩ ⟨1, 0, 1⟩ false = (.result true, true) ∧
    ¬ PlaceByPlace (fun x y => ∀ s t, x = .own s → y = .own t → s = t) (meddler.mem false) ⟨0, 0, 1⟩ ⟨1, 0, 1⟩ ∧
    isSymbolsEqual { fickle with type := fun id w => (if w < 3 then .ok 7 else if id = 0 then .error b!"no" else .ok 8, w + 1) }
      (.other 0) (.other 0) 0 = (.panic (.thrown b!"no"), 4) ∧
    isSymbolsEqual { fickle with type := fun id w => (if w < 3 then .ok 7 else if id = 0 then .error b!"no" else .ok 8, w + 1) }
      (.other 1) (.other 0) 0 = (.exit 8, 4) := by
  refine ⟨by decide +kernel, fun h => ?_, by decide +kernel, by decide +kernel⟩
  have := ((h.2 0 (by decide)).2.2 0 (by decide)).2 1 (by decide) _ _ rfl rfl
  exact absurd this (by decide)

end Weigh
end LL1
