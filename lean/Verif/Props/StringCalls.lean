import Verif.Proofs.StringCalls

/-!
# C108: printing a grammar whose symbols have effects
-/

namespace LL1
namespace Told

variable {W : Type}

/-- Whatever the methods do, there is exactly one history: one call for each symbol, as it stands when its turn comes; a rule
slice is as long as it was at the start, a rule has the alternatives it has when it is reached, an alternative the symbols it
has when it is reached. -/
theorem C108_history (E : World W) (g : Slice) (w : W) : ∃! h, IsHistory E g w h := isHistory_exists E g w

/-- If every symbol of the history answers, `String` returns the answers laid out, in the world after the last call. -/
theorem C108_text (E : World W) (g : Slice) (w : W) (h : List (RuleHistory W)) (hh : IsHistory E g w h)
    (hf : ∀ c ∈ calls h, c.fine) : grammarString E g w = (.ok (layout h), endOf w (calls h)) := by
  rw [grammarString_eq E g w h hh]
  have : (calls h).findSome? Step.pan = none := by
    rw [List.findSome?_eq_none_iff]
    intro c hc
    obtain ⟨t, ht⟩ := hf c hc
    simp [Step.pan, ht]
  rw [this]; rfl

/-- The first panic ends `String`: no symbol after it is asked. -/
theorem C108_panic (E : World W) (g : Slice) (w : W) (h : List (RuleHistory W)) (hh : IsHistory E g w h)
    {pre post : List (Step W)} {c : Step W} {p : AnySym.Panic} (hc : calls h = pre ++ c :: post) (hf : ∀ c ∈ pre, c.fine)
    (hp : c.answer = .error p) : grammarString E g w = (.error p, c.after) := by
  rw [grammarString_eq E g w h hh, hc, List.findSome?_append]
  have : pre.findSome? Step.pan = none := by
    rw [List.findSome?_eq_none_iff]
    intro c hc
    obtain ⟨t, ht⟩ := hf c hc
    simp [Step.pan, ht]
  rw [this]
  simp [List.findSome?_cons, Step.pan, hp, fin]

/-- Every call of the history is a call of that symbol's own method, in the world the calls before it left behind: between
the calls nothing happens to the world. -/
theorem C108_chain (E : World W) (g : Slice) (w : W) (h : List (RuleHistory W)) (hh : IsHistory E g w h)
    {pre post : List (Step W)} {c : Step W} (hc : calls h = pre ++ c :: post) :
    c.before = endOf w pre ∧ (c.answer, c.after) = c.symbol.ask E (endOf w pre) := by
  have := linked_history E g w h hh
  rw [hc, linked_append] at this
  exact ⟨this.2.1, this.2.2.1⟩

/-- If the methods leave the memory of grammars alone, the symbols asked are the symbols of the grammar, each once, in the
order of the text. -/
theorem C108_once (E : World W) (hE : ∀ id u, E.mem (E.text id u).2 = E.mem u) (g : Slice) (w : W)
    (h : List (RuleHistory W)) (hh : IsHistory E g w h) : (calls h).map Step.symbol = symbolsIn (E.mem w) g :=
  symbols_history E hE g w h hh

/-- If the methods have no effects and always answer the same, this is the `String` of C89 and the world stays as it is. -/
theorem C108_constant (E : World W) (answer : Nat → Except Str Str) (hE : ∀ id u, E.text id u = (answer id, u)) (g : Slice)
    (w : W) : grammarString E g w = ((asValue answer (E.mem w) g).string, w) :=
  grammarString_constant E answer hE g w

/-! ## Examples -/

/-- Printing twice: `<x> ::= X0 X0 | X1` where `X0` says how often it has been asked and `X1` panics at the fourth call
made. -/
def counting : World Nat :=
  { mem := fun _ => ⟨fun _ _ => ⟨b!"x", ⟨0, 0, 2⟩⟩, fun _ i => if i = 0 then ⟨0, 0, 2⟩ else ⟨0, 2, 1⟩,
      fun _ i => if i < 2 then .other 0 else .other 1⟩
    text := fun id n => if id = 0 then (.ok (fmtInt n), n + 1) else if n < 4 then (.ok b!"ok", n) else (.error b!"late", n + 100) }

example : grammarString counting ⟨0, 0, 1⟩ 0 = (.ok b!"<x> ::= 0 1 | ok", 2) := by decide +kernel
example : grammarString counting ⟨0, 0, 1⟩ 2 = (.error (.thrown b!"late"), 104) := by decide +kernel
example : ∀ id u, counting.mem (counting.text id u).2 = counting.mem u := fun _ _ => rfl
example : symbolsIn (counting.mem 0) ⟨0, 0, 1⟩ = [.other 0, .other 0, .other 1] := by decide +kernel

/-- A symbol that, while it is printed, replaces every symbol of its grammar by `"a"`, cuts the second rule down to no
alternatives and renames it: what has been printed stays, what comes later is printed as it now stands. -/
def meddling : World Bool :=
  { mem := fun done => ⟨fun _ i => if i = 0 then ⟨b!"x", ⟨0, 0, 2⟩⟩ else if done then ⟨b!"gone", ⟨0, 0, 0⟩⟩ else ⟨b!"y", ⟨0, 0, 1⟩⟩,
      fun _ _ => ⟨0, 0, 2⟩, fun _ i => if done then .own (.terminal b!"a") else if i = 0 then .own .nothing else .other 7⟩
    text := fun _ _ => (.ok b!"meddler", true) }

example : grammarString meddling ⟨0, 0, 2⟩ false = (.ok b!"<x> ::= \"\" meddler | \"a\" \"a\"\n<gone> ::=", true) := by decide +kernel
example : grammarString meddling ⟨0, 0, 2⟩ true = (.ok b!"<x> ::= \"a\" \"a\" | \"a\" \"a\"\n<gone> ::=", true) := by decide +kernel

end Told
end LL1
