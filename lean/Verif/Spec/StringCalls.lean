import Verif.Model.StringCalls
import Verif.Spec.AnySymbol

/-!
# What printing a grammar asks of its symbols

A *history* records, rule by rule and alternative by alternative, what each symbol was asked and what it answered.  If a
symbol panics the history says how it would have gone on.
-/

namespace LL1
namespace Told

variable {W : Type}

/-- One call of a symbol's `String`: the world before and after it, and the answer. -/
structure Step (W : Type) where
  before : W
  symbol : Sym
  answer : Except AnySym.Panic Str
  after : W

/-- The world after these calls. -/
def endOf (w : W) (l : List (Step W)) : W := (l.getLast?.map Step.after).getD w

/-- Every `x` of the list satisfies `P i u x`, where `i` is its place and `u` the world when its turn comes, that is after
the calls made for the elements before it. -/
def InTurn {α : Type} (calls : α → List (Step W)) (P : Nat → W → α → Prop) (w : W) (l : List α) : Prop :=
  ∀ pre x post, l = pre ++ x :: post → P pre.length (endOf w (pre.flatMap calls)) x

/-- A call of the symbol that stands at place `i` of the slice at that moment. -/
def IsCall (E : World W) (s : Slice) (i : Nat) (u : W) (c : Step W) : Prop :=
  c.before = u ∧ c.symbol = (E.mem u).symbols s.array (s.start + i) ∧ (c.answer, c.after) = c.symbol.ask E u

/-- One call for every element of the slice. -/
def IsAlternative (E : World W) (s : Slice) (u : W) (a : List (Step W)) : Prop :=
  a.length = s.len ∧ InTurn (fun c => [c]) (IsCall E s) u a

/-- The calls for one rule: its head and its alternatives, each as it stands when its turn comes. -/
structure RuleHistory (W : Type) where
  head : Str
  alternatives : List (List (Step W))

def RuleHistory.calls (r : RuleHistory W) : List (Step W) := r.alternatives.flatten

def IsRule (E : World W) (v : RuleVal) (u : W) (r : RuleHistory W) : Prop :=
  r.head = v.head ∧ r.alternatives.length = v.sequences.len ∧
    InTurn id (fun i u a => IsAlternative E ((E.mem u).sequences v.sequences.array (v.sequences.start + i)) u a) u r.alternatives

/-- The history of printing the grammar whose rules are the slice `g`. -/
def IsHistory (E : World W) (g : Slice) (w : W) (h : List (RuleHistory W)) : Prop :=
  h.length = g.len ∧ InTurn RuleHistory.calls (fun i u r => IsRule E ((E.mem u).rules g.array (g.start + i)) u r) w h

/-- All calls of a history in their order. -/
def calls (h : List (RuleHistory W)) : List (Step W) := h.flatMap RuleHistory.calls

/-- The text of an answer. -/
def Step.text (c : Step W) : Str := match c.answer with | .ok t => t | .error _ => []

def Step.fine (c : Step W) : Prop := ∃ t, c.answer = .ok t

/-- One line per rule: the head, `::=` and the answers with `|` between the alternatives, separated by blanks. -/
def layout (h : List (RuleHistory W)) : Str :=
  [10].intercalate (h.map fun r => [32].intercalate
    ([60 :: (r.head ++ [62]), [58, 58, 61]] ++ ([[124]] : List Str).intercalate (r.alternatives.map fun a => a.map Step.text)))

/-- The symbols of a grammar that stands in memory, in the order of the text. -/
def symbolsIn (m : Mem) (g : Slice) : List Sym :=
  (List.range g.len).flatMap fun i =>
    let alternatives := (m.rules g.array (g.start + i)).sequences
    (List.range alternatives.len).flatMap fun j =>
      let s := m.sequences alternatives.array (alternatives.start + j)
      (List.range s.len).map fun k => m.symbols s.array (s.start + k)

/-- A grammar that stands in memory as a value, when the foreign symbol `id` always answers `answer id`. -/
def asValue (answer : Nat → Except Str Str) (m : Mem) (g : Slice) : AnySym.Grammar :=
  ⟨(List.range g.len).map fun i =>
    let r := m.rules g.array (g.start + i)
    ⟨r.head, (List.range r.sequences.len).map fun j =>
      let s := m.sequences r.sequences.array (r.sequences.start + j)
      (List.range s.len).map fun k =>
        match m.symbols s.array (s.start + k) with
        | .own y => .own y
        | .nil => .nil
        | .other id => .other (.ok 3) (answer id)⟩⟩

end Told
end LL1
