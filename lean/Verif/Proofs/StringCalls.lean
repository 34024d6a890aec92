import Verif.Spec.StringCalls
import Verif.Props.AnySymbol

/-!
# Printing grammars whose symbols have effects: the proofs
-/

namespace LL1
namespace Told

variable {W : Type} {α : Type}

@[simp] theorem endOf_nil (w : W) : endOf w [] = w := rfl

theorem endOf_append (w : W) (a b : List (Step W)) : endOf w (a ++ b) = endOf (endOf w a) b := by
  unfold endOf
  cases h : b.getLast? with
  | none =>
    have : b = [] := List.getLast?_eq_none_iff.1 h
    subst this; simp
  | some x => simp [List.getLast?_append, h]

theorem endOf_cons (w : W) (c : Step W) (l : List (Step W)) : endOf w (c :: l) = endOf c.after l :=
  endOf_append w [c] l

theorem inTurn_nil (f : α → List (Step W)) (P : Nat → W → α → Prop) (w : W) : InTurn f P w [] := by
  intro pre x post h; simp at h

theorem inTurn_cons (f : α → List (Step W)) (P : Nat → W → α → Prop) (w : W) (x : α) (l : List α) :
    InTurn f P w (x :: l) ↔ P 0 w x ∧ InTurn f (fun i => P (i + 1)) (endOf w (f x)) l := by
  constructor
  · intro h
    refine ⟨h [] x l rfl, fun pre y post e => ?_⟩
    have := h (x :: pre) y post (by rw [e]; rfl)
    simpa [endOf_append] using this
  · rintro ⟨h0, h⟩ pre y post e
    cases pre with
    | nil => simp at e; obtain ⟨rfl, rfl⟩ := e; exact h0
    | cons z pre =>
      simp at e
      obtain ⟨rfl, rfl⟩ := e
      simpa [endOf_append] using h pre y post rfl

theorem inTurn_exists (f : α → List (Step W)) (n : Nat) : ∀ (P : Nat → W → α → Prop) (_ : ∀ i u, ∃! x, P i u x) (w : W),
    ∃! l : List α, l.length = n ∧ InTurn f P w l := by
  induction n with
  | zero => intro P _ w; exact ⟨[], ⟨rfl, inTurn_nil f P w⟩, fun l h => List.eq_nil_of_length_eq_zero h.1⟩
  | succ n ih =>
    intro P hP w
    obtain ⟨x, hx, ux⟩ := hP 0 w
    obtain ⟨l, ⟨hl, ht⟩, ul⟩ := ih (fun i => P (i + 1)) (fun i u => hP (i + 1) u) (endOf w (f x))
    refine ⟨x :: l, ⟨by simp [hl], (inTurn_cons ..).2 ⟨hx, ht⟩⟩, ?_⟩
    rintro l' ⟨hl', ht'⟩
    cases l' with
    | nil => simp at hl'
    | cons y l' =>
      obtain ⟨hy, ht''⟩ := (inTurn_cons ..).1 ht'
      have := ux y hy
      subst this
      rw [ul l' ⟨by simpa using hl', ht''⟩]

theorem isCall_exists (E : World W) (s : Slice) (i : Nat) (u : W) : ∃! c, IsCall E s i u c := by
  refine ⟨⟨u, (E.mem u).symbol s i, (((E.mem u).symbol s i).ask E u).1, (((E.mem u).symbol s i).ask E u).2⟩, ⟨rfl, rfl, rfl⟩, ?_⟩
  simp only [Mem.symbol]
  rintro ⟨b, y, a, f⟩ ⟨h1, h2, h3⟩
  simp only at h1 h2 h3
  subst h1 h2
  simp [← h3]

theorem isAlternative_exists (E : World W) (s : Slice) (u : W) : ∃! a, IsAlternative E s u a :=
  inTurn_exists _ _ _ (isCall_exists E s) u

theorem isRule_exists (E : World W) (v : RuleVal) (u : W) : ∃! r, IsRule E v u r := by
  obtain ⟨l, hl, ul⟩ := inTurn_exists (W := W) id v.sequences.len
    (fun i u a => IsAlternative E ((E.mem u).sequence v.sequences i) u a) (fun i u => isAlternative_exists E _ u) u
  refine ⟨⟨v.head, l⟩, ⟨rfl, hl⟩, ?_⟩
  rintro ⟨h, l'⟩ ⟨h1, h2⟩
  simp only at h1
  rw [h1, ul l' h2]

theorem isHistory_exists (E : World W) (g : Slice) (w : W) : ∃! h, IsHistory E g w h :=
  inTurn_exists _ _ _ (fun i u => isRule_exists E _ u) w

/-- A panicking call. -/
def Step.pan (c : Step W) : Option (AnySym.Panic × W) := match c.answer with | .ok _ => none | .error p => some (p, c.after)

def fin (p : Option (AnySym.Panic × W)) (t : Str) (w : W) : Except AnySym.Panic Str × W :=
  match p with
  | some (p, u) => (.error p, u)
  | none => (.ok t, w)

theorem symbolsLoop_eq (E : World W) (s : Slice) (a : List (Step W)) : ∀ k sb w,
    InTurn (fun c => [c]) (fun i => IsCall E s (i + k)) w a →
    symbolsLoop E s a.length k sb w = fin (a.findSome? Step.pan) (sb ++ a.flatMap fun c => 32 :: c.text) (endOf w a) := by
  induction a with
  | nil => intro k sb w _; simp [symbolsLoop, fin]
  | cons c a ih =>
    intro k sb w h
    obtain ⟨⟨h1, h2, h3⟩, ht⟩ := (inTurn_cons ..).1 h
    simp only [Nat.zero_add] at h1 h2 h3
    simp only [List.length_cons, symbolsLoop, Mem.symbol]
    rw [← h2, ← h3]
    cases ha : c.answer with
    | error p => simp [List.findSome?_cons, Step.pan, ha, fin]
    | ok t =>
      have ht' : InTurn (fun c => [c]) (fun i => IsCall E s (i + (k + 1))) c.after a := by
        simpa [endOf, Nat.add_assoc, Nat.add_comm 1 k] using ht
      simp only
      rw [ih (k + 1) _ _ ht']
      simp [List.findSome?_cons, Step.pan, ha, endOf_cons, Step.text]

/-- The answers of a history as symbols of a grammar that is a value. -/
def Step.val (c : Step W) : AnySym.Sym := .other (.ok 3) (.ok c.text)

theorem sequencesLoop_eq (E : World W) (s : Slice) (l : List (List (Step W))) : ∀ k sb w,
    InTurn id (fun i u a => IsAlternative E ((E.mem u).sequences s.array (s.start + (i + k))) u a) w l →
    sequencesLoop E s l.length k sb w = fin (l.flatten.findSome? Step.pan)
      (sb ++ AnySym.altsText k (l.map fun a => a.map Step.val)) (endOf w l.flatten) := by
  induction l with
  | nil => intro k sb w _; simp [sequencesLoop, fin, AnySym.altsText]
  | cons a l ih =>
    intro k sb w h
    obtain ⟨⟨h1, h2⟩, ht⟩ := (inTurn_cons ..).1 h
    simp only [Nat.zero_add] at h1 h2
    simp only [List.length_cons, sequencesLoop, Mem.sequence]
    rw [← h1, symbolsLoop_eq E _ a 0 _ w h2]
    simp only [List.flatten_cons, List.findSome?_append, endOf_append]
    cases hp : a.findSome? Step.pan with
    | some p => obtain ⟨p, u⟩ := p; simp [fin]
    | none =>
      have ht' : InTurn id (fun i u a => IsAlternative E ((E.mem u).sequences s.array (s.start + (i + (k + 1)))) u a) (endOf w a) l := by
        simpa [Nat.add_assoc, Nat.add_comm 1 k] using ht
      simp only [fin, Option.none_or]
      rw [ih (k + 1) _ _ ht']
      have : (a.flatMap fun c => 32 :: c.text) = (a.map Step.val).flatMap fun y => 32 :: AnySym.w y := by
        rw [List.flatMap_map]; rfl
      simp only [List.map_cons, AnySym.altsText, this]
      split <;> simp [fin, List.append_assoc]

def RuleHistory.val (r : RuleHistory W) : AnySym.Rule := ⟨r.head, r.alternatives.map fun a => a.map Step.val⟩

theorem ruleString_eq (E : World W) (v : RuleVal) (w : W) (r : RuleHistory W) (h : IsRule E v w r) :
    ruleString E v w = fin (r.calls.findSome? Step.pan) (AnySym.ruleText r.val) (endOf w r.calls) := by
  obtain ⟨h1, h2, h3⟩ := h
  unfold ruleString
  rw [← h2, sequencesLoop_eq E _ _ 0 _ w h3, ← h1]
  rfl

theorem rulesLoop_eq (E : World W) (g : Slice) (l : List (RuleHistory W)) : ∀ k sb w,
    InTurn RuleHistory.calls (fun i u r => IsRule E ((E.mem u).rules g.array (g.start + (i + k))) u r) w l →
    rulesLoop E g l.length k sb w = fin ((calls l).findSome? Step.pan)
      (sb ++ l.flatMap fun r => 10 :: AnySym.ruleText r.val) (endOf w (calls l)) := by
  induction l with
  | nil => intro k sb w _; simp [rulesLoop, fin, calls]
  | cons r l ih =>
    intro k sb w h
    obtain ⟨h1, ht⟩ := (inTurn_cons ..).1 h
    simp only [Nat.zero_add] at h1
    simp only [List.length_cons, rulesLoop, Mem.rule]
    rw [ruleString_eq E _ w r h1]
    simp only [calls, List.flatMap_cons, List.findSome?_append, endOf_append]
    cases hp : r.calls.findSome? Step.pan with
    | some p => obtain ⟨p, u⟩ := p; simp [fin]
    | none =>
      have ht' : InTurn RuleHistory.calls (fun i u r => IsRule E ((E.mem u).rules g.array (g.start + (i + (k + 1)))) u r) (endOf w r.calls) l := by
        simpa [Nat.add_assoc, Nat.add_comm 1 k] using ht
      simp only [fin, Option.none_or]
      rw [ih (k + 1) _ _ ht']
      simp [fin, calls, List.append_assoc]

theorem layout_eq (h : List (RuleHistory W)) : layout h = [10].intercalate (h.map fun r => AnySym.ruleText r.val) := by
  unfold layout
  congr 1
  apply List.map_congr_left
  intro r _
  rw [AnySym.ruleText_words AnySym.w _ (fun _ _ => rfl)]
  unfold AnySym.Rule.words RuleHistory.val
  have e : ((fun s => List.map AnySym.w s) ∘ fun a : List (Step W) => List.map Step.val a) = fun a => a.map Step.text := by
    funext a
    simp only [Function.comp, List.map_map]
    rfl
  simp only [List.map_map, e]

theorem grammarString_eq (E : World W) (g : Slice) (w : W) (h : List (RuleHistory W)) (hh : IsHistory E g w h) :
    grammarString E g w = fin ((calls h).findSome? Step.pan) (layout h) (endOf w (calls h)) := by
  obtain ⟨h1, h2⟩ := hh
  rw [layout_eq]
  unfold grammarString
  cases h with
  | nil => simp at h1; simp [← h1, calls, fin, List.intercalate]
  | cons r l =>
    obtain ⟨hr, ht⟩ := (inTurn_cons ..).1 h2
    rw [if_neg (by simp at h1; omega)]
    simp only [Mem.rule]
    rw [ruleString_eq E _ w r hr]
    have hl : g.len - 1 = l.length := by simp at h1; omega
    rw [hl]
    simp only [calls, List.flatMap_cons, List.findSome?_append, endOf_append, List.map_cons, AnySym.intercalate_lines]
    cases hp : r.calls.findSome? Step.pan with
    | some p => obtain ⟨p, u⟩ := p; simp [fin]
    | none =>
      simp only [fin, Option.none_or]
      rw [rulesLoop_eq E g l 1 _ _ ht]
      simp [fin, calls, List.flatMap_map]

/-! ## The calls one after another -/

/-- Every call is the symbol's own `String`, and starts where the one before ended. -/
def Linked (E : World W) : W → List (Step W) → Prop
  | _, [] => True
  | w, c :: l => c.before = w ∧ (c.answer, c.after) = c.symbol.ask E w ∧ Linked E c.after l

theorem linked_append (E : World W) (a b : List (Step W)) : ∀ w, Linked E w (a ++ b) ↔ Linked E w a ∧ Linked E (endOf w a) b := by
  induction a with
  | nil => intro w; simp [Linked]
  | cons c a ih => intro w; simp only [List.cons_append, Linked, ih, endOf_cons]; tauto

theorem linked_flatMap (E : World W) (f : α → List (Step W)) (l : List α) : ∀ (P : Nat → W → α → Prop)
    (_ : ∀ i u x, P i u x → Linked E u (f x)) (w : W), InTurn f P w l → Linked E w (l.flatMap f) := by
  induction l with
  | nil => intro _ _ w _; trivial
  | cons x l ih =>
    intro P hP w h
    obtain ⟨hx, ht⟩ := (inTurn_cons ..).1 h
    rw [List.flatMap_cons, linked_append]
    exact ⟨hP 0 w x hx, ih _ (fun i u y hy => hP (i + 1) u y hy) _ ht⟩

theorem linked_alternative (E : World W) (s : Slice) (u : W) (a : List (Step W)) (h : IsAlternative E s u a) : Linked E u a := by
  have := linked_flatMap E (fun c => [c]) a (IsCall E s) (fun i u c hc => by
    obtain ⟨h1, _, h3⟩ := hc
    exact ⟨h1, h3, trivial⟩) u h.2
  simpa using this

theorem linked_rule (E : World W) (v : RuleVal) (u : W) (r : RuleHistory W) (h : IsRule E v u r) : Linked E u r.calls := by
  have := linked_flatMap E id r.alternatives _ (fun i u a ha => linked_alternative E _ u a ha) u h.2.2
  simpa [RuleHistory.calls, List.flatMap_id] using this

theorem linked_history (E : World W) (g : Slice) (w : W) (h : List (RuleHistory W)) (hh : IsHistory E g w h) :
    Linked E w (calls h) :=
  linked_flatMap E _ h _ (fun _ u r hr => linked_rule E _ u r hr) w hh.2

/-! ## Methods that leave the grammar alone -/

theorem mem_endOf (E : World W) (hE : ∀ id u, E.mem (E.text id u).2 = E.mem u) (a : List (Step W)) : ∀ w, Linked E w a →
    E.mem (endOf w a) = E.mem w := by
  induction a with
  | nil => intro w _; rfl
  | cons c a ih =>
    intro w h
    obtain ⟨_, h2, h3⟩ := h
    rw [endOf_cons, ih _ h3]
    have : c.after = (c.symbol.ask E w).2 := by rw [← h2]
    rw [this]
    unfold Sym.ask
    cases c.symbol with
    | own s => rfl
    | nil => rfl
    | other id =>
      simp only
      have := hE id w
      cases ht : E.text id w with
      | mk r v => rw [ht] at this; cases r <;> simpa using this

theorem symbols_inTurn (E : World W) (hE : ∀ id u, E.mem (E.text id u).2 = E.mem u) (f : α → List (Step W)) (l : List α) :
    ∀ (P : Nat → W → α → Prop) (Q : Nat → Mem → List Sym)
    (_ : ∀ i u x, P i u x → Linked E u (f x) ∧ (f x).map Step.symbol = Q i (E.mem u)) (w : W), InTurn f P w l →
    (l.flatMap f).map Step.symbol = (List.range l.length).flatMap fun i => Q i (E.mem w) := by
  induction l with
  | nil => intro _ _ _ w _; rfl
  | cons x l ih =>
    intro P Q hP w h
    obtain ⟨hx, ht⟩ := (inTurn_cons ..).1 h
    have := ih (fun i => P (i + 1)) (fun i => Q (i + 1)) (fun i u y hy => hP (i + 1) u y hy) _ ht
    rw [List.flatMap_cons, List.map_append, this, (hP 0 w x hx).2, mem_endOf E hE _ w (hP 0 w x hx).1, List.length_cons,
      List.range_succ_eq_map, List.flatMap_cons, List.flatMap_map]

theorem symbols_history (E : World W) (hE : ∀ id u, E.mem (E.text id u).2 = E.mem u) (g : Slice) (w : W)
    (h : List (RuleHistory W)) (hh : IsHistory E g w h) : (calls h).map Step.symbol = symbolsIn (E.mem w) g := by
  have key := symbols_inTurn E hE RuleHistory.calls h _
    (fun i m => (List.range (m.rules g.array (g.start + i)).sequences.len).flatMap fun j =>
      let s := m.sequences (m.rules g.array (g.start + i)).sequences.array ((m.rules g.array (g.start + i)).sequences.start + j)
      (List.range s.len).map fun k => m.symbols s.array (s.start + k)) (fun i u r hr => by
        refine ⟨linked_rule E _ u r hr, ?_⟩
        have k2 := symbols_inTurn E hE id r.alternatives _
          (fun j m => let s := m.sequences ((E.mem u).rules g.array (g.start + i)).sequences.array (((E.mem u).rules g.array (g.start + i)).sequences.start + j)
            (List.range s.len).map fun k => m.symbols s.array (s.start + k)) (fun j v a ha => by
              refine ⟨linked_alternative E _ v a ha, ?_⟩
              have k3 := symbols_inTurn E hE (fun c => [c]) a _
                (fun k m => let s := (E.mem v).sequences ((E.mem u).rules g.array (g.start + i)).sequences.array (((E.mem u).rules g.array (g.start + i)).sequences.start + j)
                  [m.symbols s.array (s.start + k)]) (fun k x c hc => by
                  obtain ⟨h1, h2, h3⟩ := hc
                  exact ⟨⟨h1, h3, trivial⟩, by simp [h2]⟩) v ha.2
              have e : ∀ (l : List Nat) (f : Nat → Sym), l.flatMap (fun k => [f k]) = l.map f := by
                intro l f; induction l <;> simp_all
              rw [e, ha.1] at k3
              simpa using k3) u hr.2.2
        rw [hr.2.1] at k2
        simpa [RuleHistory.calls, List.flatMap_id] using k2) w hh.2
  rw [hh.1] at key
  exact key

/-! ## Methods that always answer the same -/

section Constant

variable (E : World W) (answer : Nat → Except Str Str) (hE : ∀ id u, E.text id u = (answer id, u))

/-- A symbol as a value. -/
def Sym.value (answer : Nat → Except Str Str) : Sym → AnySym.Sym
  | .own y => .own y
  | .nil => .nil
  | .other id => .other (.ok 3) (answer id)

include hE in
theorem ask_constant (y : Sym) (w : W) : y.ask E w = ((y.value answer).string, w) := by
  cases y with
  | own s => rfl
  | nil => rfl
  | other id =>
    simp only [Sym.ask, hE, Sym.value]
    cases answer id <;> rfl

include hE in
theorem symbolsLoop_constant (s : Slice) (w : W) (n : Nat) : ∀ k sb,
    symbolsLoop E s n k sb w =
      (AnySym.symbolsLoop sb ((List.range' k n).map fun i => ((E.mem w).symbol s i).value answer), w) := by
  induction n with
  | zero => intro k sb; rfl
  | succ n ih =>
    intro k sb
    simp only [symbolsLoop, List.range'_succ, List.map_cons, AnySym.symbolsLoop, ask_constant E answer hE]
    cases (((E.mem w).symbol s k).value answer).string with
    | error p => rfl
    | ok t => exact ih ..

/-- An alternative as a value. -/
def seqValue (answer : Nat → Except Str Str) (m : Mem) (s : Slice) : List AnySym.Sym :=
  (List.range s.len).map fun i => (m.symbol s i).value answer

include hE in
theorem sequencesLoop_constant (s : Slice) (w : W) (n : Nat) : ∀ k sb,
    sequencesLoop E s n k sb w =
      (AnySym.sequencesLoop sb k ((List.range' k n).map fun i => seqValue answer (E.mem w) ((E.mem w).sequence s i)), w) := by
  induction n with
  | zero => intro k sb; rfl
  | succ n ih =>
    intro k sb
    simp only [sequencesLoop, List.range'_succ, List.map_cons, AnySym.sequencesLoop, symbolsLoop_constant E answer hE]
    rw [← List.range_eq_range', ← seqValue]
    cases AnySym.symbolsLoop (if k > 0 then sb ++ [32, 124] else sb) (seqValue answer (E.mem w) ((E.mem w).sequence s k)) with
    | error p => rfl
    | ok t => exact ih ..

/-- A rule as a value. -/
def ruleValue (answer : Nat → Except Str Str) (m : Mem) (r : RuleVal) : AnySym.Rule :=
  ⟨r.head, (List.range r.sequences.len).map fun i => seqValue answer m (m.sequence r.sequences i)⟩

include hE in
theorem ruleString_constant (r : RuleVal) (w : W) :
    ruleString E r w = ((ruleValue answer (E.mem w) r).string, w) := by
  unfold ruleString AnySym.Rule.string ruleValue
  rw [sequencesLoop_constant E answer hE, ← List.range_eq_range']

include hE in
theorem rulesLoop_constant (g : Slice) (w : W) (n : Nat) : ∀ k sb,
    rulesLoop E g n k sb w =
      (AnySym.rulesLoop sb ((List.range' k n).map fun i => ruleValue answer (E.mem w) ((E.mem w).rule g i)), w) := by
  induction n with
  | zero => intro k sb; rfl
  | succ n ih =>
    intro k sb
    simp only [rulesLoop, List.range'_succ, List.map_cons, AnySym.rulesLoop, ruleString_constant E answer hE]
    cases (ruleValue answer (E.mem w) ((E.mem w).rule g k)).string with
    | error p => rfl
    | ok t => exact ih ..

theorem asValue_eq (m : Mem) (g : Slice) :
    asValue answer m g = ⟨(List.range' 0 g.len).map fun i => ruleValue answer m (m.rule g i)⟩ := by
  rw [← List.range_eq_range']
  unfold asValue ruleValue seqValue Sym.value
  rfl

include hE in
theorem grammarString_constant (g : Slice) (w : W) :
    grammarString E g w = ((asValue answer (E.mem w) g).string, w) := by
  unfold grammarString
  rw [asValue_eq]
  cases hg : g.len with
  | zero => simp [AnySym.Grammar.string]
  | succ n =>
    simp only [List.range'_succ, List.map_cons, AnySym.Grammar.string, ruleString_constant E answer hE]
    rw [if_neg (by omega)]
    cases (ruleValue answer (E.mem w) ((E.mem w).rule g 0)).string with
    | error p => rfl
    | ok t => exact rulesLoop_constant E answer hE g w n 1 t

end Constant

end Told
end LL1
