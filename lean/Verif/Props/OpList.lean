import Verif.Model.OpList
import Verif.Props.World

/-!
# C100: `NewParserOpList` makes a list of its own
-/

namespace LL1

/-! ## Specification -/

/-- The event is a write into the array under the slice. -/
def Event.Writes (e : Event) (s : OpSlice) : Prop := ∃ i op, e = .setOp s.arr i op

/-! ## Proofs -/

theorem World.edits_arrays {w : World} {a : Nat} {es : List Event} (h : ∀ e ∈ es, ∀ i op, e ≠ .setOp a i op) :
    (w.edits es).arrays a = w.arrays a := by
  induction es generalizing w with
  | nil => rfl
  | cons e es ih =>
    have h1 := ih (w := w.edit e) (fun e' h' => h e' (List.mem_cons_of_mem _ h'))
    refine (show (w.edits (e :: es)).arrays a = ((w.edit e).edits es).arrays a from rfl).trans (h1.trans ?_)
    have h2 := h e List.mem_cons_self
    cases e with
    | setOp b i op =>
      simp only [World.edit, upd]
      split
      · next hb => subst hb; exact absurd rfl (h2 i op)
      · rfl
    | _ => rfl

theorem World.Runs.ops_eq {w w' : World} {es : List Event} {os : List (Option Outcome)} (h : w.Runs es w' os)
    {s : OpSlice} (hs : ∀ e ∈ es, ¬ e.Writes s) : w'.ops s = w.ops s := by
  unfold World.ops
  rw [(C67_memory w w' es os h).arrays, World.edits_arrays]
  intro e he i op hc
  exact hs e he ⟨i, op, hc⟩

/-- **C100.** `NewParserOpList` returns a list of exactly the operations it is given, in that order.  No other slice
shows anything else than before, and no parser does. -/
theorem C100_copy (w : World) (a spare : Nat) (s : OpSlice) :
    let r := w.newParserOpList a spare s
    r.1.ops r.2 = w.ops s ∧ r.2.len = (w.ops s).length ∧
    (∀ s', s'.arr ≠ a → r.1.ops s' = w.ops s') ∧
    (∀ p, ¬ w.ReachesArray p a → r.1.parser p = w.parser p) := by
  intro r
  have hr : r = w.newParserOpList a spare s := rfl
  clear_value r; subst hr
  unfold World.newParserOpList
  split
  · next h =>
    rw [h]
    exact ⟨by simp [World.ops], rfl, fun _ _ => rfl, fun _ _ => rfl⟩
  · refine ⟨by simp [World.ops, upd], rfl, ?_, ?_⟩
    · intro s' hs'
      simp [World.ops, upd, hs']
    · intro p hp
      unfold World.parser
      congr 1
      apply table_frame (w := w)
      · exact fun _ _ => rfl
      · exact fun _ _ => rfl
      · intro b hb
        simp only [upd]
        split
        · next e => subst e; exact absurd hb hp
        · rfl

/-- **C100.** The list is its own: whatever the program does afterwards — also with the slice the list was made from —
the list stays as it was, unless the program writes into the list itself. -/
theorem C100_kept (w w' : World) (a spare : Nat) (s : OpSlice) (es : List Event) (os : List (Option Outcome))
    (h : (w.newParserOpList a spare s).1.Runs es w' os)
    (hes : ∀ e ∈ es, ¬ e.Writes (w.newParserOpList a spare s).2) :
    w'.ops (w.newParserOpList a spare s).2 = w.ops s := by
  rw [h.ops_eq hes]
  exact (C100_copy w a spare s).1

/-- **C100.** And the other way round: a program that writes only into the new list changes no other slice. -/
theorem C100_source_kept (w w' : World) (a spare : Nat) (s s' : OpSlice) (es : List Event) (os : List (Option Outcome))
    (h : (w.newParserOpList a spare s).1.Runs es w' os) (hs' : s'.arr ≠ a)
    (hes : ∀ e ∈ es, e.Writes s' → e.Writes (w.newParserOpList a spare s).2) : w'.ops s' = w.ops s' := by
  rw [← (C100_copy w a spare s).2.2.1 s' hs']
  apply h.ops_eq
  rintro e he ⟨i, op, rfl⟩
  obtain ⟨j, op', h'⟩ := hes _ he ⟨i, op, rfl⟩
  simp only [Event.setOp.injEq] at h'
  apply hs'
  rw [h'.1]
  unfold World.newParserOpList
  split <;> rfl

theorem edits_setOps {w : World} {es : List Event} (h : ∀ e ∈ es, ∃ b i op, e = Event.setOp b i op) :
    (w.edits es).rows = w.rows ∧ (w.edits es).tables = w.tables ∧ (w.edits es).names = w.names := by
  induction es generalizing w with
  | nil => exact ⟨rfl, rfl, rfl⟩
  | cons e es ih =>
    obtain ⟨b, i, op, rfl⟩ := h e List.mem_cons_self
    exact ih (w := w.edit (.setOp b i op)) (fun e' h' => h e' (List.mem_cons_of_mem _ h'))

/-- **C100.** A table cell filled with `NewParserOpList(list...)` keeps the operations of the moment, however the caller
then overwrites `list`, or any other slice.  Filled with `list` itself, it does not: the next write into the list is a
write into the cell. -/
theorem C100_cell (w : World) (a spare : Nat) (s : OpSlice) (t r : Nat) (names : Option Nat) (n : Int) (c : UInt8)
    (hrow : (w.tables t).get n = some (some r)) :
    let p := newLL1Parser (some t) names
    let l := w.newParserOpList a spare s
    (∀ es : List Event, (∀ e ∈ es, ∃ b i op, e = Event.setOp b i op ∧ b ≠ a) →
      ((l.1.edit (.setCell r c l.2)).edits es).cell p n c = some (w.ops s)) ∧
    (∀ i op, ((w.edit (.setCell r c s)).edit (.setOp s.arr (s.lo + i) op)).cell p n c = some ((w.ops s).set i op)) := by
  intro p l
  have htab : l.1.tables = w.tables := by
    show (w.newParserOpList a spare s).1.tables = _
    unfold World.newParserOpList; split <;> rfl
  have harr : l.2.arr = a := by
    show (w.newParserOpList a spare s).2.arr = _
    unfold World.newParserOpList; split <;> rfl
  constructor
  · intro es hes
    show World.cell _ ⟨some t, names⟩ n c = _
    rw [World.cell_eq]
    obtain ⟨h1, h2, _⟩ := edits_setOps (w := l.1.edit (.setCell r c l.2)) (es := es)
      (fun e he => by obtain ⟨b, i, op, h, _⟩ := hes e he; exact ⟨b, i, op, h⟩)
    rw [h1, h2]
    simp only [World.edit, htab, hrow, Option.bind_some, upd, if_true, GoMap.get_set, Option.map_some]
    congr 1
    rw [← (C100_copy w a spare s).1]
    show World.ops _ l.2 = World.ops l.1 l.2
    unfold World.ops
    rw [harr, World.edits_arrays]
    intro e he i op hc
    obtain ⟨b, j, op', h, hb⟩ := hes e he
    rw [h] at hc
    simp only [Event.setOp.injEq] at hc
    exact hb hc.1
  · intro i op
    have := (C67_edits_seen (w.edit (.setCell r c s)) t 0).2.2.2.2.1 s.arr (s.lo + i) op n r c s hrow
      (by simp [World.edit, upd, GoMap.get_set])
    simp only [newLL1Parser] at this
    rw [World.cell_eq] at this
    show World.cell _ ⟨some t, names⟩ n c = _
    rw [World.cell_eq, this]
    simp only [true_and, Nat.le_add_right, if_true, Nat.add_sub_cancel_left]
    rfl

/-- **C100.** Both at work: the caller keeps one slice of operations, fills a cell, and then uses the slice for something
else.  The parser whose cell was filled through `NewParserOpList` still accepts `ab`; the other rejects it. -/
theorem C100_reuse :
    let p := newLL1Parser (some 0) (some 0)
    let s : OpSlice := ⟨0, 0, 2⟩                                   -- list := {"a", rule 1}
    let l := sharedWorld.newParserOpList 7 2 s                      -- NewParserOpList(list...)
    let reuse := Event.setOp 0 0 (.terminal b!"x")                  -- list[0] = "x"
    (∃ t m, (((l.1.edit (.setCell 0 97 l.2)).edit reuse).parser p).Returns (.string b!"ab") (.ok t m)) ∧
    (∃ e, (((sharedWorld.edit (.setCell 0 97 s)).edit reuse).parser p).Returns (.string b!"ab") (.err e)) := by
  refine ⟨⟨_, _, 20, rfl⟩, ⟨_, 20, rfl⟩⟩

/-- `C100_kept` and `C100_source_kept` apply: a write into the source slice, a call, a write into the new list. -/
example : ∃ w' os, (sharedWorld.newParserOpList 7 2 ⟨0, 0, 2⟩).1.Runs
    [.setOp 0 0 (.terminal b!"x"), .parse (newLL1Parser (some 1) (some 0)) (.string b!"ac")] w' os ∧
    w'.ops (sharedWorld.newParserOpList 7 2 ⟨0, 0, 2⟩).2 = [.terminal b!"a", .nonTerminal 1] ∧
    w'.ops ⟨0, 0, 2⟩ = [.terminal b!"x", .nonTerminal 1] :=
  ⟨_, _, .cons (.edit (by intro _ _ h; cases h)) (.cons (.parse (o := .err _) ⟨20, rfl⟩) .nil), rfl, rfl⟩

end LL1
