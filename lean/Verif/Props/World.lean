import Verif.Model.World
import Verif.Props.Parser

/-!
# C67: parsers that share maps, and callers that keep editing them
-/

namespace LL1

/-! ## Specification -/

/-- All operations in memory come from `OpTerminal` / `OpNonTerminal`. -/
def World.Public (w : World) : Prop := ∀ a, ∀ op ∈ w.arrays a, op.Public

/-- The event stores only such operations. -/
def Event.Public : Event → Prop
  | .setOp _ _ op => op.Public
  | _ => True

/-- The memory if only the edits had happened. -/
def World.edits (w : World) (es : List Event) : World := es.foldl World.edit w

/-- Equal memories, but for what the names maps say about the two built-in numbers -1 and -2. -/
structure World.Agree (w v : World) : Prop where
  arrays : w.arrays = v.arrays
  rows : w.rows = v.rows
  tables : w.tables = v.tables
  names : ∀ r k, k ≠ -1 → k ≠ -2 → (w.names r).get k = (v.names r).get k

/-- The parser can reach the inner map `r`. -/
def World.ReachesRow (w : World) (p : ParserRef) (r : Nat) : Prop :=
  ∃ t n, p.table = some t ∧ (n, some r) ∈ w.tables t

/-- The parser can reach the operation array `a`. -/
def World.ReachesArray (w : World) (p : ParserRef) (a : Nat) : Prop :=
  ∃ r c s, w.ReachesRow p r ∧ (c, s) ∈ w.rows r ∧ s.arr = a

/-- The event edits something the parser can reach. -/
def World.Touches (w : World) (p : ParserRef) : Event → Prop
  | .setOp a _ _ => w.ReachesArray p a
  | .setCell r _ _ => w.ReachesRow p r
  | .delCell r _ => w.ReachesRow p r
  | .setRow t _ _ => p.table = some t
  | .delRow t _ => p.table = some t
  | .setName m _ _ => p.names = some m
  | .delName m _ => p.names = some m
  | .parse _ _ => False

/-! ## Proofs -/

theorem World.table_public {w : World} (h : w.Public) (t : Option Nat) : (w.table t).Public := by
  intro n row b ops hn hb op hop
  cases t with
  | none => simp [World.table] at hn
  | some t =>
    simp only [World.table] at hn
    rw [GoMap.get_mapVal, Option.map_eq_some_iff] at hn
    obtain ⟨r, _, rfl⟩ := hn
    cases r with
    | none => simp [World.row] at hb
    | some r =>
      simp only [World.row] at hb
      rw [GoMap.get_mapVal, Option.map_eq_some_iff] at hb
      obtain ⟨s, _, rfl⟩ := hb
      exact h s.arr op (List.mem_of_mem_drop (List.mem_of_mem_take hop))

theorem World.Agree.refl (w : World) : w.Agree w := ⟨rfl, rfl, rfl, fun _ _ _ _ => rfl⟩

theorem World.Agree.symm {w v : World} (h : w.Agree v) : v.Agree w :=
  ⟨h.arrays.symm, h.rows.symm, h.tables.symm, fun r k h1 h2 => (h.names r k h1 h2).symm⟩

theorem World.Agree.trans {w v u : World} (h : w.Agree v) (h' : v.Agree u) : w.Agree u :=
  ⟨h.arrays.trans h'.arrays, h.rows.trans h'.rows, h.tables.trans h'.tables,
    fun r k h1 h2 => (h.names r k h1 h2).trans (h'.names r k h1 h2)⟩

theorem World.Agree.table {w v : World} (h : w.Agree v) (t : Option Nat) : w.table t = v.table t := by
  have ho : w.ops = v.ops := by funext s; unfold World.ops; rw [h.arrays]
  have hr : w.row = v.row := by funext r; cases r <;> simp only [World.row, ho, h.rows]
  cases t <;> simp only [World.table, hr, h.tables]

theorem World.Agree.namesEquiv {w v : World} (h : w.Agree v) (r : Option Nat) :
    NamesEquiv (r.map w.names) (r.map v.names) := by
  cases r with
  | none => exact ⟨by simp, by simp⟩
  | some r =>
    refine ⟨by simp, ?_⟩
    intro m m' e e' k h1 h2
    cases e; cases e'
    exact h.names r k h1 h2

theorem GoMap.get_del {K V : Type} [DecidableEq K] (m : GoMap K V) (k k' : K) :
    GoMap.get (m.del k) k' = if k' = k then none else GoMap.get m k' := GoMap.get_filter_ne m k k'

theorem World.Agree.edit {w v : World} (h : w.Agree v) (e : Event) : (w.edit e).Agree (v.edit e) := by
  obtain ⟨wa, wr, wt, wn⟩ := w
  obtain ⟨va, vr, vt, vn⟩ := v
  obtain ⟨h1, h2, h3, h4⟩ := h
  simp only at h1 h2 h3 h4
  subst h1; subst h2; subst h3
  cases e with
  | setName m n s =>
    refine ⟨rfl, rfl, rfl, ?_⟩
    intro r k hk hk'
    simp only [World.edit, upd]
    split
    · rw [GoMap.get_set, GoMap.get_set, h4 m k hk hk']
    · exact h4 r k hk hk'
  | delName m n =>
    refine ⟨rfl, rfl, rfl, ?_⟩
    intro r k hk hk'
    simp only [World.edit, upd]
    split
    · rw [GoMap.get_del, GoMap.get_del, h4 m k hk hk']
    · exact h4 r k hk hk'
  | _ => exact ⟨rfl, rfl, rfl, h4⟩

theorem World.Public.edit {w : World} (h : w.Public) {e : Event} (he : e.Public) : (w.edit e).Public := by
  cases e with
  | setOp a i op =>
    intro b o ho
    simp only [World.edit, upd] at ho
    split at ho
    · rcases List.mem_or_eq_of_mem_set ho with h' | h'
      · exact h a o h'
      · subst h'; exact he
    · exact h b o ho
  | _ => exact h

theorem World.Public.edits {w : World} (h : w.Public) {es : List Event} (he : ∀ e ∈ es, e.Public) :
    (w.edits es).Public := by
  induction es generalizing w with
  | nil => exact h
  | cons e es ih =>
    exact ih (h.edit (he e List.mem_cons_self)) (fun e' h' => he e' (List.mem_cons_of_mem _ h'))

/-- A successful call hands back its names map with the two built-in names added. -/
theorem runFuel_ok_names {table : Table} {names : Option Names} {src : Str} {fuel : Nat} {s : PState} {t : Node}
    {m : Names} (h : runFuel table names src fuel s = some (.ok t m)) : ∃ m₀, names = some m₀ ∧ m = addBuiltinNames m₀ := by
  induction fuel generalizing s with
  | zero => simp [runFuel] at h
  | succ fuel ih =>
    unfold runFuel at h
    cases hs : step table names src s with
    | next s' => rw [hs] at h; exact ih h
    | done o =>
      rw [hs] at h
      simp only [Option.some.injEq] at h
      subst h
      unfold step at hs
      cases hop : s.opStack with
      | nil => simp [hop] at hs
      | cons op rest =>
        rw [hop] at hs
        cases op with
        | nonTerminal name =>
          simp only [processNonTerminal, processBuiltinNonTerminal, processTableNonTerminal] at hs
          repeat' split at hs
          all_goals simp at hs
        | terminal v => simp at hs
        | function name pos amount =>
          simp only [processFunction] at hs
          repeat' split at hs
          all_goals simp at hs
        | char c =>
          simp only [processChar] at hs
          repeat' split at hs
          all_goals simp at hs
        | nil => simp at hs
        | eos =>
          simp only [StepRes.done.injEq, processEOS] at hs
          repeat' split at hs
          all_goals simp at hs
          exact ⟨_, rfl, hs.2.symm⟩

theorem Parser.Returns.ok_names {p : Parser} {src : Source} {t : Node} {m : Names} (h : p.Returns src (.ok t m)) :
    ∃ m₀, p.names = some m₀ ∧ m = addBuiltinNames m₀ := by
  obtain ⟨fuel, h⟩ := h
  unfold Parser.parseFuel at h
  split at h
  · simp at h
  · split at h
    · simp at h
    · split at h
      · simp at h
      · exact runFuel_ok_names h

/-- **C67.** A `Parse` call changes no table, no row and no operation, and no names map but its parser's; in that map
only the numbers -1 and -2 change, and only if the call succeeds.  The names map a successful call hands back is the
parser's map itself: it shows what that map shows afterwards. -/
theorem C67_effect (w w' : World) (p : ParserRef) (src : Source) (o : Option Outcome) (h : w.Does (.parse p src) w' o) :
    w'.Agree w ∧
    (∀ r, p.names ≠ some r → w'.names r = w.names r) ∧
    ((∀ t m, o ≠ some (.ok t m)) → w' = w) ∧
    (∀ t m, o = some (.ok t m) → ∃ r, p.names = some r ∧ m = w'.names r ∧
      (w'.names r).get (-1) = some b!"_literal" ∧ (w'.names r).get (-2) = some b!"_nothing") := by
  cases h with
  | edit h => exact absurd rfl (h p src)
  | @parse _ _ o h =>
    cases o with
    | err e => exact ⟨World.Agree.refl w, fun _ _ => rfl, fun _ => rfl, by simp⟩
    | panic e => exact ⟨World.Agree.refl w, fun _ _ => rfl, fun _ => rfl, by simp⟩
    | ok t m =>
      obtain ⟨m₀, hn, rfl⟩ := h.ok_names
      simp only [World.parser] at hn
      cases hp : p.names with
      | none => rw [hp] at hn; simp at hn
      | some r =>
        rw [hp] at hn
        simp only [Option.map_some, Option.some.injEq] at hn
        subst hn
        simp only [World.afterParse, hp]
        refine ⟨⟨rfl, rfl, rfl, ?_⟩, ?_, ?_, ?_⟩
        · intro r' k h1 h2
          simp only [upd]
          split
          · next e => subst e; rw [get_addBuiltinNames, if_neg h2, if_neg h1]
          · rfl
        · intro r' hr'
          have : r' ≠ r := fun e => hr' (by rw [e])
          simp [upd, this]
        · intro h'; exact absurd rfl (h' t _)
        · intro t' m' e
          simp only [Option.some.injEq, Outcome.ok.injEq] at e
          obtain ⟨rfl, rfl⟩ := e
          refine ⟨r, rfl, by simp [upd], ?_, ?_⟩ <;> simp only [upd, if_true] <;> rw [get_addBuiltinNames] <;> simp

theorem World.Does.agree {w w' : World} {e : Event} {o : Option Outcome} (h : w.Does e w' o) : w'.Agree (w.edit e) := by
  cases e with
  | parse p src => exact (C67_effect w w' p src o h).1
  | _ => cases h with
    | edit _ => exact World.Agree.refl _

theorem World.Runs.agree {w w' : World} {es : List Event} {os : List (Option Outcome)} (h : w.Runs es w' os) :
    ∀ v : World, w.Agree v → w'.Agree (v.edits es) := by
  induction h with
  | nil => exact fun v hv => hv
  | cons h _ ih => exact fun v hv => ih _ (h.agree.trans (hv.edit _))

/-- **C67.** Whatever parsers, over whatever maps, a program calls between its edits: in the end its memory is what
the edits alone would have made of it, but for the names of -1 and -2. -/
theorem C67_memory (w w' : World) (es : List Event) (os : List (Option Outcome)) (h : w.Runs es w' os) :
    w'.Agree (w.edits es) := h.agree w (World.Agree.refl w)

theorem World.Agree.returns {w v : World} (h : w.Agree v) (hpub : w.Public) (p : ParserRef) (src : Source) (o : Outcome)
    (hr : (w.parser p).Returns src o) : ∃ o', (v.parser p).Returns src o' ∧ Outcome.Same o o' := by
  unfold World.parser at hr ⊢
  rw [← h.table p.table]
  exact same_of_namesEquiv (World.table_public hpub p.table) (h.namesEquiv p.names) hr

theorem Runs_append {w w' : World} {es es' : List Event} {os : List (Option Outcome)} (h : w.Runs (es ++ es') w' os) :
    ∃ v os₁ os₂, w.Runs es v os₁ ∧ v.Runs es' w' os₂ ∧ os = os₁ ++ os₂ ∧ os₁.length = es.length := by
  induction es generalizing w os with
  | nil => exact ⟨w, [], os, .nil, h, rfl, rfl⟩
  | cons e es ih =>
    cases h with
    | cons h ht =>
      obtain ⟨v, os₁, os₂, h1, h2, h3, h4⟩ := ih ht
      exact ⟨v, _ :: os₁, os₂, .cons h h1, h2, by rw [h3]; rfl, by simp [h4]⟩

/-- **C67.** Calls do not disturb each other.  In any run of any program, a `Parse` call ends the way it would have
ended if no other call had been made: on a new parser over the same two maps, after the edits before it. -/
theorem C67_calls_independent (w w' : World) (pre post : List Event) (p : ParserRef) (src : Source)
    (os : List (Option Outcome)) (hw : w.Public) (hpre : ∀ e ∈ pre, e.Public)
    (h : w.Runs (pre ++ .parse p src :: post) w' os) :
    ∃ o, os[pre.length]? = some (some o) ∧
      ∃ o', ((w.edits pre).parser (newLL1Parser p.table p.names)).Returns src o' ∧ Outcome.Same o o' := by
  obtain ⟨v, os₁, os₂, h1, h2, rfl, hl⟩ := Runs_append h
  cases h2 with
  | cons hd _ =>
    cases hd with
    | edit hne => exact absurd rfl (hne p src)
    | @parse _ _ o hr =>
      refine ⟨o, by simp [← hl], ?_⟩
      have ha := C67_memory w v pre os₁ h1
      have hpub : v.Public := by
        have := hw.edits hpre
        unfold World.Public at this ⊢
        rw [ha.arrays]; exact this
      exact ha.returns hpub p src o hr

/-- **C67.** The same for calls that never return: whether a call hangs depends on the edits before it, not on the
calls before it. -/
theorem C67_hangs (w v : World) (pre : List Event) (os : List (Option Outcome)) (hw : w.Public)
    (hpre : ∀ e ∈ pre, e.Public) (h : w.Runs pre v os) (p : ParserRef) (src : Source) :
    (v.parser p).Diverges src ↔ ((w.edits pre).parser p).Diverges src := by
  have ha := C67_memory w v pre os h
  have hpub' := hw.edits hpre
  have hpub : v.Public := by
    unfold World.Public at hpub' ⊢
    rw [ha.arrays]; exact hpub'
  rw [diverges_iff, diverges_iff]
  constructor
  · intro hd o ho
    obtain ⟨o', h', _⟩ := ha.symm.returns hpub' p src o ho
    exact hd o' h'
  · intro hd o ho
    obtain ⟨o', h', _⟩ := ha.returns hpub p src o ho
    exact hd o' h'

theorem map_congr_mem {α β : Type} {f g : α → β} {l : List α} (h : ∀ x ∈ l, f x = g x) : l.map f = l.map g :=
  List.map_congr_left h

theorem table_frame {w v : World} {p : ParserRef} (ht : ∀ t, p.table = some t → v.tables t = w.tables t)
    (hr : ∀ r, w.ReachesRow p r → v.rows r = w.rows r) (ha : ∀ a, w.ReachesArray p a → v.arrays a = w.arrays a) :
    v.table p.table = w.table p.table := by
  cases hp : p.table with
  | none => rfl
  | some t =>
    simp only [World.table]
    rw [ht t hp]
    apply List.map_congr_left
    intro e he
    congr 1
    obtain ⟨n, r⟩ := e
    cases r with
    | none => rfl
    | some r =>
      have hreach : w.ReachesRow p r := ⟨t, n, hp, he⟩
      simp only [World.row]
      rw [hr r hreach]
      apply List.map_congr_left
      intro e' he'
      congr 1
      simp only [World.ops]
      rw [ha e'.2.arr ⟨r, e'.1, e'.2, hreach, he', rfl⟩]

/-- **C67.** An edit matters to a parser only if it edits something the parser can reach: its names map, its table, a
row in that table, or an array under an operation list of such a row.  Otherwise the parser goes on exactly as before. -/
theorem C67_frame (w : World) (p : ParserRef) (e : Event) (h : ¬ w.Touches p e) (src : Source) (o : Outcome) :
    ((w.edit e).parser p).Returns src o ↔ (w.parser p).Returns src o := by
  have key : (w.edit e).parser p = w.parser p := by
    unfold World.parser
    congr 1
    · apply table_frame
      · intro t ht
        cases e <;> simp only [World.edit, upd, World.Touches] at h ⊢ <;> split <;> simp_all
      · intro r hr
        cases e <;> simp only [World.edit, upd, World.Touches] at h ⊢ <;> split <;> simp_all
      · intro a ha
        cases e <;> simp only [World.edit, upd, World.Touches] at h ⊢ <;> split <;> simp_all
    · cases hn : p.names with
      | none => rfl
      | some m =>
        simp only [Option.map_some, Option.some.injEq]
        cases e <;> simp only [World.edit, upd, World.Touches] at h ⊢ <;> split <;> simp_all
  rw [key]

/-! ## A concrete program

Two tables share the row of rule 0 and have their own row of rule 1; two parsers, one names map. -/

/-- `0 → "a" 1` on `a`;  `1 → "b"` on `b` in table 0, `1 → "c"` on `c` in table 1. -/
def sharedWorld : World where
  arrays := fun a => if a = 0 then [.terminal b!"a", .nonTerminal 1] else if a = 1 then [.terminal b!"b"]
    else if a = 2 then [.terminal b!"c"] else []
  rows := fun r => if r = 0 then [(97, ⟨0, 0, 2⟩)] else if r = 1 then [(98, ⟨1, 0, 1⟩)] else if r = 2 then [(99, ⟨2, 0, 1⟩)] else []
  tables := fun t => if t = 0 then [(0, some 0), (1, some 1)] else if t = 1 then [(0, some 0), (1, some 2)] else []
  names := fun _ => []

theorem sharedWorld_public : sharedWorld.Public := by
  intro a op h
  simp only [sharedWorld] at h
  split at h
  · simp only [List.mem_cons, List.not_mem_nil, or_false] at h
    rcases h with rfl | rfl <;> trivial
  · split at h
    · simp only [List.mem_cons, List.not_mem_nil, or_false] at h; subst h; trivial
    · split at h
      · simp only [List.mem_cons, List.not_mem_nil, or_false] at h; subst h; trivial
      · simp at h

/-- What a parser finds for row `n` and next byte `c` at the moment. -/
def World.cell (w : World) (p : ParserRef) (n : Int) (c : UInt8) : Option (List ParserOp) :=
  ((w.parser p).table.get n).bind fun row => GoMap.get row c

theorem World.cell_eq (w : World) (t : Nat) (names : Option Nat) (n : Int) (c : UInt8) :
    w.cell ⟨some t, names⟩ n c =
      ((w.tables t).get n).bind fun r => r.bind fun r => ((w.rows r).get c).map w.ops := by
  simp only [World.cell, World.parser, World.table]
  rw [GoMap.get_mapVal]
  cases (w.tables t).get n with
  | none => rfl
  | some r =>
    cases r with
    | none => simp [World.row]
    | some r => simp only [Option.map_some, Option.bind_some, World.row]; rw [GoMap.get_mapVal]

/-- **C67.** What a parser sees after each kind of edit to the maps and slices it was made from: exactly that edit. -/
theorem C67_edits_seen (w : World) (t m : Nat) :
    let p := newLL1Parser (some t) (some m)
    (∀ n r k, ((w.edit (.setRow t n r)).parser p).table.get k = if k = n then some (w.row r) else (w.parser p).table.get k) ∧
    (∀ n k, ((w.edit (.delRow t n)).parser p).table.get k = if k = n then none else (w.parser p).table.get k) ∧
    (∀ r c s k b, (w.edit (.setCell r c s)).cell p k b =
      if (w.tables t).get k = some (some r) ∧ b = c then some (w.ops s) else w.cell p k b) ∧
    (∀ r c k b, (w.edit (.delCell r c)).cell p k b =
      if (w.tables t).get k = some (some r) ∧ b = c then none else w.cell p k b) ∧
    (∀ a i op k r b s, (w.tables t).get k = some (some r) → (w.rows r).get b = some s →
      (w.edit (.setOp a i op)).cell p k b =
        some (if s.arr = a ∧ s.lo ≤ i then (w.ops s).set (i - s.lo) op else w.ops s)) ∧
    (∀ n v k, ((w.edit (.setName m n v)).parser p).names.bind (·.get k) =
      if k = n then some v else (w.parser p).names.bind (·.get k)) ∧
    (∀ n k, ((w.edit (.delName m n)).parser p).names.bind (·.get k) =
      if k = n then none else (w.parser p).names.bind (·.get k)) := by
  intro p
  have hp : p = ⟨some t, some m⟩ := rfl
  clear_value p; subst hp
  refine ⟨?_, ?_, ?_, ?_, ?_, ?_, ?_⟩
  · intro n r k
    simp only [World.parser, World.table]
    rw [GoMap.get_mapVal, GoMap.get_mapVal]
    simp only [World.edit, upd, if_true, GoMap.get_set]
    split <;> rfl
  · intro n k
    simp only [World.parser, World.table]
    rw [GoMap.get_mapVal, GoMap.get_mapVal]
    simp only [World.edit, upd, if_true, GoMap.get_del]
    split <;> rfl
  · intro r c s k b
    rw [World.cell_eq, World.cell_eq]
    simp only [World.edit]
    cases (w.tables t).get k with
    | none => simp
    | some r' =>
      cases r' with
      | none => simp
      | some r' =>
        by_cases hr : r' = r
        · subst hr
          simp only [Option.bind_some, upd, if_true, GoMap.get_set, true_and]
          by_cases hb : b = c
          · simp only [hb, if_true, Option.map_some]; rfl
          · simp only [hb, if_false]; rfl
        · simp only [Option.bind_some, upd, hr, if_false, Option.some.injEq, false_and]; rfl
  · intro r c k b
    rw [World.cell_eq, World.cell_eq]
    simp only [World.edit]
    cases (w.tables t).get k with
    | none => simp
    | some r' =>
      cases r' with
      | none => simp
      | some r' =>
        by_cases hr : r' = r
        · subst hr
          simp only [Option.bind_some, upd, if_true, GoMap.get_del, true_and]
          by_cases hb : b = c
          · simp only [hb, if_true, Option.map_none]
          · simp only [hb, if_false]; rfl
        · simp only [Option.bind_some, upd, hr, if_false, Option.some.injEq, false_and]; rfl
  · intro a i op k r b s h1 h2
    rw [World.cell_eq]
    simp only [World.edit, h1, h2, Option.bind_some, Option.map_some, World.ops, upd]
    congr 1
    by_cases ha : s.arr = a
    · subst ha
      simp only [if_true, true_and]
      by_cases hi : s.lo ≤ i
      · simp only [hi, if_true]
        rw [List.drop_set, if_neg (by omega), List.take_set]
      · simp only [hi, if_false]
        rw [List.drop_set_of_lt (by omega)]
    · simp only [ha, if_false, false_and]
  · intro n v k
    simp only [World.parser, World.edit, Option.map_some, Option.bind_some, upd, if_true, GoMap.get_set]
  · intro n k
    simp only [World.parser, World.edit, Option.map_some, Option.bind_some, upd, if_true, GoMap.get_del]

/-- **C67.** The parser does not copy what it is given: an edit made after `NewLL1Parser` changes what it accepts — and,
through the row they share, what a parser over another table accepts. -/
theorem C67_edits_visible :
    let p := newLL1Parser (some 0) (some 0)
    let q := newLL1Parser (some 1) (some 0)
    let edit := Event.setCell 0 97 ⟨0, 1, 1⟩          -- table0[0]['a'] = ops[1:2], that is `0 → 1`
    (∃ t m, (sharedWorld.parser p).Returns (.string b!"ab") (.ok t m)) ∧
    (∃ t m, (sharedWorld.parser q).Returns (.string b!"ac") (.ok t m)) ∧
    ((sharedWorld.edit edit).parser p).Returns (.string b!"ab") (.err (.noRule 97 (.unknown 1))) ∧
    ((sharedWorld.edit edit).parser q).Returns (.string b!"ac") (.err (.noRule 97 (.unknown 1))) := by
  refine ⟨⟨_, _, 20, rfl⟩, ⟨_, _, 20, rfl⟩, ⟨20, rfl⟩, ⟨20, rfl⟩⟩

/-- A run to which the theorems above apply: a call, an edit to the shared row, a call on the other parser. -/
example : ∃ w' os, sharedWorld.Runs
    ([.parse (newLL1Parser (some 0) (some 0)) (.string b!"ab"), .setCell 0 97 ⟨0, 1, 1⟩] ++
      [.parse (newLL1Parser (some 1) (some 0)) (.string b!"ac")]) w' os ∧ os.length = 3 :=
  ⟨_, _, .cons (.parse (o := .ok _ _) ⟨20, rfl⟩) (.cons (.edit (by intro _ _ h; cases h))
    (.cons (.parse (o := .err (.noRule 97 (.unknown 1))) ⟨20, rfl⟩) .nil)), rfl⟩

end LL1
