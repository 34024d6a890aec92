import Verif.Model.TableHeap

/-!
# C69: the table's operation lists do not share memory
-/

namespace LL1
namespace TG

open Mem (Roomy)

/-- The row in memory is the row as a value; the arrays below `base` still hold `old`; the row's own arrays are all
above `base` and apart from each other. -/
structure RowRel (base : Nat) (old : Nat → List ParserOp) (st : HRow) (row : Row) : Prop where
  base_le : base ≤ st.1.next
  frame : ∀ a, a < base → st.1.arrays a = old a
  view : (st.2.map fun e => (e.1, st.1.read e.2)) = row
  fits : ∀ e ∈ st.2, e.2.len ≤ e.2.cap ∧
    (0 < e.2.cap → base ≤ e.2.arr ∧ e.2.arr < st.1.next ∧ (st.1.arrays e.2.arr).length = e.2.cap)
  apart : ∀ e ∈ st.2, ∀ e' ∈ st.2, 0 < e.2.cap → 0 < e'.2.cap → e.2.arr = e'.2.arr → e.1 = e'.1

/-- Same ending; related results. -/
inductive Sim {α β : Type} (rel : α → β → Prop) : R α → R β → Prop
  | ok {a : α} {b : β} : rel a b → Sim rel (.ok a) (.ok b)
  | err {e : Err} : Sim rel (.err e) (.err e)
  | panic {p : Panic} : Sim rel (.panic p) (.panic p)
  | diverge : Sim rel .diverge .diverge

theorem Sim.bind {α β α' β' : Type} {rel : α → β → Prop} {rel' : α' → β' → Prop} {x : R α} {y : R β} {f : α → R α'}
    {g : β → R β'} (h : Sim rel x y) (hf : ∀ a b, rel a b → Sim rel' (f a) (g b)) : Sim rel' (x >>= f) (y >>= g) := by
  cases h with
  | ok h => exact hf _ _ h
  | err => exact .err
  | panic => exact .panic
  | diverge => exact .diverge

theorem Sim.same {α α' β' : Type} {rel' : α' → β' → Prop} (x : R α) {f : α → R α'} {g : α → R β'}
    (hf : ∀ a, Sim rel' (f a) (g a)) : Sim rel' (x >>= f) (x >>= g) := by
  cases x with
  | ok a => exact hf a
  | err => exact .err
  | panic => exact .panic
  | diverge => exact .diverge

variable {base : Nat} {old : Nat → List ParserOp}

theorem read_write_ne {h : Mem ParserOp} {n a : Nat} {l : List ParserOp} {s : SliceRef} (hs : 0 < s.cap → s.arr ≠ a) :
    ({ next := n, arrays := h.write a l } : Mem ParserOp).read s = h.read s := by
  unfold Mem.read
  split
  · rfl
  · next hc =>
    have := hs (Nat.pos_of_ne_zero hc)
    simp [Mem.write, this]

theorem mem_set {K V : Type} [DecidableEq K] {m : GoMap K V} {k : K} {v : V} {e : K × V} (h : e ∈ GoMap.set m k v) :
    e = (k, v) ∨ (e ∈ m ∧ e.1 ≠ k) := by
  unfold GoMap.set at h
  rcases List.mem_cons.1 h with h | h
  · exact .inl h
  · rw [List.mem_filter] at h
    exact .inr ⟨h.1, by simpa using h.2⟩

/-- `append` writes either a new array or one of the row; the other cells of the row do not notice. -/
theorem RowRel.appendOp {grow : Nat → Nat → Nat} (hg : Roomy grow) {st : HRow} {row : Row} (hr : RowRel base old st row)
    (term : UInt8) (op : ParserOp) : RowRel base old (appendOpH grow st term op) (TG.appendOp row term op) := by
  obtain ⟨h, m⟩ := st
  obtain ⟨hb, hfr, hv, hf, ha⟩ := hr
  simp only at hb hfr hv hf ha
  -- what the cell holds so far
  have hget : (GoMap.get row term).getD [] = h.read ((GoMap.get m term).getD SliceRef.empty) := by
    rw [← hv, GoMap.get_mapVal]
    cases GoMap.get m term with
    | none => simp [Mem.read, SliceRef.empty]
    | some s => rfl
  generalize hs : (GoMap.get m term).getD SliceRef.empty = s at hget
  have hmem : 0 < s.cap → (term, s) ∈ m := by
    intro hc
    cases hg : GoMap.get m term with
    | none => rw [hg] at hs; subst hs; simp [SliceRef.empty] at hc
    | some s' => rw [hg] at hs; cases hs; exact GoMap.mem_of_get_eq_some hg
  have hle : s.len ≤ s.cap := by
    cases hg : GoMap.get m term with
    | none => rw [hg] at hs; subst hs; simp [SliceRef.empty]
    | some s' => rw [hg] at hs; cases hs; exact (hf _ (GoMap.mem_of_get_eq_some hg)).1
  unfold appendOpH TG.appendOp
  rw [hget]
  simp only [hs]
  unfold Mem.append
  by_cases hroom : s.len < s.cap
  · -- in place
    rw [if_pos hroom]
    have hcap : 0 < s.cap := by omega
    have hm := hmem hcap
    obtain ⟨_, hfit⟩ := hf _ hm
    obtain ⟨hf1, hf2, hf3⟩ := hfit hcap
    simp only at hf1 hf2 hf3
    have hother : ∀ e ∈ m, e.1 ≠ term → 0 < e.2.cap → e.2.arr ≠ s.arr := by
      intro e he hk hc heq
      exact hk (ha e he _ hm hc hcap heq)
    refine ⟨hb, ?_, ?_, ?_, ?_⟩
    · intro a hlt
      have : a ≠ s.arr := by omega
      simp only [Mem.write, this, if_false]
      exact hfr a hlt
    · simp only [GoMap.set, List.map_cons]
      congr 1
      · congr 1
        have hc0 : s.cap ≠ 0 := by omega
        simp only [Mem.read, Mem.write, hc0, if_false, if_true]
        rw [List.take_set, ← List.take_append_getElem (i := s.len) (by rw [hf3]; omega)]
        rw [List.set_append_right _ _ (by simp [hf3]; omega)]
        simp [List.length_take, hf3, Nat.min_eq_left hle]
      · rw [← hv, List.filter_map]
        show _ = List.map _ (List.filter (fun e => decide (e.1 ≠ term)) m)
        apply List.map_congr_left
        intro e he
        rw [List.mem_filter] at he
        congr 1
        exact read_write_ne (hother e he.1 (by simpa using he.2))
    · intro e he
      rcases mem_set he with rfl | ⟨he, hk⟩
      · refine ⟨by simp only; omega, fun _ => ⟨hf1, hf2, ?_⟩⟩
        simp only [Mem.write, if_true, List.length_set]; exact hf3
      · refine ⟨(hf e he).1, fun hc => ?_⟩
        obtain ⟨h1, h2, h3⟩ := (hf e he).2 hc
        have := hother e he hk hc
        exact ⟨h1, h2, by simp only [Mem.write, this, if_false]; exact h3⟩
    · intro e he e' he' hc hc' heq
      rcases mem_set he with rfl | ⟨he, hk⟩
      · rcases mem_set he' with rfl | ⟨he', hk'⟩
        · rfl
        · exact absurd heq.symm (hother e' he' hk' hc')
      · rcases mem_set he' with rfl | ⟨he', hk'⟩
        · exact absurd heq (hother e he hk hc)
        · exact ha e he e' he' hc hc' heq
  · -- into a new array
    rw [if_neg hroom]
    have hgr := hg h.next (s.len + 1)
    have hother : ∀ e ∈ m, 0 < e.2.cap → e.2.arr ≠ h.next := by
      intro e he hc heq
      have := ((hf e he).2 hc).2.1
      omega
    have hreadlen : (h.read s).length = s.len := by
      unfold Mem.read
      split
      · simp; omega
      · next hc =>
        have := ((hf _ (hmem (Nat.pos_of_ne_zero hc))).2 (Nat.pos_of_ne_zero hc)).2.2
        simp only at this
        rw [List.length_take, this]; omega
    refine ⟨by simp only; omega, ?_, ?_, ?_, ?_⟩
    · intro a hlt
      have : a ≠ h.next := by omega
      simp only [Mem.write, this, if_false]
      exact hfr a hlt
    · simp only [GoMap.set, List.map_cons]
      congr 1
      · congr 1
        have hc0 : grow h.next (s.len + 1) ≠ 0 := by omega
        simp only [Mem.read, Mem.write, hc0, if_false, if_true]
        change List.take (s.len + 1) (h.read s ++ _) = h.read s ++ [op]
        rw [List.take_append, List.take_of_length_le (by omega), hreadlen]
        congr 1
        rw [show s.len + 1 - s.len = 1 by omega]
        rfl
      · rw [← hv, List.filter_map]
        show _ = List.map _ (List.filter (fun e => decide (e.1 ≠ term)) m)
        apply List.map_congr_left
        intro e he
        rw [List.mem_filter] at he
        congr 1
        exact read_write_ne (hother e he.1)
    · intro e he
      rcases mem_set he with rfl | ⟨he, hk⟩
      · refine ⟨hgr, fun _ => ⟨hb, by simp only; omega, ?_⟩⟩
        simp only [Mem.write, if_true, List.length_append, List.length_cons, List.length_replicate, hreadlen]
        omega
      · refine ⟨(hf e he).1, fun hc => ?_⟩
        obtain ⟨h1, h2, h3⟩ := (hf e he).2 hc
        have := hother e he hc
        exact ⟨h1, by simp only; omega, by simp only [Mem.write, this, if_false]; exact h3⟩
    · intro e he e' he' hc hc' heq
      rcases mem_set he with rfl | ⟨he, hk⟩
      · rcases mem_set he' with rfl | ⟨he', hk'⟩
        · rfl
        · exact absurd heq.symm (hother e' he' hc')
      · rcases mem_set he' with rfl | ⟨he', hk'⟩
        · exact absurd heq (hother e he hc)
        · exact ha e he e' he' hc hc' heq

theorem RowRel.setEmpty {st : HRow} {row : Row} (hr : RowRel base old st row) (term : UInt8) :
    RowRel base old (st.1, GoMap.set st.2 term SliceRef.empty) (GoMap.set row term []) := by
  refine ⟨hr.base_le, hr.frame, ?_, ?_, ?_⟩
  · simp only [GoMap.set, List.map_cons]
    congr 1
    rw [← hr.view, List.filter_map]
    rfl
  · intro e he
    rcases mem_set he with rfl | ⟨he, _⟩
    · exact ⟨Nat.le_refl _, fun hc => absurd hc (by simp [SliceRef.empty])⟩
    · exact hr.fits e he
  · intro e he e' he' hc hc' heq
    rcases mem_set he with rfl | ⟨he, _⟩
    · simp [SliceRef.empty] at hc
    · rcases mem_set he' with rfl | ⟨he', _⟩
      · simp [SliceRef.empty] at hc'
      · exact hr.apart e he e' he' hc hc' heq

theorem sim_addEmptyCells (bs : List UInt8) {st : HRow} {row : Row} (hr : RowRel base old st row) :
    Sim (RowRel base old) (addEmptyCellsH bs st) (addEmptyCells bs row) := by
  induction bs generalizing st row with
  | nil => exact .ok hr
  | cons b bs ih =>
    unfold addEmptyCellsH addEmptyCells
    rw [← hr.view, GoMap.get_mapVal]
    cases hg : GoMap.get st.2 b with
    | some s => exact .err
    | none =>
      have := hr.setEmpty b
      rw [← hr.view] at this
      exact ih this

theorem sim_addSymbols {grow : Nat → Nat → Nat} (hg : Roomy grow) (tg : Gen) (term : UInt8) (ys : List Symbol)
    {st : HRow} {row : Row} (hr : RowRel base old st row) :
    Sim (RowRel base old) (addSymbolsH grow tg term ys st) (addSymbols tg term ys row) := by
  induction ys generalizing st row with
  | nil => exact .ok hr
  | cons y ys ih =>
    cases y with
    | terminal n => exact ih (hr.appendOp hg term _)
    | nothing => exact .panic
    | nonTerminal n =>
      unfold addSymbolsH addSymbols
      cases tg.ruleMap.get n with
      | none => exact .err
      | some i => exact ih (hr.appendOp hg term _)

theorem sim_addFirstCells {grow : Nat → Nat → Nat} (hg : Roomy grow) (tg : Gen) (s : Sequence) (bs : List UInt8)
    {st : HRow} {row : Row} (hr : RowRel base old st row) :
    Sim (RowRel base old) (addFirstCellsH grow tg s bs st) (addFirstCells tg s bs row) := by
  induction bs generalizing st row with
  | nil => exact .ok hr
  | cons b bs ih => exact (sim_addSymbols hg tg b s.symbols hr).bind fun _ _ h => ih h

theorem sim_addSequence {grow : Nat → Nat → Nat} (hg : Roomy grow) (tg : Gen) (firsts follows : List ByteSet) (i : Nat)
    (s : Sequence) {st : HRow} {row : Row} (hr : RowRel base old st row) :
    Sim (RowRel base old) (addSequenceH grow tg firsts follows i s st) (addSequence tg firsts follows i s row) := by
  unfold addSequenceH addSequence
  apply Sim.same; intro sf
  split
  · apply Sim.same; intro fo
    apply Sim.same; intro fb
    exact (sim_addEmptyCells fb hr).bind fun _ _ h => Sim.same _ fun bs => sim_addFirstCells hg tg s bs h
  · exact Sim.same _ fun bs => sim_addFirstCells hg tg s bs hr

theorem sim_addSequences {grow : Nat → Nat → Nat} (hg : Roomy grow) (tg : Gen) (firsts follows : List ByteSet) (i : Nat)
    (ss : List Sequence) {st : HRow} {row : Row} (hr : RowRel base old st row) :
    Sim (RowRel base old) (addSequencesH grow tg firsts follows i ss st) (addSequences tg firsts follows i ss row) := by
  induction ss generalizing st row with
  | nil => exact .ok hr
  | cons s ss ih => exact (sim_addSequence hg tg firsts follows i s hr).bind fun _ _ h => ih h

theorem sim_makeTableRow {grow : Nat → Nat → Nat} (hg : Roomy grow) (tg : Gen) (firsts follows : List ByteSet) (i : Nat)
    (h : Mem ParserOp) :
    Sim (RowRel h.next h.arrays) (makeTableRowH grow tg firsts follows i h) (makeTableRow tg firsts follows i) := by
  unfold makeTableRowH makeTableRow
  apply Sim.same; intro rule
  exact sim_addSequences hg tg firsts follows i _
    ⟨Nat.le_refl _, fun _ _ => rfl, rfl, by simp, by simp⟩

/-! ## The whole table -/

/-- What the table in memory shows. -/
def HTable.view (t : HTable) : Table := t.2.map fun e => (e.1, e.2.map fun c => (c.1, t.1.read c.2))

/-- The cell of rule `n` for byte `c` holds the slice `s`. -/
def HTable.Cell (t : HTable) (n : Int) (c : UInt8) (s : SliceRef) : Prop :=
  ∃ row, (n, row) ∈ t.2 ∧ (c, s) ∈ row

/-- The table in memory is the table as a value, on fresh arrays, no two cells on the same one. -/
structure TableRel (base : Nat) (old : Nat → List ParserOp) (t : HTable) (tbl : Table) : Prop where
  base_le : base ≤ t.1.next
  frame : ∀ a, a < base → t.1.arrays a = old a
  view : t.view = tbl
  fits : ∀ n c s, t.Cell n c s → s.len ≤ s.cap ∧
    (0 < s.cap → base ≤ s.arr ∧ s.arr < t.1.next ∧ (t.1.arrays s.arr).length = s.cap)
  apart : ∀ n c s n' c' s', t.Cell n c s → t.Cell n' c' s' → 0 < s.cap → 0 < s'.cap → s.arr = s'.arr → n = n' ∧ c = c'

theorem TableRel.setRow {t : HTable} {tbl : Table} (ht : TableRel base old t tbl) {st : HRow} {row : Row} (n : Int)
    (hr : RowRel t.1.next t.1.arrays st row) : TableRel base old (st.1, t.2.set n st.2) (tbl.set n row) := by
  have hle := hr.base_le
  have hlive : ∀ m c s, t.Cell m c s → 0 < s.cap → st.1.arrays s.arr = t.1.arrays s.arr := by
    intro m c s hc hp
    exact hr.frame _ ((ht.fits m c s hc).2 hp).2.1
  have hread : ∀ m c s, t.Cell m c s → st.1.read s = t.1.read s := by
    intro m c s hc
    unfold Mem.read
    split
    · rfl
    · next h0 => rw [hlive m c s hc (Nat.pos_of_ne_zero h0)]
  have hcell : ∀ m c s, HTable.Cell (st.1, t.2.set n st.2) m c s → (m = n ∧ (c, s) ∈ st.2) ∨ t.Cell m c s := by
    rintro m c s ⟨r, hm, hc⟩
    rcases mem_set hm with h | ⟨h, _⟩
    · cases h; exact .inl ⟨rfl, hc⟩
    · exact .inr ⟨r, h, hc⟩
  refine ⟨Nat.le_trans ht.base_le hle, ?_, ?_, ?_, ?_⟩
  · intro a ha
    rw [hr.frame a (Nat.lt_of_lt_of_le ha ht.base_le), ht.frame a ha]
  · simp only [HTable.view, GoMap.set, List.map_cons]
    congr 1
    · rw [hr.view]
    · rw [← ht.view, HTable.view, List.filter_map]
      show _ = List.map _ (List.filter (fun e => decide (e.1 ≠ n)) t.2)
      apply List.map_congr_left
      intro e he
      rw [List.mem_filter] at he
      congr 1
      apply List.map_congr_left
      intro c hc
      congr 1
      exact hread e.1 c.1 c.2 ⟨e.2, he.1, hc⟩
  · intro m c s hc
    rcases hcell m c s hc with ⟨rfl, hm⟩ | hc
    · refine ⟨(hr.fits _ hm).1, fun hp => ?_⟩
      obtain ⟨h1, h2, h3⟩ := (hr.fits _ hm).2 hp
      exact ⟨Nat.le_trans ht.base_le h1, h2, h3⟩
    · refine ⟨(ht.fits m c s hc).1, fun hp => ?_⟩
      obtain ⟨h1, h2, h3⟩ := (ht.fits m c s hc).2 hp
      exact ⟨h1, Nat.lt_of_lt_of_le h2 hle, by simp only; rw [hlive m c s hc hp]; exact h3⟩
  · intro m c s m' c' s' h1 h2 hp hp' heq
    rcases hcell m c s h1 with ⟨rfl, hm⟩ | g1
    · rcases hcell m' c' s' h2 with ⟨rfl, hm'⟩ | g2
      · exact ⟨rfl, hr.apart _ hm _ hm' hp hp' heq⟩
      · have a1 := ((hr.fits _ hm).2 hp).1
        have a2 := ((ht.fits _ _ _ g2).2 hp').2.1
        simp only at a1
        omega
    · rcases hcell m' c' s' h2 with ⟨rfl, hm'⟩ | g2
      · have a1 := ((hr.fits _ hm').2 hp').1
        have a2 := ((ht.fits _ _ _ g1).2 hp).2.1
        simp only at a1
        omega
      · exact ht.apart m c s m' c' s' g1 g2 hp hp' heq

theorem sim_makeTable {grow : Nat → Nat → Nat} (hg : Roomy grow) (tg : Gen) (firsts follows : List ByteSet) (h : Mem ParserOp) :
    Sim (TableRel h.next h.arrays) (makeTableH grow tg firsts follows h) (makeTable tg firsts follows) := by
  unfold makeTableH makeTable
  have hno : ∀ n c s, ¬ HTable.Cell (h, []) n c s := by
    rintro n c s ⟨r, hm, _⟩
    exact absurd hm (by simp)
  have hstart : TableRel h.next h.arrays (h, []) ([] : Table) :=
    ⟨Nat.le_refl _, fun _ _ => rfl, rfl, fun _ _ _ hc => absurd hc (hno _ _ _),
      fun _ _ _ _ _ _ hc => absurd hc (hno _ _ _)⟩
  revert hstart
  generalize (h, ([] : GoMap Int (GoMap UInt8 SliceRef))) = t
  generalize ([] : Table) = tbl
  induction List.range tg.g.rules.length generalizing t tbl with
  | nil => exact fun hs => .ok hs
  | cons i is ih =>
    intro hs
    unfold forEach
    refine Sim.bind ?_ fun t' tbl' h' => ih t' tbl' h'
    refine (sim_makeTableRow hg tg firsts follows i t.1).bind fun st row hr => .ok ?_
    exact hs.setRow _ hr

theorem sim_run {grow : Nat → Nat → Nat} (hg : Roomy grow) (g : Grammar) (h : Mem ParserOp) :
    Sim (TableRel h.next h.arrays) (runH grow (newGen g) (newSets (newGen g).ruleCount) (newSets (newGen g).ruleCount) h)
      (TG.run (newGen g) (newSets (newGen g).ruleCount) (newSets (newGen g).ruleCount)) := by
  unfold runH TG.run
  exact Sim.same _ fun fi => Sim.same _ fun fo => sim_makeTable hg _ fi fo h

end TG

open TG Mem in
/-- **C69.** Computing with slices, `append` and arrays gives what computing with values gives: `FromGrammar` ends the
same way, whatever capacities the runtime chooses, and whatever was in memory before stays as it was.  In the returned
table no two cells share an array. -/
theorem C69_slices (grow : Nat → Nat → Nat) (hg : Roomy grow) (order : List (Str × Nat) → List (Str × Nat)) (g : Grammar)
    (h : Mem ParserOp) :
    Sim (fun (x : HTable × Names) (y : Table × Names) =>
        x.2 = y.2 ∧ x.1.view = y.1 ∧ (∀ a, a < h.next → x.1.1.arrays a = h.arrays a) ∧
        (∀ n c s, x.1.Cell n c s → 0 < s.cap → h.next ≤ s.arr) ∧
        ∀ n c s n' c' s', x.1.Cell n c s → x.1.Cell n' c' s' → 0 < s.cap → 0 < s'.cap → s.arr = s'.arr →
          n = n' ∧ c = c')
      (fromGrammarH grow order g h) (fromGrammar order g) := by
  unfold fromGrammarH fromGrammar
  refine (sim_run hg g h).bind fun t tbl ht => .ok ⟨rfl, ht.view, ht.frame, ?_, ht.apart⟩
  intro n c s hc hp
  exact ((ht.fits n c s hc).2 hp).1

open TG Mem in
/-- **C69.** So a caller may edit a cell of the returned table in place, or append to it: no other cell changes. -/
theorem C69_cells_independent (grow : Nat → Nat → Nat) (hg : Roomy grow) (order : List (Str × Nat) → List (Str × Nat))
    (g : Grammar) (h : Mem ParserOp) (t : HTable) (names : Names) (he : fromGrammarH grow order g h = .ok (t, names))
    (n : Int) (c : UInt8) (s : SliceRef) (hc : t.Cell n c s) (n' : Int) (c' : UInt8) (s' : SliceRef) (hc' : t.Cell n' c' s')
    (hne : (n, c) ≠ (n', c')) :
    (∀ i op, i < s.len →
      Mem.read { t.1 with arrays := t.1.write s.arr ((t.1.arrays s.arr).set i op) } s' = t.1.read s') ∧
    (∀ op, (t.1.append grow .nil s op).1.read s' = t.1.read s') := by
  have hrun : ∃ tbl, TableRel h.next h.arrays t tbl := by
    unfold fromGrammarH at he
    have hs := sim_run hg g h
    simp only [Res.bind_eq_ok] at he
    obtain ⟨t', ht', he⟩ := he
    rw [ht'] at hs
    simp only [Res.pure_eq, Res.ok.injEq, Prod.mk.injEq] at he
    obtain ⟨rfl, _⟩ := he
    generalize TG.run (newGen g) (newSets (newGen g).ruleCount) (newSets (newGen g).ruleCount) = y at hs
    cases hs with
    | ok hrel => exact ⟨_, hrel⟩
  obtain ⟨tbl, ht⟩ := hrun
  have hap : 0 < s.cap → 0 < s'.cap → s'.arr ≠ s.arr := by
    intro hp hp' heq
    obtain ⟨rfl, rfl⟩ := ht.apart _ _ _ _ _ _ hc hc' hp hp' heq.symm
    exact hne rfl
  constructor
  · intro i op hi
    have := (ht.fits _ _ _ hc).1
    exact read_write_ne fun hp' => hap (by omega) hp'
  · intro op
    unfold Mem.append
    split
    · next hlt => exact read_write_ne fun hp' => hap (by omega) hp'
    · apply read_write_ne
      intro hp'
      have := ((ht.fits _ _ _ hc').2 hp').2.1
      omega

open TG Mem in
/-- A run the theorems apply to: doubling capacities, a table with two rows. -/
example : Roomy (fun _ n => 2 * n) ∧ ∃ t names,
    fromGrammarH (fun _ n => 2 * n) id ⟨[⟨b!"S", ⟨[⟨[.terminal b!"a", .nonTerminal b!"T", .nonTerminal b!"T"]⟩]⟩⟩,
      ⟨b!"T", ⟨[⟨[.terminal b!"b"]⟩, ⟨[.terminal b!"c"]⟩]⟩⟩]⟩ ⟨0, fun _ => []⟩ = .ok (t, names) ∧
    t.2 = [(1, [(99, ⟨3, 1, 2⟩), (98, ⟨2, 1, 2⟩)]), (0, [(97, ⟨1, 3, 6⟩)])] :=
  ⟨fun _ n => by show n ≤ 2 * n; omega, _, _, rfl, by decide +kernel⟩

end LL1
