import Verif.Proofs.GrammarFacts
import Verif.Proofs.ParserTop

/-! # Generated tables are closed -/

namespace LL1

/-- A literal, or a reference to one of the rows `0..n-1`. -/
def ClosedOp (n : Nat) : ParserOp → Prop
  | .terminal _ => True
  | .nonTerminal k => ∃ i : Nat, i < n ∧ k = i
  | _ => False

namespace TG

/-- Every operation of the row comes from a symbol of the grammar. -/
def RowFrom (P : ParserOp → Prop) (row : Row) : Prop :=
  ∀ b ops, GoMap.get row b = some ops → ∀ op ∈ ops, P op

theorem addSymbols_from {g : Grammar} {P : ParserOp → Prop} {term : UInt8} (syms : List Symbol)
    (hP : ∀ x ∈ syms, ∀ op, OpOf g x op → P op) {res res' : Row}
    (hr : RowFrom P res) (h : addSymbols (newGen g) term syms res = .ok res') : RowFrom P res' := by
  obtain ⟨ops, h1, h2, h3⟩ := addSymbols_ok _ _ _ h
  intro b o ho op hop
  by_cases hb : b = term
  · subst hb
    rw [h3] at ho
    split at ho
    · exact hr b o ho op hop
    · cases ho
      rcases List.mem_append.1 hop with h | h
      · cases hg : GoMap.get res b with
        | none => simp [hg] at h
        | some o' => exact hr b o' hg op (by simpa [hg] using h)
      · obtain ⟨x, hx, hxo⟩ := h1.mem_right h
        exact hP x hx op hxo
  · rw [h2 b hb] at ho
    exact hr b o ho op hop

theorem addFirstCells_from {g : Grammar} {P : ParserOp → Prop} {alt : Sequence}
    (hP : ∀ x ∈ alt.symbols, ∀ op, OpOf g x op → P op) : ∀ (bs : List UInt8) (res res' : Row),
    RowFrom P res → addFirstCells (newGen g) alt bs res = .ok res' → RowFrom P res' := by
  intro bs
  induction bs with
  | nil => intro res res' hr h; simp only [addFirstCells, Res.ok.injEq] at h; subst h; exact hr
  | cons t bs ih =>
    intro res res' hr h
    simp only [addFirstCells] at h
    rw [Res.bind_eq_ok] at h
    obtain ⟨m, hm, h⟩ := h
    exact ih _ _ (addSymbols_from _ hP hr hm) h

theorem addSequence_from {g : Grammar} {P : ParserOp → Prop} {firsts follows : List ByteSet} {i : Nat}
    {alt : Sequence} (hP : ∀ x ∈ alt.symbols, ∀ op, OpOf g x op → P op) {res res' : Row}
    (hr : RowFrom P res) (h : addSequence (newGen g) firsts follows i alt res = .ok res') :
    RowFrom P res' := by
  unfold addSequence at h
  rw [Res.bind_eq_ok] at h
  obtain ⟨S, _, h⟩ := h
  split at h
  · rw [Res.bind_eq_ok] at h
    obtain ⟨F, _, h⟩ := h
    rw [Res.bind_eq_ok] at h
    obtain ⟨fb, _, h⟩ := h
    rw [Res.bind_eq_ok] at h
    obtain ⟨r1, hr1, h⟩ := h
    simp only at h
    rw [Res.bind_eq_ok] at h
    obtain ⟨bs, _, h⟩ := h
    refine addFirstCells_from hP _ _ _ ?_ h
    obtain ⟨_, h2⟩ := addEmptyCells_ok _ _ _ hr1
    intro b o ho op hop
    rw [h2] at ho
    split at ho
    · cases ho; simp at hop
    · exact hr b o ho op hop
  · rw [Res.bind_eq_ok] at h
    obtain ⟨bs, _, h⟩ := h
    exact addFirstCells_from hP _ _ _ hr h

theorem makeTableRow_from {g : Grammar} {P : ParserOp → Prop} {firsts follows : List ByteSet} {i : Nat}
    (hP : ∀ alt, g.Alt i alt → ∀ x ∈ alt.symbols, ∀ op, OpOf g x op → P op) {row : Row}
    (h : makeTableRow (newGen g) firsts follows i = .ok row) : RowFrom P row := by
  unfold makeTableRow at h
  rw [Res.bind_eq_ok] at h
  obtain ⟨r, hr, h⟩ := h
  rw [idx_ok] at hr
  have key : ∀ (ss : List Sequence) (res res' : Row), (∀ s ∈ ss, g.Alt i s) → RowFrom P res →
      addSequences (newGen g) firsts follows i ss res = .ok res' → RowFrom P res' := by
    intro ss
    induction ss with
    | nil => intro res res' _ hr h; simp only [addSequences, Res.ok.injEq] at h; subst h; exact hr
    | cons s ss ih =>
      intro res res' ha hr h
      simp only [addSequences] at h
      rw [Res.bind_eq_ok] at h
      obtain ⟨m, hm, h⟩ := h
      exact ih _ _ (fun s hs => ha s (List.mem_cons_of_mem _ hs))
        (addSequence_from (hP s (ha s (by simp))) hr hm) h
  exact key _ _ _ (fun s hs => ⟨r, hr, hs⟩) (by intro b o ho; simp at ho) h

theorem opOf_closed {g : Grammar} {x : Symbol} {op : ParserOp} (h : OpOf g x op) :
    ClosedOp g.rules.length op := by
  cases x with
  | terminal t => rw [show op = .terminal t from h]; trivial
  | nothing => exact absurd h (by simp [OpOf])
  | nonTerminal n =>
    obtain ⟨i, hr, rfl⟩ := h
    exact ⟨i, hr.lt, rfl⟩

/-- Rows and operations of a generated table; no assumption on the grammar. -/
theorem fromGrammar_closed {order : List (Str × Nat) → List (Str × Nat)} {g : Grammar} {tbl : Table}
    {names : Names} (h : fromGrammar order g = .ok (tbl, names)) :
    g.rules ≠ [] ∧
    (∀ n : Int, (∃ row, tbl.get n = some row) ↔ ∃ i : Nat, i < g.rules.length ∧ n = i) ∧
    (∀ n row b ops, tbl.get n = some row → GoMap.get row b = some ops → ∀ op ∈ ops,
      ∃ alt x, (∃ i : Nat, n = i ∧ g.Alt i alt) ∧ x ∈ alt.symbols ∧ OpOf g x op) := by
  obtain ⟨firsts, follows, h1, h2, h3, _⟩ := fromGrammar_parts h
  obtain ⟨h4, h5⟩ := makeTable_ok h3
  have hrow : ∀ n row, tbl.get n = some row → ∃ i : Nat, i < g.rules.length ∧ n = i := by
    intro n row hn
    by_cases hex : ∃ i : Nat, i < g.rules.length ∧ n = i
    · exact hex
    · have := h5 n (fun i hi hni => hex ⟨i, hi, hni⟩)
      rw [hn] at this; cases this
  refine ⟨?_, ?_, ?_⟩
  · intro he
    unfold findFollows at h2
    rw [Res.bind_eq_ok] at h2
    obtain ⟨f0, hf0, _⟩ := h2
    rw [idx_ok] at hf0
    simp [newSets, he] at hf0
  · intro n
    constructor
    · rintro ⟨row, hr⟩; exact hrow n row hr
    · rintro ⟨i, hi, rfl⟩
      obtain ⟨row, hr, _⟩ := h4 i hi
      exact ⟨row, hr⟩
  · intro n row b ops hn hb op hop
    obtain ⟨i, hi, rfl⟩ := hrow n row hn
    obtain ⟨row', hr, hm⟩ := h4 i hi
    rw [hr] at hn; cases hn
    have := makeTableRow_from (P := fun op => ∃ alt x, (∃ k : Nat, ((i : Nat) : Int) = k ∧ g.Alt k alt) ∧
      x ∈ alt.symbols ∧ OpOf g x op)
      (fun alt ha x hx op ho => ⟨alt, x, ⟨i, rfl, ha⟩, hx, ho⟩) hm
    exact this b ops hb op hop

end TG

/-- A closed table. -/
structure Table.Closed (tbl : Table) (n : Nat) : Prop where
  pos : 0 < n
  rows : ∀ k : Int, (∃ row, tbl.get k = some row) ↔ ∃ i : Nat, i < n ∧ k = i
  ops : ∀ k row b ops, tbl.get k = some row → GoMap.get row b = some ops → ∀ op ∈ ops, ClosedOp n op

theorem fromGrammar_closedTable {order : List (Str × Nat) → List (Str × Nat)} {g : Grammar} {tbl : Table}
    {names : Names} (h : fromGrammar order g = .ok (tbl, names)) : tbl.Closed g.rules.length := by
  obtain ⟨h1, h2, h3⟩ := TG.fromGrammar_closed h
  refine ⟨List.length_pos_iff.2 h1, h2, ?_⟩
  intro k row b ops hk hb op hop
  obtain ⟨_, _, _, _, ho⟩ := h3 k row b ops hk hb op hop
  exact TG.opOf_closed ho

theorem Table.Closed.hasEntry {tbl : Table} {n : Nat} (h : tbl.Closed n) : tbl.HasEntry :=
  (h.rows 0).2 ⟨0, h.pos, rfl⟩

theorem Table.Closed.public {tbl : Table} {n : Nat} (h : tbl.Closed n) : tbl.Public := by
  intro k row b ops hk hb op hop
  have := h.ops k row b ops hk hb op hop
  cases op <;> first | trivial | exact absurd this (by simp [ClosedOp])

theorem Table.Closed.body {tbl : Table} {n : Nat} (h : tbl.Closed n) {k : Int} {b : UInt8}
    {body : List ParserOp} (hk : ∃ i : Nat, i < n ∧ k = i) (hb : bodyFor tbl k b = some body) :
    ∀ op ∈ body, ClosedOp n op := by
  obtain ⟨i, hi, rfl⟩ := hk
  obtain ⟨row, hr⟩ := (h.rows i).2 ⟨i, hi, rfl⟩
  rw [bodyFor_nat hr] at hb
  exact h.ops _ _ _ _ hr hb

theorem Table.Closed.fails {tbl : Table} {n : Nat} (h : tbl.Closed n) {names : Option Names} {src : Str}
    {ops : List ParserOp} {i k : Nat} {e : PErr} (hf : FailsAt tbl names src ops i k e) :
    (∀ op ∈ ops, ClosedOp n op) →
    (∃ c d, e = .expectedChar c d) ∨
    (∃ (j : Nat), j < n ∧ e = .noRule (byteAt src k) (rowName names j) ∧
      bodyFor tbl j (byteAt src k) = none) := by
  induction hf with
  | lit => intro _; exact .inl ⟨_, _, rfl⟩
  | afterLit _ _ ih => intro ho; exact ih (fun op h => ho op (List.mem_cons_of_mem _ h))
  | @noBody m ops i hb =>
    intro ho
    obtain ⟨j, hj, rfl⟩ := ho _ (List.mem_cons_self)
    obtain ⟨row, hr⟩ := (h.rows j).2 ⟨j, hj, rfl⟩
    refine .inr ⟨j, hj, ?_, hb⟩
    unfold whyNot
    rw [if_pos (by omega), hr]
  | @inside m body ops i k e hb _ ih =>
    intro ho
    exact ih (h.body (ho _ List.mem_cons_self) hb)
  | afterNt _ _ _ ih => intro ho; exact ih (fun op h => ho op (List.mem_cons_of_mem _ h))

end LL1
