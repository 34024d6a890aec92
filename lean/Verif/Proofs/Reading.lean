import Verif.Proofs.TableRow

/-! # Without terminals that begin with NUL, the package's reading is the textbook's -/

namespace LL1
namespace TG

/-- No terminal of the list begins with NUL. -/
def SymsFree (syms : List Symbol) : Prop := ∀ t, Symbol.terminal t ∈ syms → t.head? ≠ some 0

theorem SymsFree.of_alt {g : Grammar} (hz : g.NulStartFree) {i : Nat} {alt : Sequence} (h : g.Alt i alt) :
    SymsFree alt.symbols := fun t ht => hz i alt t h ht

theorem SymsFree.tail {x : Symbol} {xs : List Symbol} (h : SymsFree (x :: xs)) : SymsFree xs :=
  fun t ht => h t (List.mem_cons_of_mem _ ht)

theorem SymsFree.single {x : Symbol} {xs : List Symbol} (h : SymsFree (x :: xs)) : SymsFree [x] := by
  intro t ht
  rw [List.mem_singleton] at ht
  exact h t (by rw [ht]; simp)

theorem nullable_reads {g : Grammar} {syms : List Symbol} (h : Nullable g syms) : RNullable g syms := by
  induction h with
  | nil => exact .nil
  | nothing _ ih => exact .nothing ih
  | emptyTerminal _ ih => exact .emptyTerminal ih
  | nonTerminal h1 h2 _ _ ih1 ih2 => exact .nonTerminal h1 h2 ih1 ih2

theorem rnullable_iff {g : Grammar} (hz : g.NulStartFree) {syms : List Symbol} (hs : SymsFree syms) :
    RNullable g syms ↔ Nullable g syms := by
  refine ⟨fun h => ?_, nullable_reads⟩
  induction h with
  | nil => exact .nil
  | nothing _ ih => exact .nothing (ih hs.tail)
  | emptyTerminal _ ih => exact .emptyTerminal (ih hs.tail)
  | nul => exact absurd rfl (hs _ List.mem_cons_self)
  | nonTerminal h1 h2 _ _ ih1 ih2 => exact .nonTerminal h1 h2 (ih1 (.of_alt hz h2)) (ih2 hs.tail)

theorem rfirst_iff {g : Grammar} (hz : g.NulStartFree) {syms : List Symbol} (hs : SymsFree syms) (b : UInt8) :
    RFirst g syms b ↔ First g syms b := by
  constructor
  · intro h
    induction h with
    | terminal _ => exact .terminal
    | head h1 h2 _ ih => exact .head h1 h2 (ih (.of_alt hz h2))
    | skip _ h2 _ ih => exact .skip ((rnullable_iff hz hs.single).1 h2) (ih hs.tail)
  · intro h
    induction h with
    | terminal => exact .terminal (fun h => hs _ List.mem_cons_self (by simp [h]))
    | head h1 h2 _ ih => exact .head h1 h2 (ih (.of_alt hz h2))
    | skip h1 _ ih =>
      refine .skip ?_ (nullable_reads h1) (ih hs.tail)
      rintro t rfl
      exact hs _ List.mem_cons_self rfl

theorem rfirst_alt {g : Grammar} (hz : g.NulStartFree) {i : Nat} {alt : Sequence} (ha : g.Alt i alt) (b : UInt8) :
    RFirst g alt.symbols b ↔ First g alt.symbols b := rfirst_iff hz (.of_alt hz ha) b

theorem rnullable_alt {g : Grammar} (hz : g.NulStartFree) {i : Nat} {alt : Sequence} (ha : g.Alt i alt) :
    RNullable g alt.symbols ↔ Nullable g alt.symbols := rnullable_iff hz (.of_alt hz ha)

theorem rnextFollow_iff {g : Grammar} (hz : g.NulStartFree) (i : Nat) (b : UInt8) :
    RNextFollow g i b ↔ NextFollow g i b := by
  have hone : ∀ {j : Nat} {alt : Sequence} {pre post : List Symbol} {name : Str} {next : Symbol}, g.Alt j alt →
      alt.symbols = pre ++ .nonTerminal name :: next :: post → SymsFree [next] := by
    intro j alt pre post name next ha he t ht
    rw [List.mem_singleton] at ht
    exact hz j alt t ha (by rw [he, ht]; simp)
  constructor
  · intro h
    induction h with
    | start => exact .start
    | last h1 h2 h3 _ ih => exact .last h1 h2 h3 ih
    | next h1 h2 h3 h4 => exact .next h1 h2 h3 ((rfirst_iff hz (hone h1 h2) _).1 h4)
    | nextNullable h1 h2 h3 h4 _ ih => exact .nextNullable h1 h2 h3 ((rnullable_iff hz (hone h1 h2)).1 h4) ih
  · intro h
    induction h with
    | start => exact .start
    | last h1 h2 h3 _ ih => exact .last h1 h2 h3 ih
    | next h1 h2 h3 h4 => exact .next h1 h2 h3 ((rfirst_iff hz (hone h1 h2) _).2 h4)
    | nextNullable h1 h2 h3 h4 _ ih => exact .nextNullable h1 h2 h3 (nullable_reads h4) ih

theorem rpredicted_iff {g : Grammar} (hz : g.NulStartFree) {i : Nat} {b : UInt8} {alts : List Sequence}
    {ops : List ParserOp} (ha : ∀ alt ∈ alts, g.Alt i alt) : RPredicted g b alts ops ↔ Predicted g b alts ops := by
  constructor
  · intro h
    induction h with
    | nil => exact .nil
    | take h1 h2 _ ih =>
      exact .take ((rfirst_alt hz (ha _ (by simp)) b).1 h1) h2 (ih (fun a h => ha a (List.mem_cons_of_mem _ h)))
    | skip h1 _ ih =>
      exact .skip (fun h => h1 ((rfirst_alt hz (ha _ (by simp)) b).2 h)) (ih (fun a h => ha a (List.mem_cons_of_mem _ h)))
  · intro h
    induction h with
    | nil => exact .nil
    | take h1 h2 _ ih =>
      exact .take ((rfirst_alt hz (ha _ (by simp)) b).2 h1) h2 (ih (fun a h => ha a (List.mem_cons_of_mem _ h)))
    | skip h1 _ ih =>
      exact .skip (fun h => h1 ((rfirst_alt hz (ha _ (by simp)) b).1 h)) (ih (fun a h => ha a (List.mem_cons_of_mem _ h)))

theorem rclash_iff {g : Grammar} (hz : g.NulStartFree) (i : Nat) : RClash g i ↔ Clash g i := by
  have hmem : ∀ {r : Rule} {a : Sequence}, g.rules[i]? = some r → a ∈ r.tail.sequences → g.Alt i a :=
    fun hr ha => ⟨_, hr, ha⟩
  constructor
  · rintro ⟨r, pre, alt, post, b, hr, hp, hn, hb, e, he, hf⟩
    refine ⟨r, pre, alt, post, b, hr, hp, (rnullable_alt hz (hmem hr (by rw [hp]; simp))).1 hn,
      (rnextFollow_iff hz i b).1 hb, e, he, ?_⟩
    have ha := hmem hr (show e ∈ r.tail.sequences by rw [hp]; simp [he])
    exact hf.imp (rfirst_alt hz ha b).1 (rnullable_alt hz ha).1
  · rintro ⟨r, pre, alt, post, b, hr, hp, hn, hb, e, he, hf⟩
    refine ⟨r, pre, alt, post, b, hr, hp, (rnullable_alt hz (hmem hr (by rw [hp]; simp))).2 hn,
      (rnextFollow_iff hz i b).2 hb, e, he, ?_⟩
    have ha := hmem hr (show e ∈ r.tail.sequences by rw [hp]; simp [he])
    exact hf.imp (rfirst_alt hz ha b).2 (rnullable_alt hz ha).2

/-! ## Rows, in the textbook's notions -/

/-- `b` selects something in a row for rule `i` built from the alternatives `done`. -/
def Selects (g : Grammar) (i : Nat) (done : List Sequence) (b : UInt8) : Prop :=
  (∃ alt ∈ done, First g alt.symbols b) ∨ ((∃ alt ∈ done, Nullable g alt.symbols) ∧ NextFollow g i b)

/-- The row holds what the alternatives `done` predict. -/
def RowSpec (g : Grammar) (i : Nat) (done : List Sequence) (row : Row) : Prop :=
  ∀ b, (GoMap.get row b = none → ¬ Selects g i done b) ∧
    (∀ ops, GoMap.get row b = some ops → Selects g i done b ∧ Predicted g b done ops)

/-- Everything a successful `makeTableRow` establishes. -/
structure RowOk (g : Grammar) (i : Nat) (row : Row) : Prop where
  spec : ∀ r, g.rules[i]? = some r → RowSpec g i r.tail.sequences row
  defined : ∀ alt, g.Alt i alt → ∀ b, First g alt.symbols b → ∃ ops, AllPairs (OpOf g) alt.symbols ops
  noClash : ¬ Clash g i

theorem predicted_none {g : Grammar} {b : UInt8} {xs : List Sequence}
    (h : ∀ alt ∈ xs, ¬ First g alt.symbols b) : Predicted g b xs [] := by
  induction xs with
  | nil => exact .nil
  | cons x xs ih =>
    exact .skip (h x (by simp)) (ih (fun a ha => h a (List.mem_cons_of_mem _ ha)))

theorem predicted_det {g : Grammar} {b : UInt8} {xs : List Sequence} {o p : List ParserOp}
    (h : Predicted g b xs o) (h' : Predicted g b xs p) : o = p := by
  induction h generalizing p with
  | nil => cases h'; rfl
  | take h1 h2 _ ih =>
    cases h' with
    | take h3 h4 h5 => rw [opsOf_det h2 h4, ih h5]
    | skip h3 _ => exact absurd h1 h3
  | skip h1 _ ih =>
    cases h' with
    | take h3 => exact absurd h3 h1
    | skip _ h5 => exact ih h5

theorem selects_reads {g : Grammar} (hz : g.NulStartFree) {i : Nat} {alts : List Sequence} {b : UInt8}
    (ha : ∀ alt ∈ alts, g.Alt i alt) : RSelects g i alts b ↔ Selects g i alts b := by
  unfold RSelects Selects
  rw [rnextFollow_iff hz]
  constructor
  · rintro (⟨a, h, hf⟩ | ⟨⟨a, h, hn⟩, hb⟩)
    · exact .inl ⟨a, h, (rfirst_alt hz (ha a h) b).1 hf⟩
    · exact .inr ⟨⟨a, h, (rnullable_alt hz (ha a h)).1 hn⟩, hb⟩
  · rintro (⟨a, h, hf⟩ | ⟨⟨a, h, hn⟩, hb⟩)
    · exact .inl ⟨a, h, (rfirst_alt hz (ha a h) b).2 hf⟩
    · exact .inr ⟨⟨a, h, (rnullable_alt hz (ha a h)).2 hn⟩, hb⟩

theorem RRowOk.textbook {g : Grammar} (hz : g.NulStartFree) {i : Nat} {row : Row} (h : RRowOk g i row) :
    RowOk g i row where
  spec := by
    intro r hr b
    have ha : ∀ alt ∈ r.tail.sequences, g.Alt i alt := fun a ha => ⟨r, hr, ha⟩
    obtain ⟨h1, h2⟩ := h.spec r hr b
    refine ⟨fun h0 hs => h1 h0 ((selects_reads hz ha).2 hs), fun ops ho => ?_⟩
    obtain ⟨h3, h4⟩ := h2 ops ho
    exact ⟨(selects_reads hz ha).1 h3, (rpredicted_iff hz ha).1 h4⟩
  defined := fun alt ha b hf => h.defined alt ha b ((rfirst_alt hz ha b).2 hf)
  noClash := fun hc => h.noClash ((rclash_iff hz i).2 hc)

end TG
end LL1
