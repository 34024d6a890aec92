import Verif.Proofs.TableText
import Verif.Props.TestDriver

/-!
# C112: what the table tests' reference files guard
-/

namespace LL1
namespace TestTools

/-- **C112.** Two tables with ASCII terminals are printed alike exactly if they have the same rows and cells, in whatever
order the maps hold them, and no printed table begins another. -/
theorem C112_table_code (t t' : Table) (ht : IsGoTable t) (ht' : IsGoTable t') (ha : AsciiTable t) (ha' : AsciiTable t')
    (x y : Str) : goTable t ++ x = goTable t' ++ y ↔ SameTable t t' ∧ x = y := by
  rw [← canonTable_eq_iff t t' ht ht']
  constructor
  · exact goTable_code t t' ha ha' x y
  · rintro ⟨h, rfl⟩
    rw [goTable_canon, goTable_canon, h]

/-- **C112.** So the table tests are exact, although the comparison of contents behind them is not (C66): if the
reference file holds the printed form of `t`, the test passes for `t'` exactly if `t'` is the same table. -/
theorem C112_table_compare (t t' : Table) (ht : IsGoTable t) (ht' : IsGoTable t') (ha : AsciiTable t) (ha' : AsciiTable t')
    (fuel : Nat) (hf : (goTable t).length + (goTable t').length < fuel) :
    readerContentMustBeEqual contentReader contentReader fuel (goTable t) (goTable t') = some true ↔ SameTable t t' := by
  constructor
  · intro h
    rcases (C66_pass _ _ fuel hf h).1 with ⟨z, hz⟩ | ⟨z, hz⟩
    · exact ((C112_table_code t t' ht ht' ha ha' z []).1 (by rw [hz, List.append_nil])).1
    · intro n
      obtain ⟨h1, h2⟩ := ((C112_table_code t' t ht' ht ha' ha z []).1 (by rw [hz, List.append_nil])).1 n
      exact ⟨h1.symm, fun b => (h2 b).symm⟩
  · intro h
    have e := (C112_table_code t t' ht ht' ha ha' [] []).2 ⟨h, rfl⟩
    rw [List.append_nil, List.append_nil] at e
    rw [← e] at hf ⊢
    exact C66_equal_passes _ _ hf

/-- **C112.** Every table `FromGrammar` returns meets these conditions: it is made of maps, and its terminals are ASCII if
those of the grammar are. -/
theorem C112_generated (order : List (Str × Nat) → List (Str × Nat)) (g : Grammar) (t : Table) (names : Names)
    (h : fromGrammar order g = .ok (t, names)) : IsGoTable t ∧ (AsciiGrammar g → AsciiTable t) :=
  fromGrammar_inv order g t names id h

/-- **C112.** The tests of `FromGrammar` as a whole: with a reference file made from grammar `g`, the test passes for a
grammar `g'` exactly if `FromGrammar` returns the same table for both, whatever the order of Go's maps in either run. -/
theorem C112_table_test (order order' : List (Str × Nat) → List (Str × Nat)) (g g' : Grammar) (hg : AsciiGrammar g)
    (hg' : AsciiGrammar g') (t t' : Table) (names names' : Names) (h : fromGrammar order g = .ok (t, names))
    (h' : fromGrammar order' g' = .ok (t', names')) (fuel : Nat) (hf : (goTable t).length + (goTable t').length < fuel) :
    readerContentMustBeEqual contentReader contentReader fuel (goTable t) (goTable t') = some true ↔ SameTable t t' := by
  obtain ⟨a, b⟩ := C112_generated order g t names h
  obtain ⟨a', b'⟩ := C112_generated order' g' t' names' h'
  exact C112_table_compare t t' a a' (b hg) (b' hg') fuel hf

/-- The table of the test grammar `Or`. -/
def orTable : Table := match fromGrammar id Golden.or with
  | .ok (t, _) => t
  | _ => []

/-- The model reproduces `refTestOrGrammarToParsingTableResTable.bin`. -/
example : goTable orTable = b!"map[int]map[uint8][]parser.ParserOp{0:map[uint8][]parser.ParserOp{0x22:[]parser.ParserOp{parser.terminal_t{value:\"\\\"\"}, parser.nonTerminal_t{name:1}, parser.terminal_t{value:\"^\"}}}, 1:map[uint8][]parser.ParserOp{0x42:[]parser.ParserOp{parser.terminal_t{value:\"B\"}}, 0x43:[]parser.ParserOp{parser.terminal_t{value:\"C\"}}, 0x5e:[]parser.ParserOp{}}}" := by
  decide +kernel

/-- Its hypotheses are met by that table and by the same table with its rows the other way round; the two are the same
table and lie differently in memory. -/
example : IsGoTable orTable ∧ AsciiTable orTable ∧ IsGoTable orTable.reverse ∧ orTable ≠ orTable.reverse ∧
    SameTable orTable orTable.reverse := by
  have h : IsGoTable orTable := by unfold IsGoTable; decide +kernel
  have h' : IsGoTable orTable.reverse := by unfold IsGoTable; decide +kernel
  refine ⟨h, ?_, h', by decide +kernel, ?_⟩
  · have hb : (orTable.all fun e => e.2.all fun cell => cell.2.all fun o => match o with
        | .terminal s => s.all fun c => decide (c.toNat < 128)
        | _ => true) = true := by decide +kernel
    intro e he cell hc s hs c hcs
    have := List.all_eq_true.1 (List.all_eq_true.1 (List.all_eq_true.1 hb e he) cell hc) _ hs
    exact of_decide_eq_true (List.all_eq_true.1 this c hcs)
  · intro n
    rw [gm_get_of_perm orTable orTable.reverse h.1 (List.reverse_perm _).symm n]
    exact ⟨rfl, fun _ => rfl⟩

/-- The test grammar `Or` is an ASCII grammar and accepted. -/
example : AsciiGrammar Golden.or ∧ (∃ names, fromGrammar id Golden.or = .ok (orTable, names)) := by
  constructor
  · have hb : (Golden.or.rules.all fun rule => rule.tail.sequences.all fun q => q.symbols.all fun o => match o with
        | .terminal s => s.all fun c => decide (c.toNat < 128)
        | _ => true) = true := by decide +kernel
    intro rule hr q hq s hs c hcs
    have := List.all_eq_true.1 (List.all_eq_true.1 (List.all_eq_true.1 hb rule hr) q hq) _ hs
    exact of_decide_eq_true (List.all_eq_true.1 this c hcs)
  · have hk : (match fromGrammar id Golden.or with | .ok _ => true | _ => false) = true := by decide +kernel
    unfold orTable
    match h : fromGrammar id Golden.or with
    | .ok (t, names) => exact ⟨names, rfl⟩
    | .err _ => rw [h] at hk; cases hk
    | .panic _ => rw [h] at hk; cases hk
    | .diverge => rw [h] at hk; cases hk

end TestTools
end LL1
