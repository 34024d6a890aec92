import Verif.Proofs.SelfTable
import Verif.Props.Language

/-!
# The BNF grammar and its parser (C45)
-/

namespace LL1

/-- **C45.** On the repository's test grammars and on `SelfGrammar()`, `FromGrammar` produces exactly the
tables recorded in the reference files of the repository, whatever the map iteration order. -/
theorem C45_reference_tables (order : Order) :
    (∃ tbl names, fromGrammar order Golden.linearMultiRule = .ok (tbl, names) ∧
      SameTable tbl Golden.linearMultiRuleTable) ∧
    (∃ tbl names, fromGrammar order Golden.or = .ok (tbl, names) ∧ SameTable tbl Golden.orTable) ∧
    (∃ tbl names, fromGrammar order Golden.resolvedLRecursive = .ok (tbl, names) ∧
      SameTable tbl Golden.resolvedLRecursiveTable) ∧
    (∃ tbl names, fromGrammar order selfGrammar = .ok (tbl, names) ∧ SameTable tbl Golden.selfTable) :=
  ⟨fromGrammar_of_runGives (by decide +kernel) order, fromGrammar_of_runGives (by decide +kernel) order,
    fromGrammar_of_runGives (by decide +kernel) order, fromGrammar_of_runGives self_runGives order⟩

/-- Every run of `FromGrammar(SelfGrammar())` gives the recorded table. -/
theorem self_sameTable {order : Order} {tbl : Table} {names : Names}
    (h : fromGrammar order selfGrammar = .ok (tbl, names)) : SameTable tbl Golden.selfTable := by
  obtain ⟨tbl', names', h', hs⟩ := fromGrammar_of_runGives self_runGives order
  rw [h] at h'
  cases h'
  exact hs

/-- **C45.** `SelfGrammar()` is LL(1) in the textbook sense. -/
theorem C45_ll1 : IsLL1 selfGrammar := self_ll1

/-- **C45.** The parser generated from `SelfGrammar()` returns on every source, and accepts a NUL-free
source iff it is a sentence of `SelfGrammar()` (otherwise it returns an error). -/
theorem C45_decides (order : Order) (tbl : Table) (names : Names)
    (h : fromGrammar order selfGrammar = .ok (tbl, names)) (m : Names) (src : Source) :
    (∃ o, (Parser.mk tbl (some m)).Returns src o) ∧
    ∀ text, readSource src = .ok text → (0 : UInt8) ∉ text →
      (Sentence selfGrammar text ↔ ∃ t m', (Parser.mk tbl (some m)).Returns src (.ok t m')) ∧
      (¬ Sentence selfGrammar text ↔ ∃ e, (Parser.mk tbl (some m)).Returns src (.err e)) :=
  ⟨C34_terminates order selfGrammar tbl names h self_nulFree.start self_ll1 (some m) src,
    fun text hr h0 => C34_decides order selfGrammar tbl names h self_nulFree self_ll1
      (self_covered (self_sameTable h)) m src text hr h0⟩

/-- The hypothesis is met (every order), and `<a> ::= "b"` is a sentence. -/
example : (∃ tbl names, fromGrammar id selfGrammar = .ok (tbl, names)) ∧
    Sentence selfGrammar b!"<a> ::= \"b\"" := by
  obtain ⟨tbl, names, h, hs⟩ := (C45_reference_tables id).2.2.2
  refine ⟨⟨tbl, names, h⟩, ?_⟩
  have hc := fromGrammar_closedTable h
  have hp : ∃ t m', (Parser.mk Golden.selfTable (some [])).Returns (.string b!"<a> ::= \"b\"") (.ok t m') :=
    ⟨_, _, 400, rfl⟩
  obtain ⟨t, m', hp⟩ := hp
  have hpub : Golden.selfTable.Public := by
    intro n row b ops hn hb op hop
    obtain ⟨h1, h2⟩ := hs n
    obtain ⟨row', hr'⟩ := h1.2 ⟨row, hn⟩
    exact hc.public n row' b ops hr' (by rw [h2 row' row hr' hn]; exact hb) op hop
  have := (returns_ok_iff (p := Parser.mk Golden.selfTable (some [])) ⟨_, rfl⟩ hpub rfl).1 hp
  refine ((C45_decides id tbl names h [] (.string b!"<a> ::= \"b\"")).2 _ rfl (by decide)).1.2 ?_
  exact ⟨t, _, (returns_ok_iff (p := Parser.mk tbl (some [])) hc.hasEntry hc.public rfl).2
    ⟨this.1.congr hs.symm, [], rfl, rfl⟩⟩

/-- The names of the nodes: with any iteration order node type `i` of the BNF parser is named by the
head of the `i`-th rule of `SelfGrammar()`. -/
theorem C45_names (order : Order) (ho : ∀ l, (order l).Perm l) (tbl : Table) (names : Names)
    (h : fromGrammar order selfGrammar = .ok (tbl, names)) (i : Nat) (r : Rule)
    (hr : selfGrammar.rules[i]? = some r) : names.get i = some r.head :=
  (C25_names order ho selfGrammar tbl names h).2 (distinctHeads_of (by decide +kernel)) i r hr

end LL1
