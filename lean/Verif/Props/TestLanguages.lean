import Verif.Proofs.TestLanguages
import Verif.Props.SelfGrammar
import Verif.Props.Vanish

/-!
# The languages of the repository's test grammars (C94)
-/

namespace LL1
open Golden TestLang

/-- The parser of an equal table, started on any readable NUL-free source, returns just the trees of `P`. -/
theorem testGrammar_accepts {g : Grammar} {gold : Table} (hrun : runGives g gold = true) (hsh : Sharp gold)
    {P : Str → Node → Prop} (hP : ∀ w t, (0 : UInt8) ∉ w → (IsParse gold w t ↔ P w t))
    {order : Order} {tbl : Table} {names : Names} (h : fromGrammar order g = .ok (tbl, names)) (m : Names) (src : Source) (w : Str)
    (hr : readSource src = .ok w) (h0 : (0 : UInt8) ∉ w) :
    (∀ t, (∃ m', (Parser.mk tbl (some m)).Returns src (.ok t m')) ↔ P w t) ∧
    ((∃ e, (Parser.mk tbl (some m)).Returns src (.err e)) ↔ ∀ t, ¬ P w t) := by
  obtain ⟨tbl', names', h', hs⟩ := fromGrammar_of_runGives hrun order
  rw [h] at h'
  cases h'
  have hc := fromGrammar_closedTable h
  obtain ⟨h1, h2⟩ := returns_of_gold hs hsh hc.hasEntry hc.public hP m src w hr h0
  exact ⟨fun t => ⟨fun ⟨m', h⟩ => ((h1 t m').1 h).1, fun h => ⟨_, (h1 t _).2 ⟨h, rfl⟩⟩⟩, h2⟩

/-- The sentences of a test grammar are the texts of `P`. -/
theorem testGrammar_sentences {g : Grammar} {gold : Table} (hrun : runGives g gold = true) (hsh : Sharp gold)
    {P : Str → Node → Prop} (hP : ∀ w t, (0 : UInt8) ∉ w → (IsParse gold w t ↔ P w t)) (hz : g.NulFree) {c : Cert}
    (hc : ll1Check g c = true) (hcov : coveredB g c gold = true) (hPz : ∀ w t, P w t → (0 : UInt8) ∉ w) (w : Str) :
    Sentence g w ↔ ∃ t, P w t := by
  obtain ⟨tbl, names, h, hs⟩ := fromGrammar_of_runGives hrun id
  have key : (0 : UInt8) ∉ w → (Sentence g w ↔ ∃ t, P w t) := by
    intro h0
    have hd := (C34_decides id g tbl names h hz (isLL1_of_check hc) (covered_of hc hcov hs) [] (.string w) w rfl h0).1
    rw [hd]
    have ha := (testGrammar_accepts hrun hsh hP h [] (.string w) w rfl h0).1
    exact ⟨fun ⟨t, m', h⟩ => ⟨t, (ha t).1 ⟨m', h⟩⟩, fun ⟨t, h⟩ => ⟨t, (ha t).2 h⟩⟩
  constructor
  · intro hw; exact (key (sentence_nulFree hz hw)).1 hw
  · rintro ⟨t, h⟩; exact (key (hPz w t h)).2 ⟨t, h⟩

/-- **C94.** `LinearMultiRule`: the generated parser accepts `A::=C` (with the tree `linearTree`) and no other NUL-free
source; every other one gets an error. -/
theorem C94_linear (order : Order) (tbl : Table) (names : Names)
    (h : fromGrammar order linearMultiRule = .ok (tbl, names)) (m : Names) (src : Source) (w : Str)
    (hr : readSource src = .ok w) (h0 : (0 : UInt8) ∉ w) :
    (∀ t, (∃ m', (Parser.mk tbl (some m)).Returns src (.ok t m')) ↔ w = b!"A::=C" ∧ t = linearTree) ∧
    ((∃ e, (Parser.mk tbl (some m)).Returns src (.err e)) ↔ w ≠ b!"A::=C") := by
  obtain ⟨h1, h2⟩ := testGrammar_accepts (by decide +kernel) (by decide +kernel) linear_isParse h m src w hr h0
  refine ⟨h1, h2.trans ⟨fun h e => h linearTree ⟨e, rfl⟩, fun h t ht => h ht.1⟩⟩

/-- **C94.** `Or`: exactly the sources `"B^`, `"C^` and `"^` are accepted, each with its tree. -/
theorem C94_or (order : Order) (tbl : Table) (names : Names)
    (h : fromGrammar order Golden.or = .ok (tbl, names)) (m : Names) (src : Source) (w : Str)
    (hr : readSource src = .ok w) (h0 : (0 : UInt8) ∉ w) :
    (∀ t, (∃ m', (Parser.mk tbl (some m)).Returns src (.ok t m')) ↔ IsOr w t) ∧
    ((∃ e, (Parser.mk tbl (some m)).Returns src (.err e)) ↔ w ≠ b!"\"B^" ∧ w ≠ b!"\"C^" ∧ w ≠ b!"\"^") := by
  obtain ⟨h1, h2⟩ := testGrammar_accepts (by decide +kernel) (by decide +kernel) or_isParse h m src w hr h0
  refine ⟨h1, h2.trans ⟨fun h => ⟨?_, ?_, ?_⟩, ?_⟩⟩
  · rintro rfl; exact h _ .b
  · rintro rfl; exact h _ .c
  · rintro rfl; exact h _ .none
  · rintro ⟨h1, h2, h3⟩ t ht
    cases ht <;> simp_all

/-- **C94.** `ResolvedLRecursive`: exactly the sources `_BB…B` are accepted, for every number of `B`s, and the tree
nests one level deeper with each `B`. -/
theorem C94_resolved (order : Order) (tbl : Table) (names : Names)
    (h : fromGrammar order resolvedLRecursive = .ok (tbl, names)) (m : Names) (src : Source) (w : Str)
    (hr : readSource src = .ok w) (h0 : (0 : UInt8) ∉ w) :
    (∀ t, (∃ m', (Parser.mk tbl (some m)).Returns src (.ok t m')) ↔ ∃ n, w = resolved n ∧ t = resolvedTree n) ∧
    ((∃ e, (Parser.mk tbl (some m)).Returns src (.err e)) ↔ ∀ n, w ≠ resolved n) := by
  obtain ⟨h1, h2⟩ := testGrammar_accepts (by decide +kernel) (by decide +kernel) resolved_isParse h m src w hr h0
  refine ⟨h1, h2.trans ⟨fun h n e => h _ ⟨n, e, rfl⟩, fun h t ⟨n, e, _⟩ => h n e⟩⟩

/-- **C94.** The hand-written table of the first parser test: exactly `"B^` and `"C^` with a line feed are accepted. -/
theorem C94_custom (m : Names) (src : Source) (w : Str) (hr : readSource src = .ok w) (h0 : (0 : UInt8) ∉ w) :
    (∀ t, (∃ m', (Parser.mk customTable (some m)).Returns src (.ok t m')) ↔ IsCustom w t) ∧
    ((∃ e, (Parser.mk customTable (some m)).Returns src (.err e)) ↔ w ≠ b!"\"B^\n" ∧ w ≠ b!"\"C^\n") := by
  have hp : customTable.Public := by
    intro n row b ops hn hb op hop
    have : ∀ e ∈ customTable, ∀ c ∈ e.2, ∀ op ∈ c.2, op.Public := by
      intro e he c hc op ho
      simp only [customTable, List.mem_cons, List.not_mem_nil, or_false] at he
      rcases he with rfl | rfl | rfl <;> simp only [List.mem_cons, List.not_mem_nil, or_false] at hc <;>
        (try rcases hc with rfl | rfl) <;> (try subst hc) <;>
        simp only [List.mem_cons, List.not_mem_nil, or_false] at ho <;>
        (try rcases ho with rfl | rfl | rfl | rfl) <;> (try subst ho) <;> trivial
    exact this _ (GoMap.mem_of_get_eq_some hn) _ (GoMap.mem_of_get_eq_some hb) op hop
  have hs : SameTable customTable customTable := fun n => ⟨Iff.rfl, fun a b h h' c => by rw [h] at h'; cases h'; rfl⟩
  obtain ⟨h1, h2⟩ := returns_of_gold hs (by decide +kernel) ⟨_, rfl⟩ hp custom_isParse m src w hr h0
  refine ⟨fun t => ⟨fun ⟨m', h⟩ => ((h1 t m').1 h).1, fun h => ⟨_, (h1 t _).2 ⟨h, rfl⟩⟩⟩, h2.trans ⟨?_, ?_⟩⟩
  · exact fun h => ⟨fun e => h _ ⟨.inl e, rfl⟩, fun e => h _ ⟨.inr e, rfl⟩⟩
  · rintro ⟨h1, h2⟩ t ⟨h | h, _⟩
    · exact h1 h
    · exact h2 h

/-- **C94.** The three grammars describe those languages; the left-recursive grammar describes the same language as
the resolved one. -/
theorem C94_sentences (w : Str) :
    (Sentence linearMultiRule w ↔ w = b!"A::=C") ∧
    (Sentence Golden.or w ↔ w = b!"\"B^" ∨ w = b!"\"C^" ∨ w = b!"\"^") ∧
    (Sentence resolvedLRecursive w ↔ ∃ n, w = resolved n) ∧
    (Sentence lRecursive w ↔ ∃ n, w = resolved n) := by
  refine ⟨?_, ?_, ?_, ?_⟩
  · rw [testGrammar_sentences (gold := linearMultiRuleTable) (c := Cert.compute linearMultiRule 4) (by decide +kernel) (by decide +kernel) linear_isParse
      (nulFree_of (by decide +kernel)) (by decide +kernel) (by decide +kernel)
      (by rintro _ _ ⟨rfl, _⟩; decide)]
    exact ⟨fun ⟨t, h, _⟩ => h, fun h => ⟨_, h, rfl⟩⟩
  · rw [testGrammar_sentences (gold := orTable) (c := Cert.compute Golden.or 4) (by decide +kernel) (by decide +kernel) or_isParse
      (nulFree_of (by decide +kernel)) (by decide +kernel) (by decide +kernel)
      (by rintro _ _ (_ | _ | _) <;> decide)]
    constructor
    · rintro ⟨t, _ | _ | _⟩ <;> simp
    · rintro (rfl | rfl | rfl)
      · exact ⟨_, .b⟩
      · exact ⟨_, .c⟩
      · exact ⟨_, .none⟩
  · rw [testGrammar_sentences (gold := resolvedLRecursiveTable) (c := Cert.compute resolvedLRecursive 4) (by decide +kernel) (by decide +kernel)
      resolved_isParse (nulFree_of (by decide +kernel)) (by decide +kernel) (by decide +kernel)
      (by rintro _ _ ⟨n, rfl, _⟩; simp [resolved])]
    exact ⟨fun ⟨t, n, h, _⟩ => ⟨n, h⟩, fun ⟨n, h⟩ => ⟨_, n, h, rfl⟩⟩
  · have hT : ∀ i, lRecursive.Refers b!"T" i ↔ i = 0 := fun i => by
      rw [← TG.get_ruleMap]
      rw [show (TG.newGen lRecursive).ruleMap.get b!"T" = some 0 by decide +kernel]
      simp [eq_comm]
    have hA : ∀ alt, lRecursive.Alt 0 alt ↔ alt = ⟨[.terminal b!"_"]⟩ ∨ alt = ⟨[.nonTerminal b!"T", .terminal b!"B"]⟩ := by
      intro alt
      constructor
      · rintro ⟨r, hr, hm⟩
        cases hr
        simpa using hm
      · intro h
        exact ⟨_, rfl, by simpa using h⟩
    have key : ∀ ys v, Gen lRecursive ys v →
        (ys = [] → v = []) ∧ (ys = [.terminal b!"B"] → v = b!"B") ∧ (ys = [.terminal b!"_"] → v = b!"_") ∧
        (ys = [.nonTerminal b!"T", .terminal b!"B"] → ∃ n, v = resolved n) := by
      intro ys v h
      induction h with
      | nil => simp
      | terminal _ ih =>
        refine ⟨nofun, ?_, ?_, nofun⟩
        · intro e; cases e; rw [ih.1 rfl]; rfl
        · intro e; cases e; rw [ih.1 rfl]; rfl
      | nothing => exact ⟨nofun, nofun, nofun, nofun⟩
      | @nonTerminal _ _ alt _ _ _ hr ha _ _ ih1 ih2 =>
        refine ⟨nofun, nofun, nofun, fun e => ?_⟩
        cases e
        cases (hT _).1 hr
        rw [ih2.2.1 rfl]
        rcases (hA alt).1 ha with rfl | rfl
        · rw [ih1.2.2.1 rfl]; exact ⟨1, rfl⟩
        · obtain ⟨n, rfl⟩ := ih1.2.2.2 rfl
          exact ⟨n + 1, by simp [resolved, List.replicate_succ']⟩
    constructor
    · rintro ⟨alt, ha, hg⟩
      rcases (hA alt).1 ha with rfl | rfl
      · exact ⟨0, (key _ _ hg).2.2.1 rfl⟩
      · exact (key _ _ hg).2.2.2 rfl
    · rintro ⟨n, rfl⟩
      induction n with
      | zero => exact ⟨_, (hA _).2 (.inl rfl), .terminal .nil⟩
      | succ n ih =>
        obtain ⟨alt, ha, hg⟩ := ih
        refine ⟨_, (hA _).2 (.inr rfl), ?_⟩
        have := Gen.nonTerminal (g := lRecursive) ((hT 0).2 rfl) ha hg
          (Gen.terminal (t := b!"B") (rest := []) .nil)
        rw [show resolved (n + 1) = resolved n ++ (b!"B" ++ []) by simp [resolved, List.replicate_succ']]
        exact this

/-- **C94.** `LRecursive`: `FromGrammar` does not reject it, and the parser it builds accepts nothing at all: on every
source it returns an error, although the language is not empty. -/
theorem C94_leftRecursive (order : Order) :
    ∃ tbl names, fromGrammar order lRecursive = .ok (tbl, names) ∧
    ∀ nm src, ∃ e, (Parser.mk tbl nm).Returns src (.err e) := by
  obtain ⟨tbl, names, h, hs⟩ := fromGrammar_of_runGives (g := lRecursive) (t := lRecursiveTable) (by decide +kernel) order
  have hc := fromGrammar_closedTable h
  refine ⟨tbl, names, h, fun nm src => ?_⟩
  obtain ⟨o, ho⟩ := Sharp.returns hs (by decide +kernel) hc.hasEntry hc.public nm src
  cases hr : readSource src with
  | error e =>
    obtain ⟨row, hrow⟩ := hc.hasEntry
    exact ⟨e, 0, by simp [Parser.parseFuel, hasEntry_length ⟨row, hrow⟩, hrow, hr]⟩
  | ok w =>
    rcases returns_cases (p := Parser.mk tbl nm) hc.hasEntry hc.public hr ho with ⟨t, ⟨j, ht, _⟩, _⟩ | ⟨k, e, _, rfl⟩
    · exact absurd (List.mem_cons_self ..) (lRecursive_noDerivation (ht.congr hs))
    · exact ⟨e, ho⟩

/-- `FromGrammar` succeeds on the three grammars, and `_BBBBBBB` is `resolved 7`. -/
example : (∃ tbl names, fromGrammar id linearMultiRule = .ok (tbl, names)) ∧
    (∃ tbl names, fromGrammar id Golden.or = .ok (tbl, names)) ∧
    (∃ tbl names, fromGrammar id resolvedLRecursive = .ok (tbl, names)) ∧ resolved 7 = b!"_BBBBBBB" ∧
    resolvedTree 1 = .mk 0 0 2 [.mk (-1) 0 1 [], .mk 1 1 2 [.mk (-1) 1 2 [], .mk 1 2 2 [.mk (-2) 2 2 []]]] := by
  obtain ⟨⟨t1, n1, h1, _⟩, ⟨t2, n2, h2, _⟩, ⟨t3, n3, h3, _⟩, _⟩ := C45_reference_tables id
  exact ⟨⟨_, _, h1⟩, ⟨_, _, h2⟩, ⟨_, _, h3⟩, rfl, rfl⟩

end LL1
