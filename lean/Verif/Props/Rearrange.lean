import Verif.Proofs.Rearrange
import Verif.Props.Language

/-!
# Row numbers and the order of rules do not matter (C61)
-/

namespace LL1

/-! ## C61 -/

theorem names_of_runFuel {tbl : Table} {mm : Names} {text : Str} {t : Node} {n : Names} : ∀ {fuel : Nat} {s : PState},
    runFuel tbl (some mm) text fuel s = some (.ok t n) → n = addBuiltinNames mm
  | 0, s, h => by cases h
  | fuel + 1, s, h => by
    unfold runFuel at h
    split at h
    · exact names_of_runFuel h
    · rename_i o hs
      cases h
      unfold step at hs
      split at hs
      · cases hs
      · simp only [] at hs
        split at hs
        · unfold processNonTerminal processBuiltinNonTerminal processTableNonTerminal at hs
          simp only [] at hs
          split at hs <;> split at hs <;> (try split at hs) <;> (try split at hs) <;> cases hs
        · cases hs
        · unfold processFunction at hs
          split at hs
          · cases hs
          · split at hs <;> cases hs
        · simp only [StepRes.done.injEq] at hs
          unfold processEOS at hs
          split at hs
          · cases hs
          · split at hs
            · cases hs
            · cases hs; rfl
        · unfold processChar at hs
          split at hs <;> cases hs
        · cases hs

/-- **C61.** The parser does not look at row numbers: for a table whose rows are all named and whose cells
only refer to its rows, renumbering the rows (keeping the start row) renumbers the tree and changes nothing
else.  Read through the returned names, the trees are the same; errors are literally the same. -/
theorem C61_renumbering (σ : Int → Int) (tbl tbl' : Table) (m m' : Names) (h : Renumbered σ tbl tbl' m m')
    (he : tbl.HasEntry) (hrow : ∀ n row, tbl.get n = some row → ∃ s, m.get n = some s)
    (hclosed : ∀ n row b ops, tbl.get n = some row → GoMap.get row b = some ops → ∀ k, .nonTerminal k ∈ ops →
      0 ≤ k → ∃ row, tbl.get k = some row) (src : Source) :
    (∀ nt, (∃ t n, (Parser.mk tbl (some m)).Returns src (.ok t n) ∧ t.named n = nt) ↔
      ∃ t n, (Parser.mk tbl' (some m')).Returns src (.ok t n) ∧ t.named n = nt) ∧
    (∀ e, (Parser.mk tbl (some m)).Returns src (.err e) ↔ (Parser.mk tbl' (some m')).Returns src (.err e)) ∧
    ((Parser.mk tbl (some m)).Diverges src ↔ (Parser.mk tbl' (some m')).Diverges src) := by
  have key := h.parseFuel hrow hclosed he src
  have hok : ∀ fuel o, (Parser.mk tbl (some m)).parseFuel fuel src = some o →
      (Parser.mk tbl' (some m')).parseFuel fuel src = some (o.renumber σ m') := fun fuel o ho => by
    rw [key, ho]; rfl
  have hback : ∀ fuel o, (Parser.mk tbl' (some m')).parseFuel fuel src = some o →
      ∃ o', (Parser.mk tbl (some m)).parseFuel fuel src = some o' ∧ o'.renumber σ m' = o := fun fuel o ho => by
    rw [key, Option.map_eq_some_iff] at ho; exact ho
  -- the names a successful call returns are the parser's own plus the built-in ones
  have hnames : ∀ (tb : Table) (mm : Names) t n, (Parser.mk tb (some mm)).Returns src (.ok t n) →
      n = addBuiltinNames mm := by
    intro tb mm t n ⟨fuel, hf⟩
    unfold Parser.parseFuel at hf
    split at hf
    · cases hf
    · split at hf
      · cases hf
      · split at hf
        · cases hf
        · exact names_of_runFuel hf
  refine ⟨fun nt => ⟨?_, ?_⟩, fun e => ⟨?_, ?_⟩, ?_, ?_⟩
  · rintro ⟨t, n, ⟨fuel, hf⟩, rfl⟩
    have hn := hnames tbl m t n ⟨fuel, hf⟩
    subst hn
    exact ⟨_, _, ⟨fuel, hok fuel _ hf⟩, Renumbered.named_renumber h.builtins t⟩
  · rintro ⟨t, n, ⟨fuel, hf⟩, rfl⟩
    obtain ⟨o, ho, he⟩ := hback fuel _ hf
    cases o with
    | ok t' n' =>
      have hn := hnames tbl m t' n' ⟨fuel, ho⟩
      subst hn
      cases he
      exact ⟨t', _, ⟨fuel, ho⟩, (Renumbered.named_renumber h.builtins t').symm⟩
    | err e => cases he
    | panic p => cases he
  · rintro ⟨fuel, hf⟩; exact ⟨fuel, hok fuel _ hf⟩
  · rintro ⟨fuel, hf⟩
    obtain ⟨o, ho, he⟩ := hback fuel _ hf
    cases o with
    | ok t' n' => cases he
    | err e' => cases he; exact ⟨fuel, ho⟩
    | panic p => cases he
  · intro hd fuel; rw [key, hd fuel]; rfl
  · intro hd fuel
    have := hd fuel
    rw [key, Option.map_eq_none_iff] at this
    exact this

theorem renumbered_of_rearranged {o o' : Order} (ho : ∀ l, (o l).Perm l) (ho' : ∀ l, (o' l).Perm l) {g g' : Grammar}
    (h : Rearranged g g') (hd : DistinctHeads g) (hd' : DistinctHeads g') (hz : g.NulStartFree) (hf : FirstDisjoint g)
    {tbl tbl' : Table} {m m' : Names} (e : fromGrammar o g = .ok (tbl, m)) (e' : fromGrammar o' g' = .ok (tbl', m')) :
    Renumbered (Rearranged.sigma g g') tbl tbl' m m' := by
  have hz' := h.nulStartFree hd hd' hz
  have hf' := h.firstDisjoint hd hd' hf
  have c := C24_closed o g tbl m e
  have c' := C24_closed o' g' tbl' m' e'
  have n1 := (C25_names o ho g tbl m e).1
  have n2 := (C25_names o' ho' g' tbl' m' e').1
  have hneg : ∀ n, n < 0 → Rearranged.sigma g g' n = n := fun n hn => by
    unfold Rearranged.sigma; rw [if_pos hn]
  have hno : ∀ n : Int, 0 ≤ n → (¬ ∃ j, Rearranged.Corr g g' n.toNat j) →
      Rearranged.sigma g g' n = n + g'.rules.length := by
    intro n hn hc
    unfold Rearranged.sigma
    rw [if_neg (by omega), dif_neg hc]
  have hcorr : ∀ i : Nat, (∃ j, Rearranged.Corr g g' i j) ↔ i < g.rules.length := by
    intro i
    constructor
    · rintro ⟨j, name, ⟨r, hr, _⟩, _⟩; exact (List.getElem?_eq_some_iff.1 hr).1
    · intro hi
      obtain ⟨j, _, hc, _⟩ := h.corr_rule hd hd' (List.getElem?_eq_getElem hi)
      exact ⟨j, hc⟩
  refine ⟨?_, hneg, ?_, ?_, ?_, ?_⟩
  · obtain ⟨i, hi, e0⟩ := (c.1 0).1 (fromGrammar_closedTable e).hasEntry
    have : i = 0 := by omega
    subst this
    obtain ⟨j, hc⟩ := (hcorr 0).2 hi
    cases h.corr_zero hd hd' hc
    exact Rearranged.sigma_corr h hd hd' hc
  · intro n hn
    by_cases hc : ∃ j, Rearranged.Corr g g' n.toNat j
    · obtain ⟨j, hc⟩ := hc
      have := Rearranged.sigma_corr h hd hd' hc
      rw [Int.toNat_of_nonneg hn] at this
      omega
    · rw [hno n hn hc]; omega
  · intro n hn hnone
    have hi : ¬ n.toNat < g.rules.length := by
      intro hi
      obtain ⟨row, hr⟩ := (c.1 n).2 ⟨n.toNat, hi, by omega⟩
      rw [hr] at hnone
      cases hnone
    rw [hno n hn (fun hc => hi ((hcorr _).1 hc))]
    cases hg : tbl'.get (n + g'.rules.length) with
    | none => rfl
    | some row =>
      obtain ⟨j, hj, hje⟩ := (c'.1 _).1 ⟨row, hg⟩
      omega
  · intro n row hn hrow
    obtain ⟨i, hi, rfl⟩ := (c.1 n).1 ⟨row, hrow⟩
    obtain ⟨j, hc⟩ := (hcorr i).2 hi
    rw [Rearranged.sigma_corr h hd hd' hc]
    have hr := List.getElem?_eq_getElem hi
    generalize g.rules[i] = r at hr
    obtain ⟨j', r', hc', hr', hh, hp⟩ := h.corr_rule hd hd' hr
    cases h.corr_unique hd hd' hc hc'
    obtain ⟨row1, hrow1, hcell⟩ := C26_cells o g tbl m hz e i r hr
    rw [hrow] at hrow1
    cases hrow1
    obtain ⟨row', hrow', hcell'⟩ := C26_cells o' g' tbl' m' hz' e' j r' hr'
    refine ⟨row', hrow', fun b => ?_⟩
    have hiff : (∃ ops, GoMap.get row' b = some ops) ↔ ∃ ops, GoMap.get row b = some ops := by
      rw [(hcell b).1, (hcell' b).1]
      constructor
      · rintro (⟨a, ha, hfa⟩ | ⟨⟨a, ha, hn⟩, hnf⟩)
        · exact .inl ⟨a, hp.mem_iff.1 ha, h.symm.firsts hd' hd hfa⟩
        · exact .inr ⟨⟨a, hp.mem_iff.1 ha, h.symm.nullable hd' hd hn⟩, h.symm.nextFollow hd' hd hnf i hc.symm⟩
      · rintro (⟨a, ha, hfa⟩ | ⟨⟨a, ha, hn⟩, hnf⟩)
        · exact .inl ⟨a, hp.mem_iff.2 ha, h.firsts hd hd' hfa⟩
        · exact .inr ⟨⟨a, hp.mem_iff.2 ha, h.nullable hd hd' hn⟩, h.nextFollow hd hd' hnf j hc⟩
    cases hg : GoMap.get row b with
    | none =>
      cases hg' : GoMap.get row' b with
      | none => rfl
      | some ops' =>
        obtain ⟨ops, ho⟩ := hiff.1 ⟨ops', hg'⟩
        rw [hg] at ho
        cases ho
    | some ops =>
      obtain ⟨ops', hg'⟩ := hiff.2 ⟨ops, hg⟩
      rw [hg', Option.map_some]
      congr 1
      have p := predicted_single ((hcell b).2 ops hg) (fun k l a c hk hl ha hc => hf i r k l a c b hr hk hl ha hc)
      have p' := predicted_single ((hcell' b).2 ops' hg')
        (fun k l a c hk hl ha hc => hf' j r' k l a c b hr' hk hl ha hc)
      rcases p with ⟨hno, rfl⟩ | ⟨a, ha, hfa, hops⟩
      · rcases p' with ⟨_, rfl⟩ | ⟨a, ha, hfa, _⟩
        · rfl
        · exact (hno a (hp.mem_iff.1 ha) (h.symm.firsts hd' hd hfa)).elim
      · rcases p' with ⟨hno, _⟩ | ⟨a', ha', hfa', hops'⟩
        · exact (hno a (hp.mem_iff.2 ha) (h.firsts hd hd' hfa)).elim
        · cases firstDisjoint_alt hf ⟨r, hr, ha⟩ ⟨r, hr, hp.mem_iff.1 ha'⟩ hfa (h.symm.firsts hd' hd hfa')
          exact Rearranged.allPairs_opOf h hd hd' hops hops'
  · intro n
    apply Option.ext
    intro name
    rw [n1, n2]
    by_cases hn : n < 0
    · rw [hneg n hn]
      constructor <;> rintro ⟨i, rfl, _⟩ <;> omega
    by_cases hc : ∃ j, Rearranged.Corr g g' n.toNat j
    · obtain ⟨j, hc⟩ := hc
      have hs := Rearranged.sigma_corr h hd hd' hc
      rw [Int.toNat_of_nonneg (by omega)] at hs
      rw [hs]
      constructor
      · rintro ⟨k, hk, href⟩
        have : k = j := by omega
        subst this
        exact ⟨n.toNat, by omega, refers_of_distinct hd (h.symm.head_corr hd' hd href.1 hc.symm)⟩
      · rintro ⟨k, hk, href⟩
        have : k = n.toNat := by omega
        subst this
        exact ⟨j, rfl, refers_of_distinct hd' (h.head_corr hd hd' href.1 hc)⟩
    · rw [hno n (by omega) hc]
      constructor
      · rintro ⟨k, hk, ⟨⟨r, hr, _⟩, _⟩⟩
        have := (List.getElem?_eq_some_iff.1 hr).1
        omega
      · rintro ⟨k, hk, ⟨⟨r, hr, _⟩, _⟩⟩
        exact (hc ((hcorr _).2 (by have := (List.getElem?_eq_some_iff.1 hr).1; omega))).elim

/-- **C61.** The order in which the rules (after the first) and the alternatives are written does not
matter: when `FromGrammar` accepts both arrangements of a FIRST-disjoint grammar, the two parsers do the
same on every source - the same tree as read through the returned names, or the same error, or both run
forever. -/
theorem C61_rearranged (o o' : Order) (ho : ∀ l, (o l).Perm l) (ho' : ∀ l, (o' l).Perm l) (g g' : Grammar)
    (h : Rearranged g g') (hd : DistinctHeads g) (hd' : DistinctHeads g') (hz : g.NulStartFree) (hf : FirstDisjoint g)
    (tbl tbl' : Table) (m m' : Names) (e : fromGrammar o g = .ok (tbl, m)) (e' : fromGrammar o' g' = .ok (tbl', m'))
    (src : Source) :
    (∀ nt, (∃ t n, (Parser.mk tbl (some m)).Returns src (.ok t n) ∧ t.named n = nt) ↔
      ∃ t n, (Parser.mk tbl' (some m')).Returns src (.ok t n) ∧ t.named n = nt) ∧
    (∀ err, (Parser.mk tbl (some m)).Returns src (.err err) ↔ (Parser.mk tbl' (some m')).Returns src (.err err)) ∧
    ((Parser.mk tbl (some m)).Diverges src ↔ (Parser.mk tbl' (some m')).Diverges src) := by
  have hn := renumbered_of_rearranged ho ho' h hd hd' hz hf e e'
  have c := C24_closed o g tbl m e
  refine C61_renumbering _ tbl tbl' m m' hn (fromGrammar_closedTable e).hasEntry ?_ ?_ src
  · intro n row hr
    obtain ⟨i, hi, rfl⟩ := (c.1 n).1 ⟨row, hr⟩
    exact ⟨_, (C25_names o ho g tbl m e).2 hd i _ (List.getElem?_eq_getElem hi)⟩
  · intro n row b ops hr hb k hk _
    rcases c.2.1 n row b ops hr hb _ hk with ⟨s, hs⟩ | ⟨i, hi, hs⟩
    · cases hs
    · cases hs
      exact (c.1 _).2 ⟨i, hi, rfl⟩

/-- **C61.** For LL(1) grammars without nullable gaps no arrangement is rejected. -/
theorem C61_ll1_accepted (o : Order) (g g' : Grammar) (h : Rearranged g g') (hd : DistinctHeads g)
    (hd' : DistinctHeads g') (hz : g.NulStartFree) (hw : g.WellFormed) (hg : NoNullableGap g) (hll : IsLL1 g) :
    ∃ tbl names, fromGrammar o g' = .ok (tbl, names) :=
  C29_ll1_accepted o g' (h.nulStartFree hd hd' hz) (h.wellFormed hd hd' hw) hd' (h.noGap hd hd' hg) (h.ll1 hd hd' hll)

/-- The rules of a grammar for sums, in two arrangements. -/
def Ex.sum : Grammar := ⟨[
  rule b!"S" [[.nonTerminal b!"N", .nonTerminal b!"T"]],
  rule b!"T" [[.terminal b!"+", .nonTerminal b!"S"], [.nothing]],
  rule b!"N" [[.terminal b!"1"], [.terminal b!"(", .nonTerminal b!"S", .terminal b!")"]]]⟩

def Ex.sum' : Grammar := ⟨[
  rule b!"S" [[.nonTerminal b!"N", .nonTerminal b!"T"]],
  rule b!"N" [[.terminal b!"(", .nonTerminal b!"S", .terminal b!")"], [.terminal b!"1"]],
  rule b!"T" [[.nothing], [.terminal b!"+", .nonTerminal b!"S"]]]⟩

example : Rearranged Ex.sum Ex.sum' ∧ DistinctHeads Ex.sum ∧ DistinctHeads Ex.sum' ∧ Ex.sum.NulStartFree ∧
    FirstDisjoint Ex.sum ∧ Ex.sum.WellFormed ∧ IsLL1 Ex.sum ∧
    (∃ tbl names, fromGrammar id Ex.sum = .ok (tbl, names)) ∧
    (∃ tbl names, fromGrammar id Ex.sum' = .ok (tbl, names)) := by
  have hll : IsLL1 Ex.sum := isLL1_of_check (c := Cert.compute Ex.sum 4) (by decide +kernel)
  refine ⟨⟨?_, ?_, ?_⟩, distinctHeads_of (by decide +kernel), distinctHeads_of (by decide +kernel),
    nulStartFree_of (by decide +kernel), hll.1, wellFormed_of (by decide +kernel), hll,
    succeeds_iff.1 (by decide +kernel), succeeds_iff.1 (by decide +kernel)⟩
  · intro r r' h1 h2; cases h1; cases h2; rfl
  · intro r hr
    simp only [Ex.sum, List.mem_cons, List.not_mem_nil, or_false] at hr
    rcases hr with rfl | rfl | rfl
    · exact ⟨_, List.mem_cons_self, rfl, .refl _⟩
    · exact ⟨_, List.mem_cons_of_mem _ (List.mem_cons_of_mem _ List.mem_cons_self), rfl, .swap _ _ _⟩
    · exact ⟨_, List.mem_cons_of_mem _ List.mem_cons_self, rfl, .swap _ _ _⟩
  · intro r hr
    simp only [Ex.sum', List.mem_cons, List.not_mem_nil, or_false] at hr
    rcases hr with rfl | rfl | rfl
    · exact ⟨_, List.mem_cons_self, rfl, .refl _⟩
    · exact ⟨_, List.mem_cons_of_mem _ (List.mem_cons_of_mem _ List.mem_cons_self), rfl, .swap _ _ _⟩
    · exact ⟨_, List.mem_cons_of_mem _ List.mem_cons_self, rfl, .swap _ _ _⟩

/-- **C61.** Without FIRST-disjointness the order does matter: the parser of `S ::= "a" | "a" "b"` accepts
`aab`, the parser of `S ::= "a" "b" | "a"` rejects it. -/
theorem C61_order_matters :
    ∃ tbl tbl' m m', fromGrammar id ⟨[rule b!"S" [[.terminal b!"a"], [.terminal b!"a", .terminal b!"b"]]]⟩ =
        .ok (tbl, m) ∧
      fromGrammar id ⟨[rule b!"S" [[.terminal b!"a", .terminal b!"b"], [.terminal b!"a"]]]⟩ = .ok (tbl', m') ∧
      (∃ t n, (Parser.mk tbl (some m)).Returns (.string b!"aab") (.ok t n)) ∧
      (∃ e, (Parser.mk tbl' (some m')).Returns (.string b!"aab") (.err e)) := by
  refine ⟨[(0, [(97, [.terminal b!"a", .terminal b!"a", .terminal b!"b"])])],
    [(0, [(97, [.terminal b!"a", .terminal b!"b", .terminal b!"a"])])], [(0, b!"S")], [(0, b!"S")],
    by decide +kernel, by decide +kernel, ⟨_, _, 40, rfl⟩, ⟨_, 40, rfl⟩⟩

end LL1
