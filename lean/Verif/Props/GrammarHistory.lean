import Verif.Proofs.GrammarHistory

/-!
# C105: `SelfGrammar` gives a new grammar with every call; grammars of a program behave as values
-/

namespace LL1
namespace FC
open Mem AstMem

theorem sepSeqs {m : AstMem} {base : Nat} : ∀ (qs : List SliceRef), (∀ q ∈ qs, m.syms.Fits base q) → (qs.flatMap own).Nodup →
    ∃ F, SepList SeqAt m qs F (qs.map m.sequence) ∧ ∀ a, F a ↔ ∃ n, a = .sym n ∧ n ∈ qs.flatMap own
  | [], _, _ => ⟨_, .nil, fun a => by simp⟩
  | q :: qs, hf, hn => by
    rw [List.flatMap_cons, List.nodup_append] at hn
    obtain ⟨F, h1, h2⟩ := sepSeqs qs (fun q hq => hf q (List.mem_cons_of_mem _ hq)) hn.2.1
    refine ⟨_, .cons (F := fun a => ∃ n, a = .sym n ∧ n ∈ own q)
      ⟨(hf q List.mem_cons_self).weaken (Nat.zero_le _), rfl, fun _ => .rfl⟩ h1 ?_, fun a => ?_⟩
    · rintro a ⟨n, rfl, ha⟩ hb
      obtain ⟨n', e, hb⟩ := (h2 _).1 hb
      cases e
      exact hn.2.2 n ha n hb rfl
    · rw [h2 a, List.flatMap_cons]
      constructor
      · rintro (⟨n, h, hm⟩ | ⟨n, h, hm⟩)
        · exact ⟨n, h, List.mem_append_left _ hm⟩
        · exact ⟨n, h, List.mem_append_right _ hm⟩
      · rintro ⟨n, h, hm⟩
        rcases List.mem_append.1 hm with hm | hm
        · exact .inl ⟨n, h, hm⟩
        · exact .inr ⟨n, h, hm⟩

theorem sepRules {m m0 : AstMem} : ∀ (rs : List HRule), (∀ r ∈ rs, TailInv m0 m r.tail) →
    (rs.flatMap fun r => own r.tail).Nodup → (rs.flatMap fun r => (m.seqs.read r.tail).flatMap own).Nodup →
    ∃ F, SepList RuleAt m rs F (rs.map m.rule) ∧ ∀ a, F a ↔ (∃ n, a = .seq n ∧ n ∈ rs.flatMap fun r => own r.tail) ∨
      ∃ n, a = .sym n ∧ n ∈ rs.flatMap fun r => (m.seqs.read r.tail).flatMap own
  | [], _, _, _ => ⟨_, .nil, fun a => by simp⟩
  | r :: rs, ht, hn, hn' => by
    rw [List.flatMap_cons, List.nodup_append] at hn hn'
    obtain ⟨F, h1, h2⟩ := sepRules rs (fun q hq => ht q (List.mem_cons_of_mem _ hq)) hn.2.1 hn'.2.1
    have hr := ht r List.mem_cons_self
    obtain ⟨Fr, k1, k2⟩ := sepSeqs (m.seqs.read r.tail) hr.seqs hr.nodup
    refine ⟨_, .cons (F := fun a => (∃ n, a = .seq n ∧ n ∈ own r.tail) ∨ Fr a)
      ⟨rfl, hr.fits.weaken (Nat.zero_le _), Fr, k1, fun _ => .rfl⟩ h1 ?_, fun a => ?_⟩
    · intro a ha hb
      rcases ha with ⟨n, rfl, ha⟩ | ha
      · rcases (h2 _).1 hb with ⟨n', e, hb⟩ | ⟨n', e, hb⟩
        · cases e; exact hn.2.2 n ha n hb rfl
        · cases e
      · obtain ⟨n, rfl, ha'⟩ := (k2 _).1 ha
        rcases (h2 _).1 hb with ⟨n', e, hb⟩ | ⟨n', e, hb⟩
        · cases e
        · cases e; exact hn'.2.2 n ha' n hb rfl
    · rw [h2 a, k2 a]
      simp only [List.flatMap_cons, List.mem_append, and_or_left, exists_or]
      exact or_or_or_comm

/-- The grammars that `ToAST` returns own their arrays. -/
theorem gramAt_of_inv {m0 m : AstMem} {s : SliceRef} (h : GrammarInv m0 m s) :
    ∃ F, GramAt m s F (m.grammar s) ∧ ∀ a, F a → ¬ m0.Alloc a := by
  obtain ⟨F, h1, h2⟩ := sepRules (m := m) (m0 := m0) (m.rules.read s) (fun r hr => h.tail hr) h.nodupSeqs h.nodupSyms
  refine ⟨fun a => (∃ n, a = .rule n ∧ n ∈ own s) ∨ F a, ⟨h.fits.weaken (Nat.zero_le _), F, h1, fun _ => .rfl⟩, ?_⟩
  rintro a (⟨n, rfl, hn⟩ | ha)
  · have := (fits_own h.fits hn).1; simp only [AstMem.Alloc]; omega
  · rcases (h2 a).1 ha with ⟨n, rfl, hn⟩ | ⟨n, rfl, hn⟩
    · obtain ⟨r, hr, hn⟩ := List.mem_flatMap.1 hn
      have := (fits_own (h.tails r hr) hn).1; simp only [AstMem.Alloc]; omega
    · obtain ⟨r, hr, hn⟩ := List.mem_flatMap.1 hn
      obtain ⟨q, hq, hn⟩ := List.mem_flatMap.1 hn
      have := (fits_own (h.seqs r hr q hq) hn).1; simp only [AstMem.Alloc]; omega

theorem AstMem.Grows.step {m m' : AstMem} (h : m.Grows m') {F : Addr → Prop} (hf : ∀ a, F a → ¬ m.Alloc a) : Step m m' NoAddr F where
  alloc a ha := by
    cases a with
    | sym a => exact Nat.lt_of_lt_of_le ha h.syms.next
    | seq a => exact Nat.lt_of_lt_of_le ha h.seqs.next
    | rule a => exact Nat.lt_of_lt_of_le ha h.rules.next
  same a ha _ := by
    cases a with
    | sym a => exact h.syms.same a ha
    | seq a => exact h.seqs.same a ha
    | rule a => exact h.rules.same a ha
  fresh a ha := .inr (hf a ha)

/-- One deed. -/
theorem Deed.sound {grow : Nat → Nat → Nat} (hg : Roomy grow) (d : Deed) {w : AstMem × List SliceRef} {gs : List Grammar}
    (h : ∃ F, SepList GramAt w.1 w.2 F gs) :
    ∃ F, SepList GramAt (d.onMemory grow w).1 (d.onMemory grow w).2 F (d.onValues gs) := by
  obtain ⟨F, h⟩ := h
  have hlit : ∀ g : Grammar, ∃ F', SepList GramAt (w.1.grammarLit g).1 (w.2 ++ [(w.1.grammarLit g).2]) F' (gs ++ [g]) := by
    intro g
    obtain ⟨Fg, k1, k2⟩ := grammarLit_spec w.1 g
    obtain ⟨k3, k4⟩ := h.frameStep gramAt_framed k1 fun _ _ h => h
    obtain ⟨F', k5, _⟩ := k3.snoc k2 k4
    exact ⟨F', k5⟩
  cases d with
  | self => exact hlit selfGrammar
  | write g => exact hlit g
  | toAST b root str =>
    have hr := toAST_rel hg b root str w.1
    unfold Deed.onMemory Deed.onValues
    dsimp only
    generalize b.toASTH grow root str w.1 = x at hr ⊢
    generalize b.toAST root str = v at hr ⊢
    obtain ⟨m, r⟩ := x
    obtain ⟨h1, h2⟩ := hr
    dsimp only at h1 h2
    have hfail : ∃ F, SepList GramAt m w.2 F gs := ⟨F, (h.frameStep gramAt_framed (h1.step (F := NoAddr) fun _ h => h.elim) fun _ _ h => h).1⟩
    cases h2 with
    | ok h2 =>
      obtain ⟨Fg, k1, k2⟩ := gramAt_of_inv h2.1
      obtain ⟨k3, k4⟩ := h.frameStep gramAt_framed (h1.step k2) fun _ _ h => h
      rw [h2.2] at k1
      obtain ⟨F', k5, _⟩ := k3.snoc k1 k4
      exact ⟨F', k5⟩
    | err => exact hfail
    | panic => exact hfail
    | diverge => exact hfail
  | edit k e =>
    unfold Deed.onValues
    cases hk : w.2[k]? with
    | none =>
      have he : Deed.onMemory grow w (.edit k e) = w := by simp only [Deed.onMemory, hk]
      rw [he]
      dsimp only
      rw [List.modify_eq_self (by simpa using h.get_none hk)]
      exact ⟨F, h⟩
    | some s =>
      have he : Deed.onMemory grow w (.edit k e) = ((e.onMemory grow w.1 s).1, w.2.set k (e.onMemory grow w.1 s).2) := by
        simp only [Deed.onMemory, hk]
      rw [he]
      obtain ⟨Fi, v, k1, k2, _, k4⟩ := h.get gramAt_framed hk
      obtain ⟨Fi', l1, l2⟩ := e.sound hg k2
      obtain ⟨F', n1, _⟩ := k4 _ _ _ _ l1 l2
      dsimp only
      rw [modify_of_get _ k1]
      exact ⟨F', n1⟩

end FC

open FC Mem

/-- **C105.** Whatever is in memory, and so whatever the program has done to grammars it got before, `SelfGrammar()` returns the
same grammar — `selfGrammar` — and writes to no array that was there before. -/
theorem C105_self_grammar (m : AstMem) :
    (selfGrammarH m).1.grammar (selfGrammarH m).2 = selfGrammar ∧
    (∀ a, a < m.syms.next → (selfGrammarH m).1.syms.arrays a = m.syms.arrays a) ∧
    (∀ a, a < m.seqs.next → (selfGrammarH m).1.seqs.arrays a = m.seqs.arrays a) ∧
    (∀ a, a < m.rules.next → (selfGrammarH m).1.rules.arrays a = m.rules.arrays a) := by
  obtain ⟨F, h1, h2⟩ := grammarLit_spec m selfGrammar
  exact ⟨gramAt_grammar h2, fun a ha => h1.same (.sym a) ha fun h => h, fun a ha => h1.same (.seq a) ha fun h => h,
    fun a ha => h1.same (.rule a) ha fun h => h⟩

/-- **C105.** Grammars behave as values: a program that gets grammars from `SelfGrammar`, from `ToAST` and from literals and edits
them in place — symbols, alternatives, rules, whole tails; assigned, appended, cut off; in any order, with any capacities the
runtime chooses — sees exactly what it would see if every grammar were a value of its own.  So an edit of one grammar shows
only there, in the place edited, and in no grammar obtained before or after. -/
theorem C105_values (grow : Nat → Nat → Nat) (hg : Roomy grow) (m : AstMem) (deeds : List Deed) :
    (deeds.foldl (Deed.onMemory grow) (m, [])).2.map (deeds.foldl (Deed.onMemory grow) (m, [])).1.grammar =
      deeds.foldl Deed.onValues [] := by
  suffices H : ∀ (w : AstMem × List SliceRef) (gs : List Grammar), (∃ F, SepList GramAt w.1 w.2 F gs) →
      ∃ F, SepList GramAt (deeds.foldl (Deed.onMemory grow) w).1 (deeds.foldl (Deed.onMemory grow) w).2 F (deeds.foldl Deed.onValues gs) by
    obtain ⟨F, h⟩ := H (m, []) [] ⟨_, .nil⟩
    exact h.map_eq fun r F v hr => gramAt_grammar hr
  induction deeds with
  | nil => exact fun w gs h => h
  | cons d deeds ih => exact fun w gs h => ih _ _ (d.sound hg h)

/-- **C105.** In particular: after any such program another call of `SelfGrammar()` gives `selfGrammar`, and leaves all grammars
the program has as they are. -/
theorem C105_call_again (grow : Nat → Nat → Nat) (hg : Roomy grow) (m : AstMem) (deeds : List Deed) :
    ((deeds ++ [Deed.self]).foldl (Deed.onMemory grow) (m, [])).2.map ((deeds ++ [Deed.self]).foldl (Deed.onMemory grow) (m, [])).1.grammar =
      (deeds.foldl (Deed.onMemory grow) (m, [])).2.map (deeds.foldl (Deed.onMemory grow) (m, [])).1.grammar ++ [selfGrammar] := by
  rw [C105_values grow hg, C105_values grow hg, List.foldl_append]
  rfl

end LL1
