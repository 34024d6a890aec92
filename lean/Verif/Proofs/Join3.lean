import Verif.Proofs.Join2

/-!
# When one grammar after another is LL(1)
-/

namespace LL1
namespace Join

variable {top : Str} {a b : Grammar}

abbrev pair (a b : Grammar) : List Sequence := [⟨[.nonTerminal a.startName, .nonTerminal b.startName]⟩]

theorem double {pre post : List Symbol} {n n' m : Str} (h : [Symbol.nonTerminal n, .nonTerminal n'] = pre ++ .nonTerminal m :: post) :
    (n = m ∧ post = [.nonTerminal n']) ∨ (n' = m ∧ post = []) := by
  cases pre with
  | nil => simp at h; exact .inl ⟨h.1, h.2.symm⟩
  | cons p pre =>
    simp at h
    exact .inr (single h.2)

/-- FOLLOW in the chain: the second part's own; the first part's own, and what begins the second after what can end the
first. -/
theorem follow_back_pair (h : Joinable top a b) {j : Nat} {c : UInt8} (hf : Follow (J top (pair a b) a b) j c) :
    (j = 0 → c = 0) ∧ (∀ i, i < a.rules.length → j = i + 1 → Follow a i c ∨ (Follow a i 0 ∧ RuleFirst b 0 c)) ∧
    (∀ i, i < b.rules.length → j = i + (1 + a.rules.length) → Follow b i c) := by
  have hl := left (alts := pair a b) h
  have hr := right (alts := pair a b) h
  have hpos := List.length_pos_iff.2 h.left
  induction hf with
  | start => exact ⟨fun _ => rfl, fun i _ he => by omega, fun i _ he => by omega⟩
  | @first j i s pre post name c hA he hre hfi =>
    rcases alt_cases h hA with ⟨rfl, hmem⟩ | ⟨q, rfl, ha⟩ | ⟨q, rfl, ha⟩
    · simp only [pair, List.mem_cons, List.not_mem_nil, or_false] at hmem
      subst hmem
      rcases double he with ⟨rfl, rfl⟩ | ⟨_, rfl⟩
      · have := hre.det (refers_of_distinct hl.distinct (hl.head (start_head h.left)))
        refine ⟨fun h0 => by omega, fun i hi hq => ?_, fun i hi hq => by omega⟩
        obtain rfl : i = 0 := by omega
        exact .inr ⟨.start, (first_start hr h.right).1 hfi⟩
      · cases hfi
    · have ho := hl.owns ha
      have ho' : a.Owns post := fun n hn => ho n (by rw [he]; simp [hn])
      obtain ⟨p, rfl, hp, hrp⟩ := hl.refers_back ho (by rw [he]; simp) hre
      refine ⟨fun h0 => by omega, fun i hi hq => ?_, fun i hi hq => by omega⟩
      obtain rfl : i = p := by omega
      exact .inl (.first ha he hrp (hl.first_back hfi ho'))
    · have ho := hr.owns ha
      have ho' : b.Owns post := fun n hn => ho n (by rw [he]; simp [hn])
      obtain ⟨p, rfl, hp, hrp⟩ := hr.refers_back ho (by rw [he]; simp) hre
      refine ⟨fun h0 => by omega, fun i hi hq => by omega, fun i hi hq => ?_⟩
      obtain rfl : i = p := by omega
      exact .first ha he hrp (hr.first_back hfi ho')
  | @last j i s pre post name c hA he hre hn _ ih =>
    rcases alt_cases h hA with ⟨rfl, hmem⟩ | ⟨q, rfl, ha⟩ | ⟨q, rfl, ha⟩
    · obtain rfl := ih.1 rfl
      simp only [pair, List.mem_cons, List.not_mem_nil, or_false] at hmem
      subst hmem
      rcases double he with ⟨rfl, rfl⟩ | ⟨rfl, rfl⟩
      · have := hre.det (refers_of_distinct hl.distinct (hl.head (start_head h.left)))
        refine ⟨fun h0 => by omega, fun i hi hq => ?_, fun i hi hq => by omega⟩
        obtain rfl : i = 0 := by omega
        exact .inl .start
      · have := hre.det (refers_of_distinct hr.distinct (hr.head (start_head h.right)))
        refine ⟨fun h0 => by omega, fun i hi hq => by omega, fun i hi hq => ?_⟩
        obtain rfl : i = 0 := by omega
        exact .start
    · have ho := hl.owns ha
      have ho' : a.Owns post := fun n hn => ho n (by rw [he]; simp [hn])
      obtain ⟨p, rfl, hp, hrp⟩ := hl.refers_back ho (by rw [he]; simp) hre
      refine ⟨fun h0 => by omega, fun i hi hq => ?_, fun i hi hq => by omega⟩
      obtain rfl : i = p := by omega
      have hn' := hl.nullable_back hn ho'
      rcases ih.2.1 q (RulesFrom.lt_of_alt ha) rfl with h1 | ⟨h1, h2⟩
      · exact .inl (.last ha he hrp hn' h1)
      · exact .inr ⟨.last ha he hrp hn' h1, h2⟩
    · have ho := hr.owns ha
      have ho' : b.Owns post := fun n hn => ho n (by rw [he]; simp [hn])
      obtain ⟨p, rfl, hp, hrp⟩ := hr.refers_back ho (by rw [he]; simp) hre
      refine ⟨fun h0 => by omega, fun i hi hq => by omega, fun i hi hq => ?_⟩
      obtain rfl : i = p := by omega
      exact .last ha he hrp (hr.nullable_back hn ho') (ih.2.2 q (RulesFrom.lt_of_alt ha) rfl)

theorem follow_pair_right (h : Joinable top a b) : Follow (J top (pair a b) a b) (1 + a.rules.length) 0 := by
  have hr := right (alts := pair a b) h
  have := refers_of_distinct hr.distinct (hr.head (start_head h.right))
  simp only [Nat.zero_add] at this
  exact .last (j := 0) (alt := ⟨[.nonTerminal a.startName, .nonTerminal b.startName]⟩) (pre := [.nonTerminal a.startName])
    (post := []) (alt_zero.2 (by simp)) rfl this .nil .start

theorem follow_pair_left (h : Joinable top a b) {i : Nat} {c : UInt8} (hf : Follow a i c) (hc : c ≠ 0) :
    Follow (J top (pair a b) a b) (i + 1) c := by
  have hl := left (alts := pair a b) h
  induction hf with
  | start => exact (hc rfl).elim
  | first ha he hr hf => exact .first (hl.alt ha) he (hl.refers hr) (hl.first hf)
  | last ha he hr hn _ ih => exact .last (hl.alt ha) he (hl.refers hr) (hl.nullable hn) (ih hc)

theorem follow_pair_end (h : Joinable top a b) (hza : a.NulStartFree) {c : UInt8} (hb : RuleFirst b 0 c) {i : Nat} {z : UInt8}
    (hf : Follow a i z) (hz : z = 0) : Follow (J top (pair a b) a b) (i + 1) c := by
  have hl := left (alts := pair a b) h
  have hr := right (alts := pair a b) h
  induction hf with
  | start =>
    have := refers_of_distinct hl.distinct (hl.head (start_head h.left))
    exact .first (j := 0) (alt := ⟨[.nonTerminal a.startName, .nonTerminal b.startName]⟩) (pre := [])
      (post := [.nonTerminal b.startName]) (alt_zero.2 (by simp)) rfl this ((first_start hr h.right).2 hb)
  | first ha he hr hf =>
    subst hz
    exact (Restart.first_ne_zero hza hf (fun t ht => hza _ _ t ha (by rw [he]; simp [ht])) rfl).elim
  | last ha he hr hn _ ih => exact .last (hl.alt ha) he (hl.refers hr) (hl.nullable hn) (ih hz)

theorem ll1_pair_iff (h : Joinable top a b) (hza : a.NulStartFree) (hzb : b.NulStartFree) :
    IsLL1 (J top (pair a b) a b) ↔ IsLL1 a ∧ IsLL1 b ∧
      ∀ i c, RuleNullable a i → RuleFirst a i c → Follow a i 0 → ¬ RuleFirst b 0 c := by
  have hl := left (alts := pair a b) h
  have hr := right (alts := pair a b) h
  have hz := nulStartFree (alts := pair a b) h (by simp [pair]) hza hzb
  constructor
  · rintro ⟨h1, h2, h3⟩
    refine ⟨⟨?_, ?_, ?_⟩, ⟨?_, ?_, ?_⟩, ?_⟩
    · intro i r k l x y c hri
      exact (hl.firstDisjoint_row (List.getElem?_eq_some_iff.1 hri).1).1 (h1 (i + 1)) r k l x y c hri
    · intro i r k l x y hri
      exact (hl.oneNullable_row (List.getElem?_eq_some_iff.1 hri).1).1 (h2 (i + 1)) r k l x y hri
    · intro i c hn hf hfo
      have hi : i < a.rules.length := by obtain ⟨x, hx, _⟩ := hn; exact RulesFrom.lt_of_alt hx
      have hc : c ≠ 0 := by
        obtain ⟨x, hx, hf⟩ := hf
        exact Restart.first_ne_zero hza hf (fun t ht => hza i x t hx ht)
      exact h3 (i + 1) c ((hl.ruleNullable hi).2 hn) ((hl.ruleFirst hi).2 hf) (follow_pair_left h hfo hc)
    · intro i r k l x y c hri
      exact (hr.firstDisjoint_row (List.getElem?_eq_some_iff.1 hri).1).1 (h1 _) r k l x y c hri
    · intro i r k l x y hri
      exact (hr.oneNullable_row (List.getElem?_eq_some_iff.1 hri).1).1 (h2 _) r k l x y hri
    · intro i c hn hf hfo
      have hi : i < b.rules.length := by obtain ⟨x, hx, _⟩ := hn; exact RulesFrom.lt_of_alt hx
      exact h3 _ c ((hr.ruleNullable hi).2 hn) ((hr.ruleFirst hi).2 hf) (hr.follow (follow_pair_right h) hfo)
    · intro i c hn hf hfo hb
      have hi : i < a.rules.length := by obtain ⟨x, hx, _⟩ := hn; exact RulesFrom.lt_of_alt hx
      exact h3 (i + 1) c ((hl.ruleNullable hi).2 hn) ((hl.ruleFirst hi).2 hf) (follow_pair_end h hza hb hfo rfl)
  · rintro ⟨⟨a1, a2, a3⟩, ⟨b1, b2, b3⟩, hdis⟩
    have one_of : ∀ {k : Nat} {x : Sequence}, (pair a b)[k]? = some x → k = 0 := by
      intro k x hk
      match k with
      | 0 => rfl
      | k + 1 => simp [pair] at hk
    refine ⟨?_, ?_, ?_⟩
    · intro i
      show FDRow _ i
      intro r k l x y c hri
      rcases cases_row (List.getElem?_eq_some_iff.1 hri).1 with rfl | ⟨q, hq, rfl⟩ | ⟨q, hq, rfl⟩
      · cases hri
        intro hk hm _ _
        rw [one_of hk, one_of hm]
      · exact (hl.firstDisjoint_row hq).2 (a1 q) r k l x y c hri
      · exact (hr.firstDisjoint_row hq).2 (b1 q) r k l x y c hri
    · intro i
      show ONRow _ i
      intro r k l x y hri
      rcases cases_row (List.getElem?_eq_some_iff.1 hri).1 with rfl | ⟨q, hq, rfl⟩ | ⟨q, hq, rfl⟩
      · cases hri
        intro hk hm _ _
        rw [one_of hk, one_of hm]
      · exact (hl.oneNullable_row hq).2 (a2 q) r k l x y hri
      · exact (hr.oneNullable_row hq).2 (b2 q) r k l x y hri
    · intro i c hn hf hfo
      have hb := follow_back_pair h hfo
      have hi : i < (J top (pair a b) a b).rules.length := by obtain ⟨x, hx, _⟩ := hn; exact RulesFrom.lt_of_alt hx
      rcases cases_row hi with rfl | ⟨q, hq, rfl⟩ | ⟨q, hq, rfl⟩
      · obtain rfl := hb.1 rfl
        obtain ⟨x, hx, hf⟩ := hf
        exact Restart.first_ne_zero hz hf (fun t ht => hz 0 x t hx ht) rfl
      · have hn' := (hl.ruleNullable hq).1 hn
        have hf' := (hl.ruleFirst hq).1 hf
        rcases hb.2.1 q hq rfl with h1 | ⟨h1, h2⟩
        · exact a3 q c hn' hf' h1
        · exact hdis q c hn' hf' h1 h2
      · exact b3 q c ((hr.ruleNullable hq).1 hn) ((hr.ruleFirst hq).1 hf) (hb.2.2 q hq rfl)

end Join
end LL1
