import Verif.Proofs.Join
import Verif.Proofs.Restart

/-!
# Two grammars under a new first rule
-/

namespace LL1
namespace Join

/-- A new first rule, then the rules of two grammars. -/
def J (top : Str) (alts : List Sequence) (a b : Grammar) : Grammar := ⟨⟨top, ⟨alts⟩⟩ :: (a.rules ++ b.rules)⟩

variable {top : Str} {alts : List Sequence} {a b : Grammar}

theorem row (j : Nat) : (J top alts a b).rules[j]? =
    if j = 0 then some ⟨top, ⟨alts⟩⟩ else if j < 1 + a.rules.length then a.rules[j - 1]? else b.rules[j - (1 + a.rules.length)]? := by
  cases j with
  | zero => rfl
  | succ j =>
    simp only [J, List.getElem?_cons_succ, Nat.add_one_ne_zero, if_false, Nat.add_sub_cancel]
    split
    · rw [List.getElem?_append_left (by omega)]
    · rw [List.getElem?_append_right (by omega)]
      congr 1; omega

theorem distinct (h : Joinable top a b) : DistinctHeads (J top alts a b) := by
  apply distinctHeads_of
  simpa [J] using h.heads

theorem left (h : Joinable top a b) : RulesFrom 1 a (J top alts a b) where
  rule i hi := by rw [row, if_neg (by omega), if_pos (by omega), Nat.add_sub_cancel]
  distinct := distinct h
  defined := h.leftDefined

theorem right (h : Joinable top a b) : RulesFrom (1 + a.rules.length) b (J top alts a b) where
  rule i hi := by rw [row, if_neg (by omega), if_neg (by omega), Nat.add_sub_cancel]
  distinct := distinct h
  defined := h.rightDefined

theorem cases_row {j : Nat} (hj : j < (J top alts a b).rules.length) :
    j = 0 ∨ (∃ i, i < a.rules.length ∧ j = i + 1) ∨ ∃ i, i < b.rules.length ∧ j = i + (1 + a.rules.length) := by
  simp only [J, List.length_cons, List.length_append] at hj
  rcases Nat.lt_trichotomy j 0 with h | h | h
  · omega
  · exact .inl h
  · by_cases h2 : j < 1 + a.rules.length
    · exact .inr (.inl ⟨j - 1, by omega, by omega⟩)
    · exact .inr (.inr ⟨j - (1 + a.rules.length), by omega, by omega⟩)

theorem alt_zero {s : Sequence} : (J top alts a b).Alt 0 s ↔ s ∈ alts := by
  constructor
  · rintro ⟨r, hr, hm⟩
    cases hr
    exact hm
  · intro hm
    exact ⟨_, rfl, hm⟩

theorem start_head {g : Grammar} (h : g.rules ≠ []) : g.Head 0 g.startName := by
  obtain ⟨rs⟩ := g
  cases rs with
  | nil => exact (h rfl).elim
  | cons r rs => exact ⟨r, rfl, rfl⟩

/-- An alternative of the joined grammar is of the new rule or of one of the grammars. -/
theorem alt_cases (h : Joinable top a b) {j : Nat} {s : Sequence} (ha : (J top alts a b).Alt j s) :
    (j = 0 ∧ s ∈ alts) ∨ (∃ i, j = i + 1 ∧ a.Alt i s) ∨ ∃ i, j = i + (1 + a.rules.length) ∧ b.Alt i s := by
  rcases cases_row (RulesFrom.lt_of_alt ha) with rfl | ⟨i, hi, rfl⟩ | ⟨i, hi, rfl⟩
  · exact .inl ⟨rfl, alt_zero.1 ha⟩
  · exact .inr (.inl ⟨i, rfl, (left h).alt_back hi ha⟩)
  · exact .inr (.inr ⟨i, rfl, (right h).alt_back hi ha⟩)

section
variable {k : Nat} {g big : Grammar}

theorem gen_start (h : RulesFrom k g big) (hg : g.rules ≠ []) {rest : List Symbol} {w : Str} :
    Gen big (.nonTerminal g.startName :: rest) w ↔ ∃ u v, w = u ++ v ∧ Sentence g u ∧ Gen big rest v := by
  have hlen : 0 < g.rules.length := List.length_pos_iff.2 hg
  have hr0 : big.Refers g.startName (0 + k) := refers_of_distinct h.distinct (h.head (start_head hg))
  constructor
  · intro hG
    cases hG with
    | @nonTerminal _ i alt _ u w hr ha h1 h2 =>
      cases hr.det hr0
      exact ⟨u, w, rfl, (h.genRule hlen).1 ⟨alt, ha, h1⟩, h2⟩
  · rintro ⟨u, v, rfl, hs, hv⟩
    obtain ⟨alt, ha, h1⟩ := (h.genRule hlen).2 hs
    exact .nonTerminal hr0 ha h1 hv

theorem nullable_start (h : RulesFrom k g big) (hg : g.rules ≠ []) : Nullable big [.nonTerminal g.startName] ↔ RuleNullable g 0 := by
  have hlen : 0 < g.rules.length := List.length_pos_iff.2 hg
  have hr0 : big.Refers g.startName (0 + k) := refers_of_distinct h.distinct (h.head (start_head hg))
  rw [← h.ruleNullable hlen]
  constructor
  · intro hG
    cases hG with
    | @nonTerminal _ i alt _ hr ha h1 h2 =>
      cases hr.det hr0
      exact ⟨alt, ha, h1⟩
  · rintro ⟨alt, ha, h1⟩
    exact .nonTerminal hr0 ha h1 .nil

theorem first_start (h : RulesFrom k g big) (hg : g.rules ≠ []) {c : UInt8} :
    First big [.nonTerminal g.startName] c ↔ RuleFirst g 0 c := by
  have hlen : 0 < g.rules.length := List.length_pos_iff.2 hg
  have hr0 : big.Refers g.startName (0 + k) := refers_of_distinct h.distinct (h.head (start_head hg))
  rw [← h.ruleFirst hlen]
  constructor
  · intro hG
    cases hG with
    | @head _ i alt _ _ hr ha h1 =>
      cases hr.det hr0
      exact ⟨alt, ha, h1⟩
    | skip _ h2 => cases h2
  · rintro ⟨alt, ha, h1⟩
    exact .head hr0 ha h1

end

/-- What the joined grammar inherits from its parts. -/
theorem nulFree (h : Joinable top a b) (ht : ∀ s ∈ alts, ∀ t, Symbol.terminal t ∉ s.symbols) (hza : a.NulFree) (hzb : b.NulFree) :
    (J top alts a b).NulFree := by
  intro j s t hs hm
  rcases alt_cases h hs with ⟨rfl, hmem⟩ | ⟨i, rfl, ha⟩ | ⟨i, rfl, ha⟩
  · exact (ht s hmem t hm).elim
  · exact hza i s t ha hm
  · exact hzb i s t ha hm

theorem nulStartFree (h : Joinable top a b) (ht : ∀ s ∈ alts, ∀ t, Symbol.terminal t ∉ s.symbols) (hza : a.NulStartFree)
    (hzb : b.NulStartFree) : (J top alts a b).NulStartFree := by
  intro j s t hs hm
  rcases alt_cases h hs with ⟨rfl, hmem⟩ | ⟨i, rfl, ha⟩ | ⟨i, rfl, ha⟩
  · exact (ht s hmem t hm).elim
  · exact hza i s t ha hm
  · exact hzb i s t ha hm

theorem noGap (h : Joinable top a b) (hl : ∀ s ∈ alts, s.symbols.length ≤ 2) (hga : NoNullableGap a) (hgb : NoNullableGap b) :
    NoNullableGap (J top alts a b) := by
  intro j s pre name next post hs he hn
  rcases alt_cases h hs with ⟨rfl, hmem⟩ | ⟨i, rfl, ha⟩ | ⟨i, rfl, ha⟩
  · have := hl s hmem
    rw [he] at this
    simp at this
    exact List.length_eq_zero_iff.1 (by omega)
  · refine hga i s pre name next post ha he ((left h).nullable_back hn ?_)
    have := (left (alts := alts) h).owns ha
    intro m hm
    exact this m (by rw [he]; simp at hm; simp [hm])
  · refine hgb i s pre name next post ha he ((right h).nullable_back hn ?_)
    have := (right (alts := alts) h).owns ha
    intro m hm
    exact this m (by rw [he]; simp at hm; simp [hm])

theorem wellFormed (h : Joinable top a b) (ht : ∀ s ∈ alts, s.symbols ≠ [] ∧ ∀ y ∈ s.symbols,
      y = .nonTerminal a.startName ∨ y = .nonTerminal b.startName) (hwa : a.WellFormed) (hwb : b.WellFormed) :
    (J top alts a b).WellFormed := by
  constructor
  · simp [J]
  · intro j s t hs hm
    rcases alt_cases h hs with ⟨rfl, hmem⟩ | ⟨i, rfl, ha⟩ | ⟨i, rfl, ha⟩
    · rcases (ht s hmem).2 _ hm with h | h <;> cases h
    · exact hwa.term i s t ha hm
    · exact hwb.term i s t ha hm
  · intro j s hs hm
    rcases alt_cases h hs with ⟨rfl, hmem⟩ | ⟨i, rfl, ha⟩ | ⟨i, rfl, ha⟩
    · rcases (ht s hmem).2 _ hm with h | h <;> cases h
    · exact hwa.nothing i s ha hm
    · exact hwb.nothing i s ha hm
  · intro j s hs
    rcases alt_cases h hs with ⟨rfl, hmem⟩ | ⟨i, rfl, ha⟩ | ⟨i, rfl, ha⟩
    · exact (ht s hmem).1
    · exact hwa.alts i s ha
    · exact hwb.alts i s ha
  · intro j s name hs hm
    rcases alt_cases h hs with ⟨rfl, hmem⟩ | ⟨i, rfl, ha⟩ | ⟨i, rfl, ha⟩
    · rcases (ht s hmem).2 _ hm with h2 | h2 <;> cases h2
      · exact ⟨_, (left h).head (start_head h.left)⟩
      · exact ⟨_, (right h).head (start_head h.right)⟩
    · obtain ⟨q, hq⟩ := hwa.defined i s name ha hm
      exact ⟨_, (left h).head hq⟩
    · obtain ⟨q, hq⟩ := hwb.defined i s name ha hm
      exact ⟨_, (right h).head hq⟩

/-! ## The choice -/

abbrev two (a b : Grammar) : List Sequence := [⟨[.nonTerminal a.startName]⟩, ⟨[.nonTerminal b.startName]⟩]

theorem single {pre post : List Symbol} {n m : Str} (h : [Symbol.nonTerminal n] = pre ++ .nonTerminal m :: post) :
    n = m ∧ post = [] := by
  cases pre with
  | nil => simpa [eq_comm] using h
  | cons p pre => simp at h

/-- FOLLOW in the joined grammar is FOLLOW in the parts. -/
theorem follow_back (h : Joinable top a b) {j : Nat} {c : UInt8} (hf : Follow (J top (two a b) a b) j c) :
    (j = 0 → c = 0) ∧ (∀ i, i < a.rules.length → j = i + 1 → Follow a i c) ∧
    (∀ i, i < b.rules.length → j = i + (1 + a.rules.length) → Follow b i c) := by
  have hl := left (alts := two a b) h
  have hr := right (alts := two a b) h
  induction hf with
  | start => exact ⟨fun _ => rfl, fun i _ he => by omega, fun i _ he => by omega⟩
  | @first j i s pre post name c hA he hre hfi =>
    rcases alt_cases h hA with ⟨rfl, hmem⟩ | ⟨q, rfl, ha⟩ | ⟨q, rfl, ha⟩
    · simp only [two, List.mem_cons, List.not_mem_nil, or_false] at hmem
      rcases hmem with rfl | rfl <;> (obtain ⟨_, rfl⟩ := single he; cases hfi)
    · have ho := hl.owns ha
      have ho' : a.Owns post := fun n hn => ho n (by rw [he]; simp [hn])
      obtain ⟨p, rfl, hp, hrp⟩ := hl.refers_back ho (by rw [he]; simp) hre
      refine ⟨fun h0 => by omega, fun i hi hq => ?_, fun i hi hq => by omega⟩
      obtain rfl : i = p := by omega
      exact .first ha he hrp (hl.first_back hfi ho')
    · have ho := hr.owns ha
      have ho' : b.Owns post := fun n hn => ho n (by rw [he]; simp [hn])
      obtain ⟨p, rfl, hp, hrp⟩ := hr.refers_back ho (by rw [he]; simp) hre
      refine ⟨fun h0 => by omega, fun i hi hq => by omega, fun i hi hq => ?_⟩
      obtain rfl : i = p := by omega
      exact .first ha he hrp (hr.first_back hfi ho')
  | @last j i s pre post name c hA he hre hn _ ih =>
    rcases alt_cases h hA with ⟨rfl, hmem⟩ | ⟨q, rfl, ha⟩ | ⟨q, rfl, ha⟩
    · obtain rfl := ih.1 rfl
      simp only [two, List.mem_cons, List.not_mem_nil, or_false] at hmem
      rcases hmem with rfl | rfl
      · obtain ⟨rfl, rfl⟩ := single he
        have := hre.det (refers_of_distinct hl.distinct (hl.head (start_head h.left)))
        refine ⟨fun h0 => by omega, fun i hi hq => ?_, fun i hi hq => ?_⟩
        · obtain rfl : i = 0 := by omega
          exact .start
        · have := List.length_pos_iff.2 h.left
          omega
      · obtain ⟨rfl, rfl⟩ := single he
        have := hre.det (refers_of_distinct hr.distinct (hr.head (start_head h.right)))
        refine ⟨fun h0 => by omega, fun i hi hq => by omega, fun i hi hq => ?_⟩
        obtain rfl : i = 0 := by omega
        exact .start
    · have ho := hl.owns ha
      have ho' : a.Owns post := fun n hn => ho n (by rw [he]; simp [hn])
      obtain ⟨p, rfl, hp, hrp⟩ := hl.refers_back ho (by rw [he]; simp) hre
      refine ⟨fun h0 => by omega, fun i hi hq => ?_, fun i hi hq => by omega⟩
      obtain rfl : i = p := by omega
      exact .last ha he hrp (hl.nullable_back hn ho') (ih.2.1 q (RulesFrom.lt_of_alt ha) rfl)
    · have ho := hr.owns ha
      have ho' : b.Owns post := fun n hn => ho n (by rw [he]; simp [hn])
      obtain ⟨p, rfl, hp, hrp⟩ := hr.refers_back ho (by rw [he]; simp) hre
      refine ⟨fun h0 => by omega, fun i hi hq => by omega, fun i hi hq => ?_⟩
      obtain rfl : i = p := by omega
      exact .last ha he hrp (hr.nullable_back hn ho') (ih.2.2 q (RulesFrom.lt_of_alt ha) rfl)

theorem follow_left (h : Joinable top a b) : Follow (J top (two a b) a b) 1 0 := by
  have hl := left (alts := two a b) h
  have := refers_of_distinct hl.distinct (hl.head (start_head h.left))
  simp only [Nat.zero_add] at this
  exact .last (j := 0) (alt := ⟨[.nonTerminal a.startName]⟩) (pre := []) (post := []) (alt_zero.2 (by simp)) rfl this .nil .start

theorem follow_right (h : Joinable top a b) : Follow (J top (two a b) a b) (1 + a.rules.length) 0 := by
  have hr := right (alts := two a b) h
  have := refers_of_distinct hr.distinct (hr.head (start_head h.right))
  simp only [Nat.zero_add] at this
  exact .last (j := 0) (alt := ⟨[.nonTerminal b.startName]⟩) (pre := []) (post := []) (alt_zero.2 (by simp)) rfl this .nil .start

theorem ll1_iff (h : Joinable top a b) (hza : a.NulStartFree) (hzb : b.NulStartFree) :
    IsLL1 (J top (two a b) a b) ↔ IsLL1 a ∧ IsLL1 b ∧ (∀ c, RuleFirst a 0 c → ¬ RuleFirst b 0 c) ∧
      ¬ (RuleNullable a 0 ∧ RuleNullable b 0) := by
  have hl := left (alts := two a b) h
  have hr := right (alts := two a b) h
  have hz := nulStartFree (alts := two a b) h (by simp [two]) hza hzb
  constructor
  · rintro ⟨h1, h2, h3⟩
    refine ⟨⟨?_, ?_, ?_⟩, ⟨?_, ?_, ?_⟩, ?_, ?_⟩
    · intro i r k l x y c hri
      exact (hl.firstDisjoint_row (List.getElem?_eq_some_iff.1 hri).1).1 (h1 (i + 1)) r k l x y c hri
    · intro i r k l x y hri
      exact (hl.oneNullable_row (List.getElem?_eq_some_iff.1 hri).1).1 (h2 (i + 1)) r k l x y hri
    · intro i c hn hf hfo
      have hi : i < a.rules.length := by obtain ⟨x, hx, _⟩ := hn; exact RulesFrom.lt_of_alt hx
      exact h3 (i + 1) c ((hl.ruleNullable hi).2 hn) ((hl.ruleFirst hi).2 hf) (hl.follow (follow_left h) hfo)
    · intro i r k l x y c hri
      exact (hr.firstDisjoint_row (List.getElem?_eq_some_iff.1 hri).1).1 (h1 _) r k l x y c hri
    · intro i r k l x y hri
      exact (hr.oneNullable_row (List.getElem?_eq_some_iff.1 hri).1).1 (h2 _) r k l x y hri
    · intro i c hn hf hfo
      have hi : i < b.rules.length := by obtain ⟨x, hx, _⟩ := hn; exact RulesFrom.lt_of_alt hx
      exact h3 _ c ((hr.ruleNullable hi).2 hn) ((hr.ruleFirst hi).2 hf) (hr.follow (follow_right h) hfo)
    · intro c ha hb
      have := h1 0 _ 0 1 _ _ c rfl rfl rfl ((first_start hl h.left).2 ha) ((first_start hr h.right).2 hb)
      omega
    · rintro ⟨ha, hb⟩
      have := h2 0 _ 0 1 _ _ rfl rfl rfl ((nullable_start hl h.left).2 ha) ((nullable_start hr h.right).2 hb)
      omega
  · rintro ⟨⟨a1, a2, a3⟩, ⟨b1, b2, b3⟩, hdis, hnul⟩
    have two_of : ∀ {k : Nat} {x : Sequence}, (two a b)[k]? = some x →
        (k = 0 ∧ x = ⟨[.nonTerminal a.startName]⟩) ∨ (k = 1 ∧ x = ⟨[.nonTerminal b.startName]⟩) := by
      intro k x hk
      match k with
      | 0 => cases hk; exact .inl ⟨rfl, rfl⟩
      | 1 => cases hk; exact .inr ⟨rfl, rfl⟩
      | k + 2 => simp [two] at hk
    refine ⟨?_, ?_, ?_⟩
    · intro i
      show FDRow _ i
      intro r k l x y c hri
      rcases cases_row (List.getElem?_eq_some_iff.1 hri).1 with rfl | ⟨q, hq, rfl⟩ | ⟨q, hq, rfl⟩
      · cases hri
        intro hk hm f1 f2
        rcases two_of hk with ⟨rfl, rfl⟩ | ⟨rfl, rfl⟩ <;> rcases two_of hm with ⟨rfl, rfl⟩ | ⟨rfl, rfl⟩
        · rfl
        · exact (hdis c ((first_start hl h.left).1 f1) ((first_start hr h.right).1 f2)).elim
        · exact (hdis c ((first_start hl h.left).1 f2) ((first_start hr h.right).1 f1)).elim
        · rfl
      · exact (hl.firstDisjoint_row hq).2 (a1 q) r k l x y c hri
      · exact (hr.firstDisjoint_row hq).2 (b1 q) r k l x y c hri
    · intro i
      show ONRow _ i
      intro r k l x y hri
      rcases cases_row (List.getElem?_eq_some_iff.1 hri).1 with rfl | ⟨q, hq, rfl⟩ | ⟨q, hq, rfl⟩
      · cases hri
        intro hk hm f1 f2
        rcases two_of hk with ⟨rfl, rfl⟩ | ⟨rfl, rfl⟩ <;> rcases two_of hm with ⟨rfl, rfl⟩ | ⟨rfl, rfl⟩
        · rfl
        · exact (hnul ⟨(nullable_start hl h.left).1 f1, (nullable_start hr h.right).1 f2⟩).elim
        · exact (hnul ⟨(nullable_start hl h.left).1 f2, (nullable_start hr h.right).1 f1⟩).elim
        · rfl
      · exact (hl.oneNullable_row hq).2 (a2 q) r k l x y hri
      · exact (hr.oneNullable_row hq).2 (b2 q) r k l x y hri
    · intro i c hn hf hfo
      have hb := follow_back h hfo
      have hi : i < (J top (two a b) a b).rules.length := by obtain ⟨x, hx, _⟩ := hn; exact RulesFrom.lt_of_alt hx
      rcases cases_row hi with rfl | ⟨q, hq, rfl⟩ | ⟨q, hq, rfl⟩
      · obtain rfl := hb.1 rfl
        obtain ⟨x, hx, hf⟩ := hf
        exact Restart.first_ne_zero hz hf (fun t ht => hz 0 x t hx ht) rfl
      · exact a3 q c ((hl.ruleNullable hq).1 hn) ((hl.ruleFirst hq).1 hf) (hb.2.1 q hq rfl)
      · exact b3 q c ((hr.ruleNullable hq).1 hn) ((hr.ruleFirst hq).1 hf) (hb.2.2 q hq rfl)

end Join
end LL1
