import Verif.Proofs.TableGenCost

/-!
# Lemmas for C82: a family of grammars on which `FromGrammar` needs cubic time
-/

namespace LL1

/-- The name of rule `i`: `x`, `xx`, `xxx`, ... -/
def slowName (i : Nat) : Str := List.replicate (i + 1) 120

/-- The symbol of the only alternative of rule `i`. -/
def slowSymbol (n i : Nat) : Symbol :=
  if i = 0 then .nonTerminal (slowName (n + 1))
  else if i = 1 then .terminal b!"a"
  else .nonTerminal (slowName (i - 1))

/-- `n + 2` rules: rule 0 refers to the last rule, rule 1 is `"a"`, every other rule refers to the one before it. -/
def slow (n : Nat) : Grammar :=
  ⟨(List.range (n + 2)).map fun i => ⟨slowName i, ⟨[⟨[slowSymbol n i]⟩]⟩⟩⟩

theorem slowName_inj {i j : Nat} (h : slowName i = slowName j) : i = j := by
  have := congrArg List.length h
  simp [slowName] at this
  exact this

theorem slow_length (n : Nat) : (slow n).rules.length = n + 2 := by simp [slow]

theorem slow_rule {n i : Nat} {r : Rule} (h : (slow n).rules[i]? = some r) :
    i < n + 2 ∧ r = ⟨slowName i, ⟨[⟨[slowSymbol n i]⟩]⟩⟩ := by
  obtain ⟨h1, h2⟩ := List.getElem?_eq_some_iff.1 h
  refine ⟨by simpa [slow] using h1, ?_⟩
  rw [← h2]
  simp [slow]

theorem slow_at {n i : Nat} (h : i < n + 2) : (slow n).rules[i]? = some ⟨slowName i, ⟨[⟨[slowSymbol n i]⟩]⟩⟩ := by
  simp [slow, h]

theorem slow_alt {n i : Nat} {alt : Sequence} : (slow n).Alt i alt ↔ i < n + 2 ∧ alt = ⟨[slowSymbol n i]⟩ := by
  constructor
  · rintro ⟨r, hr, ha⟩
    obtain ⟨h1, rfl⟩ := slow_rule hr
    exact ⟨h1, by simpa using ha⟩
  · rintro ⟨h1, rfl⟩
    exact ⟨_, slow_at h1, by simp⟩

theorem slow_head {n i : Nat} (h : i < n + 2) : (slow n).Head i (slowName i) := ⟨_, slow_at h, rfl⟩

theorem slowSymbol_terminal {n i : Nat} {t : Str} (h : slowSymbol n i = .terminal t) : t = b!"a" := by
  unfold slowSymbol at h
  split at h
  · cases h
  · split at h
    · cases h; rfl
    · cases h

theorem slowSymbol_nonTerminal {n i k : Nat} (h : slowSymbol n i = .nonTerminal (slowName k)) :
    (i = 0 ∧ k = n + 1) ∨ (2 ≤ i ∧ i = k + 1) := by
  unfold slowSymbol at h
  split at h
  · next h0 => exact .inl ⟨h0, (slowName_inj (Symbol.nonTerminal.inj h)).symm⟩
  · split at h
    · cases h
    · have := slowName_inj (Symbol.nonTerminal.inj h)
      exact .inr ⟨by omega, by omega⟩

theorem slow_nulStartFree (n : Nat) : (slow n).NulStartFree := by
  intro i alt t ha ht
  obtain ⟨_, rfl⟩ := slow_alt.1 ha
  have := slowSymbol_terminal (List.mem_singleton.1 ht).symm
  rw [this]; decide

theorem slow_wellFormed (n : Nat) : (slow n).WellFormed where
  rules := by
    intro h
    have := slow_length n
    rw [h] at this
    simp at this
  term := by
    intro i alt t ha ht
    obtain ⟨_, rfl⟩ := slow_alt.1 ha
    have := slowSymbol_terminal (List.mem_singleton.1 ht).symm
    rw [this]; decide
  nothing := by
    intro i alt ha ht
    obtain ⟨_, rfl⟩ := slow_alt.1 ha
    have := (List.mem_singleton.1 ht).symm
    unfold slowSymbol at this
    split at this
    · cases this
    · split at this <;> cases this
  alts := by
    intro i alt ha
    obtain ⟨_, rfl⟩ := slow_alt.1 ha
    simp
  defined := by
    intro i alt name ha ht
    obtain ⟨hi, rfl⟩ := slow_alt.1 ha
    have := (List.mem_singleton.1 ht).symm
    unfold slowSymbol at this
    split at this
    · cases this; exact ⟨n + 1, slow_head (by omega)⟩
    · split at this
      · cases this
      · cases this; exact ⟨i - 1, slow_head (by omega)⟩

theorem slow_no_clash (n i : Nat) : ¬ Clash (slow n) i := by
  rintro ⟨r, pre, alt, post, b, hr, hs, _, _, e, he, _⟩
  obtain ⟨_, rfl⟩ := slow_rule hr
  have := congrArg List.length hs
  simp at this
  have : pre = [] := List.eq_nil_of_length_eq_zero (by omega)
  subst this
  cases he

namespace TG

/-! ## One pass of the FOLLOW computation moves the end of input one rule further -/

theorem slow_inRule {n : Nat} {firsts : List ByteSet} {i j : Nat} {st st' : FState}
    (h : ruleFollowsInRule (newGen (slow n)) firsts i j st = .ok st') (m : Nat) (b : UInt8) (hb : Has st'.1 m b) :
    Has st.1 m b ∨ (m = i ∧ (i = n + 1 ∨ j = i + 1) ∧ Has st.1 j b) := by
  unfold ruleFollowsInRule at h
  split at h
  · cases h
  split at h
  · cases h
  rw [Res.bind_eq_ok] at h
  obtain ⟨r, hr, h⟩ := h
  obtain ⟨hj, rfl⟩ := slow_rule (idx_ok.1 hr)
  simp only [followsSequences, Res.bind_eq_ok] at h
  obtain ⟨st1, h, h2⟩ := h
  cases h2
  unfold ruleFollowsInSequence at h
  rw [Res.bind_eq_ok] at h
  obtain ⟨r, hr, h⟩ := h
  obtain ⟨hi, rfl⟩ := slow_rule (idx_ok.1 hr)
  simp only [List.reverse_cons, List.reverse_nil, List.nil_append, followsInnerLoop] at h
  rw [Res.bind_eq_ok] at h
  obtain ⟨⟨st2, ret⟩, h, h2⟩ := h
  have : st2 = st' := by
    simp only at h2
    split at h2
    · simpa using h2
    · simpa using h2
  subst this
  unfold followsLast at h
  split at h
  · split at h
    · next name hn =>
      split at h
      · cases h; exact .inl hb
      · next hname =>
        have hname : name = slowName i := by simpa using hname
        subst hname
        rw [Res.bind_eq_ok] at h
        obtain ⟨fo, hfo, h⟩ := h
        obtain ⟨cur, hc, h | h⟩ := addFollows_ok h
        · have := congrArg Prod.fst h.2
          simp only at this
          subst this
          exact .inl hb
        · have := congrArg Prod.fst h.2
          simp only at this
          subst this
          simp only at hb
          rcases has_set hb with ⟨hi', hb2⟩ | hb
          · subst hi'
            rw [ByteSet.contains_union, Bool.or_eq_true] at hb2
            rcases hb2 with hb | hb
            · exact .inl ⟨cur, hc, hb⟩
            · refine .inr ⟨rfl, ?_, fo, idx_ok.1 hfo, hb⟩
              rcases slowSymbol_nonTerminal hn with h | h
              · exact .inl h.2
              · exact .inr h.2
          · exact .inl hb
    · cases h; exact .inl hb
  · cases h; exact .inl hb

/-- `forEach` over `0, 1, ..., k - 1` with an invariant that depends on the index. -/
theorem forEach_range'_inv {σ : Type} {f : Nat → σ → R σ} {J : Nat → σ → Prop} (k : Nat) :
    ∀ (a : Nat) (s s' : σ), (∀ i s s', J i s → f i s = .ok s' → J (i + 1) s') → J a s →
      forEach f (List.range' a k) s = .ok s' → J (a + k) s' := by
  induction k with
  | zero => intro a s s' _ hj h; simp only [List.range'_zero, forEach, Res.ok.injEq] at h; subst h; exact hj
  | succ k ih =>
    intro a s s' hf hj h
    simp only [List.range'_succ, forEach, Res.bind_eq_ok] at h
    obtain ⟨m, hm, h⟩ := h
    have := ih (a + 1) m s' hf (hf _ _ _ hj hm) h
    rwa [Nat.add_assoc, Nat.add_comm 1] at this

/-- After `k` passes: no byte has reached the rules `1, ..., n + 1 - k`. -/
def Late (n k : Nat) (follows : List ByteSet) : Prop :=
  ∀ m, 1 ≤ m → m + k < n + 2 → ∀ b, ¬ Has follows m b

theorem slow_inner {n : Nat} {firsts : List ByteSet} {i : Nat} {st st' : FState} (js : List Nat)
    (h : forEach (fun j st => ruleFollowsInRule (newGen (slow n)) firsts i j st) js st = .ok st') :
    (∀ m, m ≠ i → ∀ b, Has st'.1 m b → Has st.1 m b) ∧
    (i ≠ n + 1 → (∀ b, ¬ Has st.1 i b) → (∀ b, ¬ Has st.1 (i + 1) b) → ∀ b, ¬ Has st'.1 i b) := by
  induction js generalizing st with
  | nil =>
    simp only [forEach, Res.ok.injEq] at h
    subst h
    exact ⟨fun _ _ _ h => h, fun _ h _ => h⟩
  | cons j js ih =>
    simp only [forEach, Res.bind_eq_ok] at h
    obtain ⟨m, hm, h⟩ := h
    obtain ⟨h1, h2⟩ := ih h
    have h3 := slow_inRule hm
    have h4 : ∀ k, k ≠ i → ∀ b, Has m.1 k b → Has st.1 k b := by
      intro k hk b hb
      rcases h3 k b hb with h | h
      · exact h
      · exact (hk h.1).elim
    refine ⟨fun k hk b hb => h4 k hk b (h1 k hk b hb), fun hi e1 e2 => h2 hi ?_ ?_⟩
    · intro b hb
      rcases h3 i b hb with h | ⟨_, h, hb'⟩
      · exact e1 b h
      · rcases h with h | h
        · exact hi h
        · subst h; exact e2 b hb'
    · intro b hb
      exact e2 b (h4 _ (by omega) b hb)

theorem slow_pass {n k : Nat} {firsts follows : List ByteSet} {st : FState} (hl : Late n k follows)
    (h : followsPass (newGen (slow n)) firsts follows = .ok st) : Late n (k + 1) st.1 := by
  by_cases hk : n + 2 ≤ k + 1
  · intro m h1 h2; omega
  have h' := forEach_range'_inv
    (f := fun ruleIndex st =>
      forEach (fun againstRuleIndex st => ruleFollowsInRule (newGen (slow n)) firsts ruleIndex againstRuleIndex st)
        (List.range' 0 (n + 2)) st)
    (J := fun i (st : FState) => (∀ m, 1 ≤ m → m < n + 1 - k → ∀ b, ¬ Has st.1 m b) ∧
      (i ≤ n + 1 - k → ∀ b, ¬ Has st.1 (n + 1 - k) b)) (n + 2) 0 (follows, false) st
    (fun i s s' hj hf => ?_) ?_ ?_
  · intro m h1 h2 b
    exact h'.1 m h1 (by omega) b
  · obtain ⟨e1, e2⟩ := slow_inner _ hf
    refine ⟨fun m h1 h2 b hb => ?_, fun hi b hb => ?_⟩
    · by_cases hm : m = i
      · subst hm
        refine e2 (by omega) (hj.1 m h1 h2) ?_ b hb
        by_cases hm' : m + 1 < n + 1 - k
        · exact hj.1 _ (by omega) hm'
        · have : m + 1 = n + 1 - k := by omega
          rw [this]
          exact hj.2 (by omega)
      · exact hj.1 m h1 h2 b (e1 m hm b hb)
    · exact hj.2 (by omega) b (e1 _ (by omega) b hb)
  · refine ⟨fun m h1 h2 => hl m h1 (by omega), fun _ => hl _ (by omega) (by omega)⟩
  · have : (newGen (slow n)).g.rules.length = n + 2 := slow_length n
    unfold followsPass at h
    rw [this, List.range_eq_range'] at h
    exact h

/-! ## Lower bounds on steps -/

theorem forEachC_lower {σ : Type} {f : Nat → σ → CR σ} {w : Nat}
    (hw : ∀ i s s', (f i s).res = .ok s' → w ≤ (f i s).steps) (is : List Nat) (s s' : σ)
    (h : (forEachC f is s).res = .ok s') : is.length * (1 + w) ≤ (forEachC f is s).steps := by
  induction is generalizing s with
  | nil => simp
  | cons i is ih =>
    simp only [forEachC, CR.bind_res, tick_res, Res.ok_bind, Res.bind_eq_ok] at h
    obtain ⟨m, hm, h⟩ := h
    simp only [forEachC, tick_bind_steps]
    rw [CR.bind_steps_ok _ _ hm, List.length_cons, Nat.succ_mul]
    have := ih m h
    have := hw i s m hm
    omega

theorem followsPassC_lower (tg : Gen) (firsts follows : List ByteSet) (st : FState)
    (h : (followsPassC tg firsts follows).res = .ok st) :
    tg.g.rules.length * (1 + tg.g.rules.length) ≤ (followsPassC tg firsts follows).steps := by
  have := forEachC_lower (f := fun ruleIndex st =>
      forEachC (fun againstRuleIndex st => ruleFollowsInRuleC tg firsts ruleIndex againstRuleIndex st)
        (List.range tg.g.rules.length) st) (w := tg.g.rules.length) (fun i s s' h => ?_)
      (List.range tg.g.rules.length) (follows, false) st h
  · rwa [List.length_range] at this
  · have := forEachC_lower (w := 0) (fun _ _ _ _ => Nat.zero_le _) _ _ _ h
    rw [List.length_range] at this
    omega

theorem fixLoopC_lower {pass : List ByteSet → CR (List ByteSet × Bool)} {P : Nat → List ByteSet → Prop} {w K : Nat}
    (hP : ∀ k s s', P k s → (pass s).res = .ok s' → P (k + 1) s'.1)
    (hw : ∀ s s', (pass s).res = .ok s' → w ≤ (pass s).steps) (r : List ByteSet) (hr : ∀ k, P k r → K ≤ k) :
    ∀ (fuel k : Nat) (sets : List ByteSet), P k sets → (fixLoopC pass fuel sets).res = .ok r →
      (K - k) * w ≤ (fixLoopC pass fuel sets).steps := by
  intro fuel
  induction fuel with
  | zero => intro k sets _ h; cases h
  | succ fuel ih =>
    intro k sets hp h
    simp only [fixLoopC, CR.bind_res, tick_res, Res.ok_bind, Res.bind_eq_ok] at h
    obtain ⟨⟨s', ch⟩, h1, h⟩ := h
    simp only [fixLoopC, tick_bind_steps]
    rw [CR.bind_steps_ok _ _ h1]
    have e1 := hw _ _ h1
    have e2 := hP _ _ _ hp h1
    have e3 : (K - k) * w ≤ (K - (k + 1)) * w + w := by
      rw [← Nat.succ_mul]
      exact Nat.mul_le_mul_right _ (by omega)
    cases ch with
    | false =>
      simp only [Bool.false_eq_true, if_false, CR.pure_res, Res.ok.injEq] at h
      subst h
      have := hr _ e2
      have h0 : K - (k + 1) = 0 := by omega
      rw [h0, Nat.zero_mul] at e3
      omega
    | true =>
      simp only [if_true] at h ⊢
      have := ih (k + 1) s' e2 h
      omega

theorem slow_follow (n : Nat) : ∀ (k : Nat), k ≤ n → RNextFollow (slow n) (n + 1 - k) 0 := by
  intro k
  induction k with
  | zero =>
    intro _
    exact .last (pre := []) (slow_alt.2 ⟨by omega, rfl⟩) (by simp [slowSymbol]) (slow_head (by omega)) .start
  | succ k ih =>
    intro hk
    refine .last (pre := []) (j := n + 1 - k) (slow_alt.2 ⟨by omega, rfl⟩) ?_ (slow_head (by omega)) (ih (by omega))
    have h1 : n + 1 - k - 1 = n + 1 - (k + 1) := by omega
    simp only [slowSymbol, h1, List.nil_append]
    rw [if_neg (by omega), if_neg (by omega)]

theorem slow_findFollows {n : Nat} {firsts follows : List ByteSet} (hx : FExact (slow n) firsts)
    (h : findFollows (newGen (slow n)) firsts (newSets (newGen (slow n)).ruleCount) = .ok follows) :
    (n + 1) * ((n + 2) * (n + 3)) ≤
      (findFollowsC (newGen (slow n)) firsts (newSets (newGen (slow n)).ruleCount)).steps := by
  have hL := findFollows_ok hx h
  rw [← findFollowsC_res] at h
  unfold findFollowsC at h ⊢
  simp only [CR.bind_res, free_res, Res.bind_eq_ok] at h
  obtain ⟨f0, hf0, fs, hfs, h⟩ := h
  rw [CR.bind_steps_ok _ _ hf0, CR.bind_steps_ok _ _ hfs, free_steps, free_steps, Nat.zero_add, Nat.zero_add]
  have hlen : (newGen (slow n)).g.rules.length = n + 2 := slow_length n
  refine fixLoopC_lower (P := Late n) (K := n + 1) (fun k s s' hp hs => slow_pass (firsts := firsts) hp ?_) (fun s s' hs => ?_) follows ?_
    _ 0 fs ?_ h
  · rw [← followsPassC_res]; exact hs
  · have := followsPassC_lower _ _ _ _ hs
    rw [hlen] at this
    rwa [Nat.add_comm 1] at this
  · intro k hk
    by_cases hlt : k < n + 1
    · refine (hk 1 (Nat.le_refl _) (by omega) 0 ((hL.follow 1 0 (by rw [slow_length]; omega)).2 ?_)).elim
      have := slow_follow n n (Nat.le_refl _)
      rwa [Nat.add_sub_cancel_left] at this
    · omega
  · intro m h1 _ b hb
    rw [setIdx_ok] at hfs
    rw [hfs.2] at hb
    rcases has_set hb with ⟨h0, _⟩ | hb
    · omega
    · exact not_has_newSets hb

end TG

open TG in
theorem slow_lower (order : List (Str × Nat) → List (Str × Nat)) (n : Nat) {r : Table × Names}
    (h : fromGrammar order (slow n) = .ok r) : (n + 1) * ((n + 2) * (n + 3)) ≤ (fromGrammarC order (slow n)).steps := by
  rw [← fromGrammarC_res] at h
  unfold fromGrammarC at h ⊢
  simp only [CR.bind_res, ticks_res, Res.ok_bind, Res.bind_eq_ok] at h
  obtain ⟨t, h1, _⟩ := h
  simp only [ticks_bind_steps]
  rw [CR.bind_steps_ok _ _ h1]
  unfold runC at h1 ⊢
  simp only [CR.bind_res, Res.bind_eq_ok] at h1
  obtain ⟨fi, h1, fo, h2, _⟩ := h1
  rw [CR.bind_steps_ok _ _ h1, CR.bind_steps_ok _ _ h2]
  rw [findFirstsC_res] at h1
  rw [findFollowsC_res] at h2
  have := slow_findFollows (findFirsts_ok h1) h2
  omega

end LL1
