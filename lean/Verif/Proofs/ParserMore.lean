import Verif.Proofs.Parser

/-!
# Consequences of the big-step characterisation
-/

namespace LL1

variable {tbl : Table} {names : Option Names} {src : Str}

theorem Derives.le {ops : List ParserOp} {i j : Nat} {cs : List Node}
    (h : Derives tbl src ops i j cs) : i ≤ j := by
  induction h with
  | nil => exact Nat.le_refl _
  | lit _ _ ih => omega
  | nt _ _ _ ih1 ih2 => omega

theorem FailsAt.le {ops : List ParserOp} {i k : Nat} {e : PErr}
    (h : FailsAt tbl names src ops i k e) : i ≤ k := by
  induction h with
  | lit => omega
  | afterLit _ _ ih => omega
  | noBody => omega
  | inside _ _ ih => omega
  | afterNt _ hd _ ih => have := hd.le; omega

/-- Two sources agree up to and including offset `k`. -/
def AgreeTo (src src' : Str) (k : Nat) : Prop := ∀ p, p ≤ k → byteAt src p = byteAt src' p

theorem AgreeTo.mono {src src' : Str} {k l : Nat} (h : AgreeTo src src' k) (hl : l ≤ k) :
    AgreeTo src src' l := fun p hp => h p (by omega)

theorem LitAt.agree {src' : Str} {s : Str} {i k : Nat} (h : LitAt src s i)
    (ha : AgreeTo src src' k) (hk : i + s.length ≤ k + 1) : LitAt src' s i := by
  intro m hm
  rw [h m hm, ha _ (by omega)]

theorem Derives.agree {src' : Str} {ops : List ParserOp} {i j : Nat} {cs : List Node}
    (h : Derives tbl src ops i j cs) (ha : AgreeTo src src' j) : Derives tbl src' ops i j cs := by
  induction h with
  | nil i => exact .nil i
  | lit hl hd ih => exact .lit (hl.agree ha (by have := hd.le; omega)) (ih ha)
  | nt hb hd1 hd2 ih1 ih2 =>
    have h1 := hd1.le
    have h2 := hd2.le
    exact .nt (by rw [← ha _ (by omega)]; exact hb) (ih1 (ha.mono (by omega))) (ih2 ha)

theorem FailsAt.agree {src' : Str} {ops : List ParserOp} {i k : Nat} {e : PErr}
    (h : FailsAt tbl names src ops i k e) (ha : AgreeTo src src' k) :
    FailsAt tbl names src' ops i k e := by
  induction h with
  | @lit s ops i k c h1 h2 h3 =>
    rw [ha _ (Nat.le_refl _)]
    refine .lit (h1.agree ha ?_) h2 (by rw [← ha _ (Nat.le_refl _)]; exact h3)
    simp only [List.length_take]; omega
  | afterLit hl hf ih =>
    exact .afterLit (hl.agree ha (by have := hf.le; omega)) (ih ha)
  | noBody hb =>
    rw [ha _ (Nat.le_refl _)] at hb ⊢
    exact .noBody hb
  | inside hb hf ih =>
    exact .inside (by rw [← ha _ hf.le]; exact hb) (ih ha)
  | afterNt hb hd hf ih =>
    have h1 := hd.le
    have h2 := hf.le
    exact .afterNt (by rw [← ha _ (by omega)]; exact hb) (hd.agree (ha.mono (by omega))) (ih ha)

theorem IsParse.agree {src' : Str} {t : Node} {j : Nat} (h : Derives tbl src [.nonTerminal 0] 0 j [t])
    (h0 : byteAt src j = 0) (ha : AgreeTo src src' j) : IsParse tbl src' t :=
  ⟨j, h.agree ha, by rw [← ha _ (Nat.le_refl _)]; exact h0⟩

theorem StuckAt.agree {src' : Str} {k : Nat} {e : PErr} (h : StuckAt tbl names src k e)
    (ha : AgreeTo src src' k) : StuckAt tbl names src' k e := by
  rcases h with h | ⟨t, hd, hb, rfl⟩
  · exact Or.inl (h.agree ha)
  · refine Or.inr ⟨t, hd.agree ha, ?_, ?_⟩
    · rw [← ha _ (Nat.le_refl _)]; exact hb
    · rw [ha _ (Nat.le_refl _)]

/-! ## Uniqueness and exclusion -/

theorem litAt_take_unique {s : Str} {i k k' : Nat} {c c' : UInt8}
    (h1 : LitAt src (s.take k) i) (h2 : s[k]? = some c) (h3 : c ≠ byteAt src (i + k))
    (h1' : LitAt src (s.take k') i) (h2' : s[k']? = some c') (h3' : c' ≠ byteAt src (i + k')) :
    k = k' := by
  have aux : ∀ {k k' : Nat} {c : UInt8}, s[k]? = some c → c ≠ byteAt src (i + k) →
      LitAt src (s.take k') i → ¬ k < k' := by
    intro k k' c h2 h3 h1' hlt
    have hk : k < s.length := (List.getElem?_eq_some_iff.1 h2).1
    have := h1' k (by simp only [List.length_take]; omega)
    rw [List.getElem?_take, if_pos hlt, h2] at this
    exact h3 (Option.some.inj this)
  have := aux h2 h3 h1'
  have := aux h2' h3' h1
  omega

theorem Derives.not_failsAt {ops : List ParserOp} {i j : Nat} {cs : List Node}
    (h : Derives tbl src ops i j cs) : ∀ {k e}, ¬ FailsAt tbl names src ops i k e := by
  induction h with
  | nil => intro k e hf; cases hf
  | lit hl hd ih =>
    intro k e hf
    cases hf with
    | lit h1 h2 h3 =>
      have := hl _ (List.getElem?_eq_some_iff.1 h2).1
      rw [h2] at this
      exact h3 (Option.some.inj this)
    | afterLit _ hf => exact ih hf
  | nt hb hd1 hd2 ih1 ih2 =>
    intro k e hf
    cases hf with
    | noBody hb' => rw [hb] at hb'; cases hb'
    | inside hb' hf =>
      rw [hb] at hb'
      cases hb'
      exact ih1 hf
    | afterNt hb' hd' hf =>
      rw [hb] at hb'
      cases hb'
      obtain ⟨rfl, _⟩ := hd1.det hd'
      exact ih2 hf

theorem FailsAt.det {ops : List ParserOp} {i k : Nat} {e : PErr}
    (h : FailsAt tbl names src ops i k e) : ∀ {k' e'}, FailsAt tbl names src ops i k' e' →
      k = k' ∧ e = e' := by
  induction h with
  | lit h1 h2 h3 =>
    intro k' e' h'
    cases h' with
    | lit h1' h2' h3' =>
      have := litAt_take_unique h1 h2 h3 h1' h2' h3'
      subst this
      rw [h2] at h2'
      cases h2'
      exact ⟨rfl, rfl⟩
    | afterLit hl _ =>
      have := hl _ (List.getElem?_eq_some_iff.1 h2).1
      rw [h2] at this
      exact absurd (Option.some.inj this) h3
  | afterLit hl hf ih =>
    intro k' e' h'
    cases h' with
    | lit h1' h2' h3' =>
      have := hl _ (List.getElem?_eq_some_iff.1 h2').1
      rw [h2'] at this
      exact absurd (Option.some.inj this) h3'
    | afterLit _ hf' => exact ih hf'
  | noBody hb =>
    intro k' e' h'
    cases h' with
    | noBody _ => exact ⟨rfl, rfl⟩
    | inside hb' _ => rw [hb] at hb'; cases hb'
    | afterNt hb' _ _ => rw [hb] at hb'; cases hb'
  | inside hb hf ih =>
    intro k' e' h'
    cases h' with
    | noBody hb' => rw [hb] at hb'; cases hb'
    | inside hb' hf' => rw [hb] at hb'; cases hb'; exact ih hf'
    | afterNt hb' hd' _ => rw [hb] at hb'; cases hb'; exact absurd hf hd'.not_failsAt
  | afterNt hb hd hf ih =>
    intro k' e' h'
    cases h' with
    | noBody hb' => rw [hb] at hb'; cases hb'
    | inside hb' hf' => rw [hb] at hb'; cases hb'; exact absurd hf' hd.not_failsAt
    | afterNt hb' hd' hf' =>
      rw [hb] at hb'; cases hb'
      obtain ⟨rfl, _⟩ := hd.det hd'
      exact ih hf'

theorem IsParse.unique {t t' : Node} (h : IsParse tbl src t) (h' : IsParse tbl src t') : t = t' := by
  obtain ⟨j, hd, _⟩ := h
  obtain ⟨j', hd', _⟩ := h'
  simpa using (hd.det hd').2

theorem IsParse.not_stuck {t : Node} (h : IsParse tbl src t) {k : Nat} {e : PErr} :
    ¬ StuckAt tbl names src k e := by
  obtain ⟨j, hd, hb⟩ := h
  rintro (hf | ⟨t', hd', hb', _⟩)
  · exact hd.not_failsAt hf
  · obtain ⟨rfl, _⟩ := hd.det hd'
    exact hb' hb

theorem StuckAt.unique {k k' : Nat} {e e' : PErr} (h : StuckAt tbl names src k e)
    (h' : StuckAt tbl names src k' e') : k = k' ∧ e = e' := by
  rcases h with h | ⟨t, hd, hb, rfl⟩ <;> rcases h' with h' | ⟨t', hd', hb', rfl⟩
  · exact h.det h'
  · exact absurd h hd'.not_failsAt
  · exact absurd h' hd.not_failsAt
  · obtain ⟨rfl, _⟩ := hd.det hd'
    exact ⟨rfl, rfl⟩

/-! ## Node types never matter to the names -/

theorem FailsAt.rename {names' : Option Names}
    (hn : ∀ n, 0 ≤ n → rowName names n = rowName names' n)
    {ops : List ParserOp} {i k : Nat} {e : PErr}
    (h : FailsAt tbl names src ops i k e) : FailsAt tbl names' src ops i k e := by
  induction h with
  | lit h1 h2 h3 => exact .lit h1 h2 h3
  | afterLit hl hf ih => exact .afterLit hl ih
  | @noBody n ops i hb =>
    have : whyNot tbl names n (byteAt src i) = whyNot tbl names' n (byteAt src i) := by
      unfold whyNot
      split
      · rename_i h; rw [hn n h]
      · rfl
    rw [this]
    exact .noBody hb
  | inside hb hf ih => exact .inside hb ih
  | afterNt hb hd hf ih => exact .afterNt hb hd ih

theorem StuckAt.rename {names' : Option Names}
    (hn : ∀ n, 0 ≤ n → rowName names n = rowName names' n)
    {k : Nat} {e : PErr} (h : StuckAt tbl names src k e) : StuckAt tbl names' src k e := by
  rcases h with h | h
  · exact Or.inl (h.rename hn)
  · exact Or.inr h

/-! ## Bounds for NUL-free literals -/

/-- No literal in the list contains NUL. -/
def OpsNulFree (ops : List ParserOp) : Prop := ∀ s, ParserOp.terminal s ∈ ops → (0 : UInt8) ∉ s

theorem bodyFor_nulFree (h : Table.NulFree tbl) {n : Int} {b : UInt8} {body : List ParserOp}
    (hb : bodyFor tbl n b = some body) : OpsNulFree body := by
  unfold bodyFor at hb
  split at hb
  · cases hr : tbl.get n with
    | none => simp [hr] at hb
    | some row =>
      simp only [hr, Option.bind_some] at hb
      exact h n row b body hr hb
  · split at hb
    · split at hb
      · cases hb; intro s hs; simp at hs; subst hs; decide
      · split at hb
        · cases hb
          intro s hs
          simp only [List.mem_cons, ParserOp.terminal.injEq, List.not_mem_nil, or_false] at hs
          rcases hs with rfl | rfl <;> decide
        · cases hb
    · cases hb

theorem litAt_bound {s : Str} {i : Nat} (h : LitAt src s i) (h0 : (0 : UInt8) ∉ s) (hi : i ≤ src.length) :
    i + s.length ≤ src.length := by
  by_cases hs : s.length = 0
  · omega
  · have := h (s.length - 1) (by omega)
    rcases Nat.lt_or_ge (i + (s.length - 1)) src.length with hlt | hge
    · omega
    · rw [byteAt_ge hge] at this
      exact absurd (List.mem_of_getElem? this) h0

theorem Derives.bound (hnf : Table.NulFree tbl) {ops : List ParserOp} {i j : Nat} {cs : List Node}
    (h : Derives tbl src ops i j cs) (ho : OpsNulFree ops) (hi : i ≤ src.length) : j ≤ src.length := by
  induction h with
  | nil => exact hi
  | lit hl hd ih =>
    exact ih (fun s hs => ho s (List.mem_cons_of_mem _ hs)) (litAt_bound hl (ho _ List.mem_cons_self) hi)
  | nt hb hd1 hd2 ih1 ih2 =>
    exact ih2 (fun s hs => ho s (List.mem_cons_of_mem _ hs)) (ih1 (bodyFor_nulFree hnf hb) hi)

theorem litAt_slice {s : Str} {i : Nat} (h : LitAt src s i) (hi : i + s.length ≤ src.length) :
    slice src i (i + s.length) = s := by
  unfold slice
  apply List.ext_getElem?
  intro k
  rw [List.getElem?_take, List.getElem?_drop]
  by_cases hk : k < s.length
  · rw [if_pos (by omega), h k hk]
    unfold byteAt
    rw [List.getD_eq_getElem?_getD]
    rw [List.getElem?_eq_getElem (by omega)]
    rfl
  · rw [if_neg (by omega), List.getElem?_eq_none (by omega)]

theorem FailsAt.bound (hnf : Table.NulFree tbl) {ops : List ParserOp} {i k : Nat} {e : PErr}
    (h : FailsAt tbl names src ops i k e) (ho : OpsNulFree ops) (hi : i ≤ src.length) : k ≤ src.length := by
  induction h with
  | @lit s ops i k c h1 h2 h3 =>
    have hk : k < s.length := (List.getElem?_eq_some_iff.1 h2).1
    have := litAt_bound h1 (fun hm => ho _ List.mem_cons_self (List.mem_of_mem_take hm)) hi
    simp only [List.length_take] at this
    omega
  | afterLit hl hf ih =>
    exact ih (fun s hs => ho s (List.mem_cons_of_mem _ hs)) (litAt_bound hl (ho _ List.mem_cons_self) hi)
  | noBody => exact hi
  | inside hb hf ih => exact ih (bodyFor_nulFree hnf hb) hi
  | afterNt hb hd hf ih =>
    exact ih (fun s hs => ho s (List.mem_cons_of_mem _ hs)) (hd.bound hnf (bodyFor_nulFree hnf hb) hi)

theorem first_mismatch (s : Str) (i : Nat) (h : ¬ LitAt src s i) :
    ∃ k c, LitAt src (s.take k) i ∧ s[k]? = some c ∧ c ≠ byteAt src (i + k) := by
  induction s generalizing i with
  | nil => exact absurd (LitAt.nil _ _) h
  | cons c s ih =>
    by_cases hc : c = byteAt src i
    · have : ¬ LitAt src s (i + 1) := fun h' => h ((litAt_cons ..).2 ⟨hc, h'⟩)
      obtain ⟨k, d, h1, h2, h3⟩ := ih (i + 1) this
      refine ⟨k + 1, d, ?_, by simpa using h2, ?_⟩
      · rw [List.take_succ_cons, litAt_cons]; exact ⟨hc, h1⟩
      · rw [show i + (k + 1) = i + 1 + k by omega]; exact h3
    · exact ⟨0, c, by simpa using LitAt.nil _ _, by simp, by simpa using hc⟩

/-! ## Termination by rank -/

/-- An operation that certainly consumes input when the next byte is `b`, given that the
non-terminals in `Sure` do. -/
def SureOp (Sure : Int → UInt8 → Prop) (b : UInt8) : ParserOp → Prop
  | .terminal s => s ≠ [] ∧ (b = 0 → ∃ c ∈ s, c ≠ 0)
  | .nonTerminal m => Sure m b
  | _ => False

/-- Every non-terminal of `ops` up to and including the first operation that surely consumes has a
smaller rank than `r`. -/
def RankBelow (Sure : Int → UInt8 → Prop) (rank : Int → UInt8 → Nat) (b : UInt8) (r : Nat) :
    List ParserOp → Prop
  | [] => True
  | op :: ops =>
    (match op with | .nonTerminal m => rank m b < r | _ => True) ∧
    (SureOp Sure b op ∨ RankBelow Sure rank b r ops)

theorem sure_consumes {Sure : Int → UInt8 → Prop}
    (hsure : ∀ n b body, Sure n b → bodyFor tbl n b = some body → ∃ op ∈ body, SureOp Sure b op)
    {ops : List ParserOp} {i j : Nat} {cs : List Node} (h : Derives tbl src ops i j cs)
    (hex : ∃ op ∈ ops, SureOp Sure (byteAt src i) op) : i < j := by
  induction h with
  | nil => simp at hex
  | @lit s ops i j cs hl hd ih =>
    have hle := hd.le
    by_cases hs : s = []
    · subst hs
      obtain ⟨op, hop, hso⟩ := hex
      rcases List.mem_cons.1 hop with rfl | hop
      · simp [SureOp] at hso
      · exact ih ⟨op, hop, hso⟩
    · have : s.length ≠ 0 := by simpa using hs
      omega
  | @nt n body ops i j k cs ds hb hd1 hd2 ih1 ih2 =>
    have h1 := hd1.le
    have h2 := hd2.le
    rcases Nat.lt_or_ge i j with hij | hij
    · omega
    · have : i = j := by omega
      subst this
      obtain ⟨op, hop, hso⟩ := hex
      rcases List.mem_cons.1 hop with rfl | hop
      · have := ih1 (hsure n _ body hso hb)
        omega
      · exact ih2 ⟨op, hop, hso⟩

/-- At or behind the end of the source (where only NUL bytes match) nothing with a sure operation can be derived. -/
theorem sure_not_past {Sure : Int → UInt8 → Prop}
    (hsure : ∀ n b body, Sure n b → bodyFor tbl n b = some body → ∃ op ∈ body, SureOp Sure b op)
    {ops : List ParserOp} {i j : Nat} {cs : List Node} (h : Derives tbl src ops i j cs) (hi : src.length ≤ i)
    (hex : ∃ op ∈ ops, SureOp Sure 0 op) : False := by
  induction h with
  | nil => simp at hex
  | @lit s ops i j cs hl hd ih =>
    obtain ⟨op, hop, hso⟩ := hex
    rcases List.mem_cons.1 hop with rfl | hop
    · obtain ⟨c, hc, h0⟩ := hso.2 rfl
      obtain ⟨k, hk, rfl⟩ := List.getElem_of_mem hc
      have := hl k hk
      rw [byteAt_ge (by omega), List.getElem?_eq_getElem hk] at this
      exact h0 (by simpa using this)
    · exact ih (by omega) ⟨op, hop, hso⟩
  | @nt n body ops i j k cs ds hb hd1 hd2 ih1 ih2 =>
    have h1 := hd1.le
    obtain ⟨op, hop, hso⟩ := hex
    rcases List.mem_cons.1 hop with rfl | hop
    · rw [byteAt_ge hi] at hb
      exact ih1 hi (hsure n _ body hso hb)
    · exact ih2 (by omega) ⟨op, hop, hso⟩

/-- If the non-terminals reachable without consuming input go down in rank, every derivation either
completes or gets stuck. -/
theorem terminates_of_rank (hpub : Table.Public tbl)
    {Sure : Int → UInt8 → Prop} {rank : Int → UInt8 → Nat}
    (hsure : ∀ n b body, Sure n b → bodyFor tbl n b = some body → ∃ op ∈ body, SureOp Sure b op)
    (hrank : ∀ n b body, bodyFor tbl n b = some body → RankBelow Sure rank b (rank n b) body) :
    ∀ (rem : Nat) (r : Nat) (ops : List ParserOp) (i : Nat), (∀ op ∈ ops, op.Public) →
      src.length - i ≤ rem → RankBelow Sure rank (byteAt src i) r ops →
      (∃ j cs, Derives tbl src ops i j cs) ∨ (∃ k e, FailsAt tbl names src ops i k e) := by
  have hbp : ∀ {n b body}, bodyFor tbl n b = some body → ∀ op ∈ body, op.Public := by
    intro n b body hb
    simp only [bodyFor] at hb
    split at hb
    · cases hr : tbl.get n with
      | none => simp [hr] at hb
      | some row =>
        simp only [hr, Option.bind_some] at hb
        exact hpub n row _ body hr hb
    · split at hb
      · split at hb
        · cases hb; simp [ParserOp.Public]
        · split at hb
          · cases hb; simp [ParserOp.Public]
          · simp at hb
      · simp at hb
  intro rem
  induction rem using Nat.strongRecOn with
  | ind rem IHrem =>
    intro r
    induction r using Nat.strongRecOn with
    | ind r IHr =>
      intro ops
      -- ops that start after something was consumed need no rank
      have later : ∀ (ops : List ParserOp) (i j : Nat), (∀ op ∈ ops, op.Public) →
          i < j → i < src.length → src.length - i ≤ rem →
          (∃ k cs, Derives tbl src ops j k cs) ∨ (∃ k e, FailsAt tbl names src ops j k e) := by
        intro ops i j hpo hij hi hrem
        -- choose a rank above everything in `ops`
        have : ∃ R, RankBelow Sure rank (byteAt src j) R ops := by
          clear hpo
          have mono : ∀ (ops : List ParserOp) R R', R ≤ R' → RankBelow Sure rank (byteAt src j) R ops →
              RankBelow Sure rank (byteAt src j) R' ops := by
            intro ops
            induction ops with
            | nil => intros; trivial
            | cons op ops ih =>
              intro R R' hR h
              refine ⟨?_, ?_⟩
              · cases op <;> first | trivial | (have := h.1; simp only at this ⊢; omega)
              · rcases h.2 with h | h
                · exact Or.inl h
                · exact Or.inr (ih R R' hR h)
          induction ops with
          | nil => exact ⟨0, trivial⟩
          | cons op ops ih =>
            obtain ⟨R, hR⟩ := ih
            cases op with
            | nonTerminal m =>
              refine ⟨R + rank m (byteAt src j) + 1, ?_, Or.inr (mono ops R _ (by omega) hR)⟩
              simp only; omega
            | _ => exact ⟨R, trivial, Or.inr hR⟩
        obtain ⟨R, hR⟩ := this
        rcases Nat.lt_or_ge (src.length - j) rem with h | h
        · exact IHrem (src.length - j) h R ops j hpo (Nat.le_refl _) hR
        · omega
      induction ops with
      | nil => intro i _ _ _; exact Or.inl ⟨i, [], .nil i⟩
      | cons op ops ihops =>
        intro i hpo hrem hrb
        have hpo' : ∀ op ∈ ops, op.Public := fun x hx => hpo x (List.mem_cons_of_mem _ hx)
        -- behind the end: nothing was consumed that matters
        have past : ∀ j, src.length ≤ i → i ≤ j → ¬ SureOp Sure 0 op →
            (∃ k cs, Derives tbl src ops j k cs) ∨ (∃ k e, FailsAt tbl names src ops j k e) := by
          intro j hi hij hns
          rw [byteAt_ge hi] at hrb
          refine ihops j hpo' (by omega) ?_
          rw [byteAt_ge (by omega)]
          exact hrb.2.resolve_left hns
        cases op with
        | terminal s =>
          by_cases hl : LitAt src s i
          · have rest : (∃ j cs, Derives tbl src ops (i + s.length) j cs) ∨
                (∃ k e, FailsAt tbl names src ops (i + s.length) k e) := by
              by_cases hs : s = []
              · subst hs
                rcases hrb.2 with h | h
                · simp [SureOp] at h
                · exact ihops i hpo' hrem h
              · have hlen : s.length ≠ 0 := by simpa using hs
                rcases Nat.lt_or_ge i src.length with hi | hi
                · exact later ops i _ hpo' (by omega) hi hrem
                · exact past _ hi (by omega) (fun hso =>
                    sure_not_past hsure (.lit hl (.nil _)) hi ⟨_, List.mem_cons_self, hso⟩)
            rcases rest with ⟨j, cs, hd⟩ | ⟨k, e, hf⟩
            · exact Or.inl ⟨j, _, .lit hl hd⟩
            · exact Or.inr ⟨k, e, .afterLit hl hf⟩
          · -- first mismatch
            right
            obtain ⟨k, c, h1, h2, h3⟩ := first_mismatch s i hl
            exact ⟨_, _, .lit h1 h2 h3⟩
        | nonTerminal n =>
          cases hb : bodyFor tbl n (byteAt src i) with
          | none => exact Or.inr ⟨_, _, .noBody hb⟩
          | some body =>
            have hlt : rank n (byteAt src i) < r := hrb.1
            rcases IHr (rank n (byteAt src i)) hlt body i (hbp hb) hrem
              (hrank n _ body hb) with ⟨j, cs, hd⟩ | ⟨k, e, hf⟩
            · have rest : (∃ k ds, Derives tbl src ops j k ds) ∨
                  (∃ k e, FailsAt tbl names src ops j k e) := by
                have hle := hd.le
                rcases Nat.lt_or_ge i j with hij | hij
                · rcases Nat.lt_or_ge i src.length with hi | hi
                  · exact later ops i j hpo' hij hi hrem
                  · exact past j hi hle (fun hso =>
                      sure_not_past hsure (.nt hb hd (.nil _)) hi ⟨_, List.mem_cons_self, hso⟩)
                · have : i = j := by omega
                  subst this
                  rcases hrb.2 with h | h
                  · have := sure_consumes hsure hd (hsure n _ body h hb)
                    omega
                  · exact ihops i hpo' hrem h
              rcases rest with ⟨k, ds, hd'⟩ | ⟨k, e, hf⟩
              · exact Or.inl ⟨k, _, .nt hb hd hd'⟩
              · exact Or.inr ⟨k, e, .afterNt hb hd hf⟩
            · exact Or.inr ⟨k, e, .inside hb hf⟩
        | function _ _ _ => exact (hpo _ List.mem_cons_self).elim
        | eos => exact (hpo _ List.mem_cons_self).elim
        | char _ => exact (hpo _ List.mem_cons_self).elim
        | nil => exact (hpo _ List.mem_cons_self).elim


/-! ## Bounds for literals that do not begin with NUL -/

/-- No literal in the list begins with NUL. -/
def OpsStartFree (ops : List ParserOp) : Prop := ∀ s, ParserOp.terminal s ∈ ops → s.head? ≠ some 0

theorem OpsNulFree.start {ops : List ParserOp} (h : OpsNulFree ops) : OpsStartFree ops := by
  intro s hs he
  exact h s hs (List.mem_of_mem_head? he)

theorem Table.NulFree.start (h : Table.NulFree tbl) : Table.NulStartFree tbl :=
  fun n row b ops h1 h2 => OpsNulFree.start (h n row b ops h1 h2)

theorem bodyFor_startFree (h : Table.NulStartFree tbl) {n : Int} {b : UInt8} {body : List ParserOp}
    (hb : bodyFor tbl n b = some body) : OpsStartFree body := by
  unfold bodyFor at hb
  split at hb
  · cases hr : tbl.get n with
    | none => simp [hr] at hb
    | some row =>
      simp only [hr, Option.bind_some] at hb
      exact h n row b body hr hb
  · split at hb
    · split at hb
      · cases hb; intro s hs; simp at hs; subst hs; decide
      · split at hb
        · cases hb
          intro s hs
          simp only [List.mem_cons, ParserOp.terminal.injEq, List.not_mem_nil, or_false] at hs
          rcases hs with rfl | rfl <;> decide
        · cases hb
    · cases hb

theorem litAt_inside {s : Str} {i : Nat} (h : LitAt src s i) (h0 : s.head? ≠ some 0) (hs : s ≠ []) :
    i < src.length := by
  cases s with
  | nil => exact absurd rfl hs
  | cons c s =>
    have := h 0 (by simp)
    rcases Nat.lt_or_ge i src.length with hlt | hge
    · exact hlt
    · rw [byteAt_ge (by omega)] at this
      exact absurd (by simpa using this) h0

theorem Derives.bound_start (hnf : Table.NulStartFree tbl) {B : Nat}
    (hB : ∀ n b body, bodyFor tbl n b = some body → ∀ s, ParserOp.terminal s ∈ body → s.length ≤ B)
    {ops : List ParserOp} {i j : Nat} {cs : List Node} (h : Derives tbl src ops i j cs) (ho : OpsStartFree ops)
    (hl : ∀ s, ParserOp.terminal s ∈ ops → s.length ≤ B) (hi : i ≤ src.length + B) : j ≤ src.length + B := by
  induction h with
  | nil => exact hi
  | @lit s ops i j cs hlit hd ih =>
    refine ih (fun s hs => ho s (List.mem_cons_of_mem _ hs)) (fun s hs => hl s (List.mem_cons_of_mem _ hs)) ?_
    by_cases hs : s = []
    · subst hs; exact hi
    · have := litAt_inside hlit (ho _ List.mem_cons_self) hs
      have := hl _ List.mem_cons_self
      omega
  | nt hb hd1 hd2 ih1 ih2 =>
    exact ih2 (fun s hs => ho s (List.mem_cons_of_mem _ hs)) (fun s hs => hl s (List.mem_cons_of_mem _ hs))
      (ih1 (bodyFor_startFree hnf hb) (hB _ _ _ hb) hi)

theorem FailsAt.bound_start (hnf : Table.NulStartFree tbl) {B : Nat}
    (hB : ∀ n b body, bodyFor tbl n b = some body → ∀ s, ParserOp.terminal s ∈ body → s.length ≤ B)
    {ops : List ParserOp} {i k : Nat} {e : PErr} (h : FailsAt tbl names src ops i k e) (ho : OpsStartFree ops)
    (hl : ∀ s, ParserOp.terminal s ∈ ops → s.length ≤ B) (hi : i ≤ src.length + B) : k ≤ src.length + B := by
  induction h with
  | @lit s ops i k c h1 h2 h3 =>
    have hk : k < s.length := (List.getElem?_eq_some_iff.1 h2).1
    have hs := ho s List.mem_cons_self
    have := hl s List.mem_cons_self
    by_cases hk0 : k = 0
    · omega
    · have : i < src.length := by
        refine litAt_inside h1 ?_ ?_
        · cases s with
          | nil => simp at hk
          | cons c s => cases k with
            | zero => exact absurd rfl hk0
            | succ k => simpa using hs
        · intro he
          have := congrArg List.length he
          simp at this
          rcases this with h | h
          · exact hk0 h
          · subst h; simp at hk
      omega
  | @afterLit s ops i k e hlit hf ih =>
    refine ih (fun s hs => ho s (List.mem_cons_of_mem _ hs)) (fun s hs => hl s (List.mem_cons_of_mem _ hs)) ?_
    by_cases hs : s = []
    · subst hs; exact hi
    · have := litAt_inside hlit (ho _ List.mem_cons_self) hs
      have := hl _ List.mem_cons_self
      omega
  | noBody => exact hi
  | inside hb hf ih => exact ih (bodyFor_startFree hnf hb) (hB _ _ _ hb) hi
  | afterNt hb hd hf ih =>
    exact ih (fun s hs => ho s (List.mem_cons_of_mem _ hs)) (fun s hs => hl s (List.mem_cons_of_mem _ hs))
      (hd.bound_start hnf hB (bodyFor_startFree hnf hb) (hB _ _ _ hb) hi)

end LL1
