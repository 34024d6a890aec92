import Verif.Proofs.Language
import Verif.Spec.Predictive

/-!
# Generated parsers find exactly the predictive derivations
-/

namespace LL1

theorem ahead_append (u w : Str) (c : UInt8) : ahead (u ++ w) c = ahead u (ahead w c) := by
  cases u <;> rfl

theorem ahead_slice {src : Str} {i j : Nat} (hij : i ≤ j) (hj : j ≤ src.length) :
    ahead (slice src i j) (byteAt src j) = byteAt src i := by
  rcases Nat.lt_or_ge i j with h | h
  · have hi : i < src.length := by omega
    have : slice src i j = src[i] :: slice src (i + 1) j := by
      unfold slice
      rw [List.drop_eq_getElem_cons hi, show j - i = (j - (i + 1)) + 1 by omega, List.take_succ_cons]
    rw [this]
    simp [ahead, byteAt, hi]
  · have : i = j := by omega
    subst this
    rw [slice_self]; rfl

/-- The cell, when FIRST sets are disjoint: exactly one alternative, or nothing for a vanishing rule. -/
theorem cell_predictive {g : Grammar} {tbl : Table} (h : TG.TableOk g tbl) (hd : FirstDisjoint g) {i : Nat}
    {b : UInt8} {body : List ParserOp} (hi : i < g.rules.length) (hb : bodyFor tbl i b = some body) :
    (¬ RuleFirst g i b ∧ RuleNullable g i ∧ NextFollow g i b ∧ body = []) ∨
    ∃ alt, g.Alt i alt ∧ First g alt.symbols b ∧ AllPairs (OpOf g) alt.symbols body := by
  rcases cell_alt h hd hi hb with ⟨h1, h2, h3⟩ | h'
  · left
    obtain ⟨r, hr⟩ : ∃ r, g.rules[i]? = some r := ⟨_, List.getElem?_eq_getElem hi⟩
    have : ¬ bodyFor tbl i b = none := by rw [hb]; simp
    rw [(h.cell hr b).1, not_not] at this
    rcases this with h4 | h4
    · exact (h1 h4).elim
    · exact ⟨h1, h2, h4.2, h3⟩
  · exact .inr h'

theorem predictive_of_derives {g : Grammar} {tbl : Table} (h : TG.TableOk g tbl) (hd : FirstDisjoint g)
    (hnf : tbl.NulFree) {src : Str} {ops : List ParserOp} {i j : Nat} {cs : List Node}
    (hD : Derives tbl src ops i j cs) : ∀ syms, AllPairs (OpOf g) syms ops → OpsNulFree ops →
      i ≤ src.length → Predictive g syms (slice src i j) (byteAt src j) := by
  induction hD with
  | nil i =>
    intro syms hs _ _
    cases hs
    rw [slice_self]; exact .nil
  | @lit s ops i j cs hl hD ih =>
    intro syms hs ho hi
    cases hs with
    | @cons x _ xs _ hx hs =>
      have hb := litAt_bound hl (ho s List.mem_cons_self) hi
      have := ih xs hs (fun s hs => ho s (List.mem_cons_of_mem _ hs)) hb
      cases x with
      | terminal t =>
        cases (hx : _ = _)
        rw [← slice_append src (Nat.le_add_right i s.length) hD.le, litAt_slice hl hb]
        exact .terminal this
      | nothing => exact (hx : False).elim
      | nonTerminal n => obtain ⟨k, _, h⟩ := hx; cases h
  | @nt n body ops i j k cs ds hb hD1 hD2 ih1 ih2 =>
    intro syms hs ho hi
    cases hs with
    | @cons x _ xs _ hx hs =>
      have hj := hD1.bound hnf (bodyFor_nulFree hnf hb) hi
      have hop : OpsNulFree ops := fun s hs => ho s (List.mem_cons_of_mem _ hs)
      have hk := hD2.bound hnf hop hj
      have h2 := ih2 xs hs hop hj
      have ea : ahead (slice src j k) (byteAt src k) = byteAt src j := ahead_slice hD2.le hk
      cases x with
      | terminal t => cases (hx : _ = _)
      | nothing => exact (hx : False).elim
      | nonTerminal name =>
        obtain ⟨m, hr, h⟩ := hx
        cases h
        rw [← slice_append src hD1.le hD2.le]
        rcases cell_predictive h hd hr.lt hb with ⟨hf, hn, hw, rfl⟩ | ⟨alt, ha, hf, hp⟩
        · cases hD1
          rw [slice_self, List.nil_append]
          exact .vanish hr hn (by rw [ea]; exact hf) (by rw [ea]; exact hw) h2
        · refine .use hr ha ?_ ?_ h2
          · rw [ahead_append, ea, ahead_slice hD1.le hj]; exact hf
          · rw [ea]; exact ih1 alt.symbols hp (bodyFor_nulFree hnf hb) hi

theorem byteAt_append_ahead (p w s : Str) :
    byteAt (p ++ (w ++ s)) p.length = ahead w (byteAt (p ++ (w ++ s)) (p.length + w.length)) := by
  cases w with
  | nil => rfl
  | cons b w => rw [List.cons_append, byteAt_append_cons]; rfl

/-- Using an alternative. -/
theorem use_body {g : Grammar} {tbl : Table} (h : TG.TableOk g tbl) (hd : FirstDisjoint g) {i : Nat}
    {alt : Sequence} (ha : g.Alt i alt) {b : UInt8} (hf : First g alt.symbols b) :
    ∃ body, bodyFor tbl i b = some body ∧ AllPairs (OpOf g) alt.symbols body := by
  obtain ⟨r, hr, _⟩ := id ha
  cases hb : bodyFor tbl i b with
  | none => exact ((h.cell hr b).1.1 hb (.inl ⟨alt, ha, hf⟩)).elim
  | some body =>
    refine ⟨body, rfl, ?_⟩
    rcases cell_predictive h hd ha.lt hb with ⟨hnf, _⟩ | ⟨alt', ha', hf', hp⟩
    · exact (hnf ⟨alt, ha, hf⟩).elim
    · cases firstDisjoint_alt hd ha' ha hf' hf
      exact hp

/-- Letting a rule vanish. -/
theorem vanish_body {g : Grammar} {tbl : Table} (h : TG.TableOk g tbl) (hd : FirstDisjoint g) {i : Nat}
    {b : UInt8} (hn : RuleNullable g i) (hf : ¬ RuleFirst g i b) (hw : NextFollow g i b) :
    bodyFor tbl i b = some [] := by
  obtain ⟨alt, ha, _⟩ := id hn
  obtain ⟨r, hr, _⟩ := id ha
  cases hb : bodyFor tbl i b with
  | none => exact ((h.cell hr b).1.1 hb (.inr ⟨hn, hw⟩)).elim
  | some body =>
    rcases cell_predictive h hd ha.lt hb with ⟨_, _, _, rfl⟩ | ⟨alt', ha', hf', _⟩
    · rfl
    · exact (hf ⟨alt', ha', hf'⟩).elim

theorem derives_of_predictive {g : Grammar} {tbl : Table} (h : TG.TableOk g tbl) (hd : FirstDisjoint g)
    {syms : List Symbol} {w : Str} {c : UInt8} (hG : Predictive g syms w c) :
    ∀ (p s : Str) (ops : List ParserOp), AllPairs (OpOf g) syms ops →
      c = byteAt (p ++ (w ++ s)) (p.length + w.length) →
      ∃ cs, Derives tbl (p ++ (w ++ s)) ops p.length (p.length + w.length) cs := by
  induction hG with
  | nil =>
    intro p s ops ho _
    cases ho
    exact ⟨[], .nil _⟩
  | @terminal t rest w c _ ih =>
    intro p s ops ho hc
    cases ho with
    | @cons _ op _ ops hx ho =>
      cases (hx : _ = _)
      have e1 : p ++ (t ++ w ++ s) = (p ++ t) ++ (w ++ s) := by simp
      have e2 : p.length + (t ++ w).length = (p ++ t).length + w.length := by simp; omega
      rw [e1, e2] at hc
      obtain ⟨cs, hD⟩ := ih (p ++ t) s ops ho hc
      rw [e1, e2]
      refine ⟨_, .lit ?_ (by rw [List.length_append] at hD ⊢; exact hD)⟩
      rw [List.append_assoc]; exact litAt_append p t (w ++ s)
  | @use name i alt rest u w c hr ha hf _ _ ih1 ih2 =>
    intro p s ops ho hc
    cases ho with
    | @cons _ op _ ops hx ho =>
      obtain ⟨i', hr', h'⟩ := hx
      cases h'
      have : i' = i := hr'.det hr
      subst this
      have e1 : p ++ (u ++ w ++ s) = (p ++ u) ++ (w ++ s) := by simp
      have e1' : p ++ (u ++ w ++ s) = p ++ (u ++ (w ++ s)) := by simp
      have e2 : p.length + (u ++ w).length = (p ++ u).length + w.length := by simp; omega
      have hb := byteAt_append_ahead p (u ++ w) s
      rw [← hc] at hb
      have hj := byteAt_append_ahead (p ++ u) w s
      rw [← e1, ← e2, ← hc] at hj
      rw [← hb] at hf
      obtain ⟨body, hbody, hp⟩ := use_body h hd ha hf
      rw [e2, e1] at hc
      obtain ⟨ds, hD2⟩ := ih2 (p ++ u) s ops ho hc
      obtain ⟨cs, hD1⟩ := ih1 p (w ++ s) body hp (by rw [← e1', ← List.length_append, hj])
      rw [← e1, List.length_append] at hD2
      rw [← e1'] at hD1
      rw [e2, List.length_append]
      exact ⟨_, .nt hbody hD1 hD2⟩
  | @vanish name i rest w c hr hn hf hw _ ih =>
    intro p s ops ho hc
    cases ho with
    | @cons _ op _ ops hx ho =>
      obtain ⟨i', hr', h'⟩ := hx
      cases h'
      have : i' = i := hr'.det hr
      subst this
      have hb := byteAt_append_ahead p w s
      rw [← hc] at hb
      rw [← hb] at hf hw
      obtain ⟨ds, hD2⟩ := ih p s ops ho hc
      exact ⟨_, .nt (vanish_body h hd hn hf hw) (.nil _) hD2⟩

/-- For the start rule. -/
theorem derives_iff_predictiveRule {g : Grammar} {tbl : Table} (h : TG.TableOk g tbl) (hd : FirstDisjoint g)
    (hnf : tbl.NulFree) (h0 : 0 < g.rules.length) {src : Str} :
    (∃ t, Derives tbl src [.nonTerminal 0] 0 src.length [t]) ↔ PredictiveRule g 0 src 0 := by
  have hz : byteAt src src.length = 0 := by simp [byteAt]
  constructor
  · rintro ⟨t, hD⟩
    cases hD with
    | nt hb hD1 hD2 =>
      cases hD2
      have hs : slice src 0 src.length = src := by simp [slice]
      have ha : ahead src 0 = byteAt src 0 := by
        have := ahead_slice (src := src) (Nat.zero_le _) (Nat.le_refl _)
        rwa [hs, hz] at this
      rcases cell_predictive h hd h0 hb with ⟨hf, hn, hw, rfl⟩ | ⟨alt, hal, hf, hp⟩
      · right
        have := hD1.nil_inv.1
        have hsrc : src = [] := List.length_eq_zero_iff.1 this.symm
        subst hsrc
        exact ⟨rfl, hn, hf, hw⟩
      · left
        have := predictive_of_derives h hd hnf hD1 _ hp (bodyFor_nulFree hnf hb) (Nat.zero_le _)
        rw [hs, hz] at this
        exact ⟨alt, hal, by rw [ha]; exact hf, this⟩
  · rintro (⟨alt, hal, hf, hP⟩ | ⟨rfl, hn, hf, hw⟩)
    · have hb := byteAt_append_ahead [] src []
      simp only [List.append_nil, List.nil_append, List.length_nil, Nat.zero_add, hz] at hb
      rw [← hb] at hf
      obtain ⟨body, hbody, hp⟩ := use_body h hd hal hf
      obtain ⟨cs, hD⟩ := derives_of_predictive h hd hP [] [] body hp (by simp [hz])
      simp only [List.append_nil, List.nil_append, List.length_nil, Nat.zero_add] at hD
      exact ⟨_, .nt hbody hD (.nil _)⟩
    · exact ⟨_, .nt (vanish_body h hd hn hf hw) (.nil _) (.nil _)⟩

end LL1
