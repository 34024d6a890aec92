import Verif.Spec.Vanish
import Verif.Proofs.DTree
import Verif.Proofs.Predictive

/-!
# Accepted sentences of LL(1) grammars, by what their derivations let vanish
-/

namespace LL1

variable {g : Grammar}

theorem byteAt_ahead (p w s : Str) :
    byteAt (p ++ (w ++ s)) p.length = ahead w (byteAt (p ++ (w ++ s)) (p.length + w.length)) := by
  cases w with
  | nil => simp [ahead]
  | cons b w => rw [List.cons_append, byteAt_append_cons]; rfl

/-- Expanding one rule. -/
theorem rule_tree' {tbl : Table} (h : TG.TableOk g tbl) (hll : IsLL1 g) {i : Nat}
    {alt : Sequence} (ha : g.Alt i alt) {cs : List DTree} (hu : DTrees g alt.symbols cs) (p s : Str)
    (hfol : Follow g i (byteAt (p ++ (DTree.yields cs ++ s)) (p.length + (DTree.yields cs).length)))
    (hcov : DTree.yields cs = [] → bodyFor tbl i (byteAt (p ++ (DTree.yields cs ++ s)) p.length) ≠ none)
    (ih : DTree.yields cs ≠ [] → ∀ ops, AllPairs (OpOf g) alt.symbols ops →
      Derives tbl (p ++ (DTree.yields cs ++ s)) ops p.length (p.length + (DTree.yields cs).length)
        (DTree.toNodes p.length cs)) :
    ∃ body ds, bodyFor tbl i (byteAt (p ++ (DTree.yields cs ++ s)) p.length) = some body ∧
      Derives tbl (p ++ (DTree.yields cs ++ s)) body p.length (p.length + (DTree.yields cs).length) ds ∧
      (if body = [] then [nothingNode p.length] else ds) =
        (if DTree.yields cs = [] then [nothingNode p.length] else DTree.toNodes p.length cs) := by
  have hu := hu.gen
  generalize hw : DTree.yields cs = u at *
  cases hb : bodyFor tbl i (byteAt (p ++ (u ++ s)) p.length) with
  | none =>
    cases u with
    | nil => exact (hcov rfl hb).elim
    | cons b u =>
      rw [List.cons_append, byteAt_append_cons] at hb
      obtain ⟨r, hr, _⟩ := id ha
      exact ((h.cell hr b).1.1 hb (.inl ⟨alt, ha, first_of_gen hu⟩)).elim
  | some body =>
    refine ⟨body, ?_⟩
    rcases cell_alt h hll.1 ha.lt hb with ⟨hnf, _, rfl⟩ | ⟨alt', ha', hf', hp⟩
    · cases u with
      | nil => exact ⟨[], rfl, .nil _, rfl⟩
      | cons b u =>
        rw [List.cons_append, byteAt_append_cons] at hnf
        exact (hnf ⟨alt, ha, first_of_gen hu⟩).elim
    · cases u with
      | nil => exact (hll.2.2 i _ ⟨alt, ha, nullable_iff_gen.2 hu⟩ ⟨alt', ha', hf'⟩ hfol).elim
      | cons b u =>
        have : byteAt (p ++ (b :: u ++ s)) p.length = b := by
          rw [List.cons_append, byteAt_append_cons]
        rw [this] at hf'
        cases firstDisjoint_alt hll.1 ha' ha hf' (first_of_gen hu)
        have hD := ih (by simp) body hp
        refine ⟨_, rfl, hD, ?_⟩
        have hbody : body ≠ [] := by
          rintro rfl
          have := hD.nil_inv
          simp at this
        rw [if_neg hbody, if_neg (by simp)]

/-- The trees `ts` are what the parser builds, or it gets stuck where some rule vanishes. -/
theorem derives_or_fails {tbl : Table} (names : Option Names) (h : TG.TableOk g tbl) (hll : IsLL1 g)
    {syms : List Symbol} {ts : List DTree} (hG : DTrees g syms ts) :
    ∀ (p s : Str) (ops : List ParserOp), AllPairs (OpOf g) syms ops →
      Ctx g syms (byteAt (p ++ (DTree.yields ts ++ s)) (p.length + (DTree.yields ts).length)) →
      Derives tbl (p ++ (DTree.yields ts ++ s)) ops p.length (p.length + (DTree.yields ts).length)
        (DTree.toNodes p.length ts) ∨
      ∃ k i b, Vanishes i b ts (byteAt (p ++ (DTree.yields ts ++ s)) (p.length + (DTree.yields ts).length)) ∧
        bodyFor tbl (i : Nat) b = none ∧
        FailsAt tbl names (p ++ (DTree.yields ts ++ s)) ops p.length k (whyNot tbl names (i : Nat) b) := by
  induction hG with
  | nil =>
    intro p s ops ho _
    cases ho
    exact .inl (.nil _)
  | @terminal t rest ts _ ih =>
    intro p s ops ho hc
    cases ho with
    | @cons _ op _ ops hx ho =>
      cases (hx : _ = _)
      simp only [DTree.yields, DTree.yield, DTree.toNodes, DTree.toNode] at hc ⊢
      generalize DTree.yields ts = w at *
      have e1 : p ++ (t ++ w ++ s) = (p ++ t) ++ (w ++ s) := by simp
      have e2 : p.length + (t ++ w).length = (p ++ t).length + w.length := by simp; omega
      rw [e1, e2] at hc
      rw [e1, e2]
      have hl : LitAt (p ++ t ++ (w ++ s)) t p.length := by
        rw [List.append_assoc]; exact litAt_append p t (w ++ s)
      rcases ih (p ++ t) s ops ho hc.tail with hD | ⟨k, i, b, hv, hb, hF⟩
      · exact .inl (.lit hl (by rw [List.length_append] at hD ⊢; exact hD))
      · exact .inr ⟨k, i, b, .later hv, hb, .afterLit hl (by rw [List.length_append] at hF; exact hF)⟩
  | nothing _ _ =>
    intro p s ops ho _
    cases ho with
    | cons hx _ => exact (hx : False).elim
  | @nonTerminal name i k r alt rest cs ts hr hi hk hu hw ih1 ih2 =>
    intro p s ops ho hc
    have ha : g.Alt i alt := ⟨r, hi, List.mem_of_getElem? hk⟩
    cases ho with
    | @cons _ op _ ops hx ho =>
      obtain ⟨i', hr', h'⟩ := hx
      cases h'
      have : i' = i := hr'.det hr
      subst this
      simp only [DTree.yields, DTree.yield, DTree.toNodes, DTree.toNode] at hc ⊢
      have hwg := hw.gen
      have e1 : ∀ u w : Str, p ++ (u ++ w ++ s) = (p ++ u) ++ (w ++ s) := by simp
      have e1' : ∀ u w : Str, p ++ (u ++ w ++ s) = p ++ (u ++ (w ++ s)) := by simp
      have e2 : ∀ u w : Str, p.length + (u ++ w).length = (p ++ u).length + w.length := by intro u w; simp; omega
      have hnext : byteAt (p ++ (DTree.yields cs ++ (DTree.yields ts ++ s))) (p.length + (DTree.yields cs).length) =
          ahead (DTree.yields ts) (byteAt (p ++ (DTree.yields cs ++ DTree.yields ts ++ s))
            (p.length + (DTree.yields cs ++ DTree.yields ts).length)) := by
        rw [← e1', e1, e2, ← List.length_append]
        exact byteAt_ahead _ _ _
      have hfol : Follow g i' (byteAt (p ++ (DTree.yields cs ++ (DTree.yields ts ++ s)))
          (p.length + (DTree.yields cs).length)) := by
        rw [hnext]
        refine hc [] name rest i' _ rfl hr ?_
        cases hwe : DTree.yields ts with
        | nil => right; rw [hwe] at hwg; exact ⟨nullable_iff_gen.2 hwg, rfl⟩
        | cons b w => left; rw [hwe] at hwg; exact first_of_gen hwg
      -- the rule vanishes and has no cell
      by_cases hnone : DTree.yields cs = [] ∧
          bodyFor tbl (i' : Nat) (byteAt (p ++ (DTree.yields cs ++ (DTree.yields ts ++ s))) p.length) = none
      · refine .inr ⟨p.length, i', _, .here hnone.1 rfl, ?_, ?_⟩
        · rw [← hnext, hnone.1]
          simpa [hnone.1] using hnone.2
        · rw [← hnext]
          have := FailsAt.noBody (names := names) (ops := ops) hnone.2
          rw [e1']
          rw [hnone.1] at this ⊢
          simpa using this
      -- the parser gets stuck below the rule
      by_cases hbelow : ∃ body k i b, bodyFor tbl (i' : Nat)
            (byteAt (p ++ (DTree.yields cs ++ (DTree.yields ts ++ s))) p.length) = some body ∧
          DTree.yields cs ≠ [] ∧
          Vanishes i b cs (byteAt (p ++ (DTree.yields cs ++ (DTree.yields ts ++ s)))
            (p.length + (DTree.yields cs).length)) ∧ bodyFor tbl (i : Nat) b = none ∧
          FailsAt tbl names (p ++ (DTree.yields cs ++ (DTree.yields ts ++ s))) body p.length k (whyNot tbl names (i : Nat) b)
      · obtain ⟨body, k, i, b, hb, hne, hv, hn, hF⟩ := hbelow
        refine .inr ⟨k, i, b, .inside hne (by rw [← hnext]; exact hv), hn, ?_⟩
        rw [e1']
        exact .inside hb hF
      obtain ⟨body, ds, hb, hD1, heq⟩ := rule_tree' h hll ha hu p (DTree.yields ts ++ s) hfol
        (fun he hn => hnone ⟨he, hn⟩)
        (fun hne ops ho => by
          rcases ih1 p (DTree.yields ts ++ s) ops ho (Ctx.alt ha hfol) with hD | ⟨k, i, b, hv, hn, hF⟩
          · exact hD
          · obtain ⟨body, hb, hp⟩ : ∃ body, bodyFor tbl (i' : Nat)
                (byteAt (p ++ (DTree.yields cs ++ (DTree.yields ts ++ s))) p.length) = some body ∧
                AllPairs (OpOf g) alt.symbols body := by
              refine use_body h hll.1 ha ?_
              have hug := hu.gen
              cases hwe : DTree.yields cs with
              | nil => exact (hne hwe).elim
              | cons b w =>
                rw [hwe] at hug
                rw [List.cons_append, byteAt_append_cons]
                exact first_of_gen hug
            cases TG.opsOf_det ho hp
            exact (hbelow ⟨_, k, i, b, hb, hne, hv, hn, hF⟩).elim)
      rcases ih2 (p ++ DTree.yields cs) s ops ho (by rw [← e1, ← e2]; exact hc.tail) with hD2 | ⟨k, i, b, hv, hn, hF⟩
      · rw [← e1, List.length_append] at hD2
        rw [← e1'] at hb hD1
        rw [e2, List.length_append, ← heq]
        exact .inl (.nt hb hD1 hD2)
      · rw [← e1, ← e2] at hv
        rw [← e1, List.length_append] at hF
        rw [← e1'] at hb hD1
        exact .inr ⟨k, i, b, .later hv, hn, .afterNt hb hD1 hF⟩

/-- For the start rule. -/
theorem derives_or_fails_top {tbl : Table} (names : Option Names) (h : TG.TableOk g tbl) (hll : IsLL1 g)
    {w : Str} {t : DTree} (hG : IsDTree g 0 w t) :
    Derives tbl w [.nonTerminal 0] 0 w.length [t.toNode 0] ∨
    ∃ k i b, Vanishes i b [t] 0 ∧ bodyFor tbl (i : Nat) b = none ∧
      FailsAt tbl names w [.nonTerminal 0] 0 k (whyNot tbl names (i : Nat) b) := by
  obtain ⟨r, k, alt, cs, hi, hk, hu, rfl, rfl⟩ := hG
  have ha : g.Alt 0 alt := ⟨r, hi, List.mem_of_getElem? hk⟩
  simp only [DTree.yield, DTree.toNode]
  have h0 : byteAt (DTree.yields cs) (DTree.yields cs).length = 0 := by simp [byteAt]
  have h0' : byteAt ([] ++ (DTree.yields cs ++ [])) (([] : Str).length + (DTree.yields cs).length) = 0 := by
    simp only [List.nil_append, List.append_nil, List.length_nil, Nat.zero_add, h0]
  have hfol : Follow g 0 (byteAt ([] ++ (DTree.yields cs ++ [])) (([] : Str).length + (DTree.yields cs).length)) := by
    rw [h0']
    exact .start
  by_cases hnone : DTree.yields cs = [] ∧
      bodyFor tbl (0 : Nat) (byteAt ([] ++ (DTree.yields cs ++ [])) ([] : Str).length) = none
  · refine .inr ⟨0, 0, 0, .here hnone.1 rfl, ?_, ?_⟩
    · have := hnone.2
      rwa [hnone.1] at this
    · have := FailsAt.noBody (names := names) (ops := []) hnone.2
      rw [hnone.1] at this ⊢
      exact this
  by_cases hbelow : ∃ body k i b, bodyFor tbl (0 : Nat)
        (byteAt ([] ++ (DTree.yields cs ++ [])) ([] : Str).length) = some body ∧
      DTree.yields cs ≠ [] ∧ Vanishes i b cs 0 ∧ bodyFor tbl (i : Nat) b = none ∧
      FailsAt tbl names ([] ++ (DTree.yields cs ++ [])) body 0 k (whyNot tbl names (i : Nat) b)
  · obtain ⟨body, k, i, b, hb, hne, hv, hn, hF⟩ := hbelow
    refine .inr ⟨k, i, b, .inside hne hv, hn, ?_⟩
    simp only [List.nil_append, List.append_nil, List.length_nil] at hb hF
    exact .inside hb hF
  obtain ⟨body, ds, hb, hD, heq⟩ := rule_tree' h hll ha hu [] [] hfol
    (fun he hn => hnone ⟨he, hn⟩)
    (fun hne ops ho => by
      rcases derives_or_fails names h hll hu [] [] ops ho (Ctx.alt ha hfol) with hD | ⟨k, i, b, hv, hn, hF⟩
      · exact hD
      · obtain ⟨body, hb, hp⟩ : ∃ body, bodyFor tbl (0 : Nat)
            (byteAt ([] ++ (DTree.yields cs ++ [])) ([] : Str).length) = some body ∧
            AllPairs (OpOf g) alt.symbols body := by
          refine use_body h hll.1 ha ?_
          have hug := hu.gen
          cases hwe : DTree.yields cs with
          | nil => exact (hne hwe).elim
          | cons b w =>
            rw [hwe] at hug
            rw [List.cons_append, byteAt_append_cons]
            exact first_of_gen hug
        cases TG.opsOf_det ho hp
        rw [h0'] at hv
        exact (hbelow ⟨_, k, i, b, hb, hne, hv, hn, hF⟩).elim)
  simp only [List.nil_append, List.append_nil, List.length_nil, Nat.zero_add] at hb hD heq
  rw [← heq, Nat.zero_add]
  exact .inl (.nt hb hD (.nil _))

/-- The parser's derivation for a derivation tree of the start rule. -/
theorem derives_of_dtree' {tbl : Table} (h : TG.TableOk g tbl) (hll : IsLL1 g)
    {w : Str} {t : DTree} (hG : IsDTree g 0 w t) (hv : ∀ i b, Vanishes i b [t] 0 → bodyFor tbl (i : Nat) b ≠ none) :
    Derives tbl w [.nonTerminal 0] 0 w.length [t.toNode 0] := by
  rcases derives_or_fails_top none h hll hG with hD | ⟨_, i, b, hv', hn, _⟩
  · exact hD
  · exact (hv i b hv' hn).elim

/-! ## The other direction -/

theorem Vanishes.nullable {i : Nat} {b c : UInt8} {ts : List DTree} (hv : Vanishes i b ts c) :
    ∀ {ys : List Symbol}, DTrees g ys ts → Ctx g ys c → RuleNullable g i ∧ Follow g i b := by
  induction hv with
  | @here k cs ts c he hb =>
    intro ys hD hc
    cases hD with
    | @nonTerminal name _ _ r alt rest _ _ hr hi hk h1 h2 =>
      refine ⟨⟨alt, ⟨r, hi, List.mem_of_getElem? hk⟩, nullable_iff_gen.2 (he ▸ h1.gen)⟩, ?_⟩
      refine hc [] name rest i b rfl hr ?_
      have := h2.gen
      subst hb
      cases hw : DTree.yields ts with
      | nil => right; rw [hw] at this; exact ⟨nullable_iff_gen.2 this, rfl⟩
      | cons d w => left; rw [hw] at this; exact first_of_gen this
  | @inside j k cs ts c he hv ih =>
    intro ys hD hc
    cases hD with
    | @nonTerminal name _ _ r alt rest _ _ hr hi hk h1 h2 =>
      refine ih h1 (.alt ⟨r, hi, List.mem_of_getElem? hk⟩ (hc [] name rest j _ rfl hr ?_))
      have := h2.gen
      cases hw : DTree.yields ts with
      | nil => right; rw [hw] at this; exact ⟨nullable_iff_gen.2 this, rfl⟩
      | cons d w => left; rw [hw] at this; exact first_of_gen this
  | later hv ih =>
    intro ys hD hc
    cases hD with
    | terminal h => exact ih h hc.tail
    | nothing h => exact ih h hc.tail
    | nonTerminal _ _ _ _ h => exact ih h hc.tail

theorem Ctx.ahead {name : Str} {rest : List Symbol} {i : Nat} {w : Str} {c : UInt8}
    (hc : Ctx g (.nonTerminal name :: rest) c) (hr : g.Refers name i) (hw : Gen g rest w) :
    Follow g i (ahead w c) := by
  refine hc [] name rest i _ rfl hr ?_
  cases w with
  | nil => exact .inr ⟨nullable_iff_gen.2 hw, rfl⟩
  | cons b w => exact .inl (first_of_gen hw)

theorem dtree_of_predictive (hll : IsLL1 g) {ys : List Symbol} {w : Str} {c : UInt8} (h : Predictive g ys w c) :
    Ctx g ys c →
    ∃ ts, DTrees g ys ts ∧ DTree.yields ts = w ∧ ∀ i b, Vanishes i b ts c → NextFollow g i b := by
  induction h with
  | nil => intro _; exact ⟨[], .nil, rfl, fun i b h => by cases h⟩
  | terminal _ ih =>
    intro hc
    obtain ⟨ts, hD, rfl, hv⟩ := ih hc.tail
    refine ⟨_, .terminal hD, by simp only [DTree.yields, DTree.yield], fun i b h => ?_⟩
    cases h with
    | later h => exact hv i b h
  | @use name i alt rest u w c hr ha hf _ _ ih1 ih2 =>
    intro hc
    obtain ⟨ts, hD, rfl, hv⟩ := ih2 hc.tail
    have hfol := hc.ahead hr hD.gen
    obtain ⟨cs, hD1, rfl, hv1⟩ := ih1 (.alt ha hfol)
    obtain ⟨r, hi, hm⟩ := id ha
    obtain ⟨k, hk⟩ := List.getElem?_of_mem hm
    refine ⟨_, .nonTerminal hr hi hk hD1 hD, by simp only [DTree.yields, DTree.yield], fun i b h => ?_⟩
    cases h with
    | here he hb =>
      rw [he] at hf
      exact (hll.2.2 _ _ ⟨alt, ha, nullable_iff_gen.2 (he ▸ hD1.gen)⟩ ⟨alt, ha, hf⟩ hfol).elim
    | inside _ h => exact hv1 i b h
    | later h => exact hv i b h
  | @vanish name i rest w c hr hn _ hnf _ ih =>
    intro hc
    obtain ⟨ts, hD, rfl, hv⟩ := ih hc.tail
    obtain ⟨alt, ha, hn⟩ := hn
    obtain ⟨r, hi, hm⟩ := id ha
    obtain ⟨k, hk⟩ := List.getElem?_of_mem hm
    obtain ⟨cs, hD1, he⟩ := dtrees_of_gen (nullable_iff_gen.1 hn)
    refine ⟨_, .nonTerminal hr hi hk hD1 hD, by simp only [DTree.yields, DTree.yield, he, List.nil_append], fun i b h => ?_⟩
    cases h with
    | here _ hb => exact hb ▸ hnf
    | inside hne _ => exact (hne he).elim
    | later h => exact hv i b h

/-- What a derivation the parser finds lets vanish is foreseen by the next-symbol rule. -/
theorem dtree_of_predictiveRule (hll : IsLL1 g) {w : Str} (h : PredictiveRule g 0 w 0) :
    ∃ d, IsDTree g 0 w d ∧ ∀ i b, Vanishes i b [d] 0 → NextFollow g i b := by
  rcases h with ⟨alt, ha, hf, hP⟩ | ⟨rfl, ⟨alt, ha, hn⟩, _, _⟩
  · obtain ⟨cs, hD, rfl, hv⟩ := dtree_of_predictive hll hP (.alt ha .start)
    obtain ⟨r, hi, hm⟩ := id ha
    obtain ⟨k, hk⟩ := List.getElem?_of_mem hm
    refine ⟨_, ⟨r, k, alt, cs, hi, hk, hD, rfl, by simp only [DTree.yield]⟩, fun i b h => ?_⟩
    cases h with
    | here _ hb => subst hb; exact .start
    | inside _ h => exact hv i b h
    | later h => cases h
  · obtain ⟨r, hi, hm⟩ := id ha
    obtain ⟨k, hk⟩ := List.getElem?_of_mem hm
    obtain ⟨cs, hD1, he⟩ := dtrees_of_gen (nullable_iff_gen.1 hn)
    refine ⟨_, ⟨r, k, alt, cs, hi, hk, hD1, rfl, by simp only [DTree.yield, he]⟩, fun i b h => ?_⟩
    cases h with
    | here _ hb => subst hb; exact .start
    | inside hne _ => exact (hne he).elim
    | later h => cases h

/-! ## Which rules and bytes occur -/

theorem DTree.yields_append (xs ys : List DTree) : DTree.yields (xs ++ ys) = DTree.yields xs ++ DTree.yields ys := by
  induction xs with
  | nil => simp [DTree.yields]
  | cons x xs ih => simp [DTree.yields, ih]

theorem DTrees.append {xs ys : List Symbol} {us vs : List DTree} (h : DTrees g xs us) (h' : DTrees g ys vs) :
    DTrees g (xs ++ ys) (us ++ vs) := by
  induction h with
  | nil => exact h'
  | terminal _ ih => exact .terminal ih
  | nothing _ ih => exact .nothing ih
  | nonTerminal hr hi hk h1 _ _ ih2 => exact .nonTerminal hr hi hk h1 ih2

theorem Vanishes.behind {i : Nat} {b c : UInt8} {ts : List DTree} (h : Vanishes i b ts c) :
    ∀ us : List DTree, Vanishes i b (us ++ ts) c
  | [] => h
  | _ :: us => .later (h.behind us)

theorem Vanishes.before {i : Nat} {b c : UInt8} {ts : List DTree} (h : Vanishes i b ts c) :
    ∀ {us : List DTree} {d : UInt8}, c = ahead (DTree.yields us) d → Vanishes i b (ts ++ us) d := by
  induction h with
  | here he hb =>
    intro us d hc
    rw [List.cons_append]
    refine .here he ?_
    rw [DTree.yields_append, ahead_append, ← hc, hb]
  | inside hne h ih =>
    intro us d hc
    rw [List.cons_append]
    refine .inside hne ?_
    rw [DTree.yields_append, ahead_append, ← hc]
    exact h
  | later h ih => intro us d hc; exact .later (ih hc)

theorem mustVanish_of_vanishes {i : Nat} {b c : UInt8} {ts : List DTree} (hv : Vanishes i b ts c) :
    ∀ {j : Nat} {alt : Sequence} {pre ys : List Symbol} {us : List DTree}, g.Alt j alt →
      alt.symbols = pre ++ ys → DTrees g pre us → DTrees g ys ts → Follow g j c →
      DTree.yields us ++ DTree.yields ts ≠ [] → MustVanish g i b := by
  induction hv with
  | @here k cs ts c he hb =>
    intro j alt pre ys us ha hs hu hD hf hne
    cases hD with
    | @nonTerminal name _ _ r alt' rest _ _ hr hi hk h1 h2 =>
      have hn : RuleNullable g i := ⟨alt', ⟨r, hi, List.mem_of_getElem? hk⟩, nullable_iff_gen.2 (he ▸ h1.gen)⟩
      have hg := h2.gen
      subst hb
      cases hw : DTree.yields ts with
      | cons d w => rw [hw] at hg; exact .first ha hs hr hn (first_of_gen hg)
      | nil =>
        rw [hw] at hg
        simp only [DTree.yields, DTree.yield, he, hw, List.append_nil] at hne
        have hgu := hu.gen
        cases hw' : DTree.yields us with
        | nil => exact (hne hw').elim
        | cons d w' =>
          rw [hw'] at hgu
          exact .last ha hs hr hn (first_of_gen hgu) (nullable_iff_gen.2 hg) hf
  | @inside j' k cs ts c he hv ih =>
    intro j alt pre ys us ha hs hu hD hf hne
    cases hD with
    | @nonTerminal name _ _ r alt' rest _ _ hr hi hk h1 h2 =>
      have hfol : Follow g j' (ahead (DTree.yields ts) c) := by
        have hg := h2.gen
        cases hw : DTree.yields ts with
        | cons d w => rw [hw] at hg; exact .first ha hs hr (first_of_gen hg)
        | nil => rw [hw] at hg; exact .last ha hs hr (nullable_iff_gen.2 hg) hf
      exact ih (alt := alt') (pre := []) (us := []) ⟨r, hi, List.mem_of_getElem? hk⟩ rfl .nil h1 hfol
        (by simpa [DTree.yields] using he)
  | @later t ts c hv ih =>
    intro j alt pre ys us ha hs hu hD hf hne
    have key : ∀ (x : Symbol) (rest : List Symbol), ys = x :: rest → DTrees g [x] [t] → DTrees g rest ts →
        MustVanish g i b := by
      intro x rest hys h1 h2
      subst hys
      refine ih (pre := pre ++ [x]) (us := us ++ [t]) ha (by simpa using hs) (hu.append h1) h2 hf ?_
      rw [DTree.yields_append]
      simpa [DTree.yields] using hne
    cases hD with
    | terminal h => exact key _ _ rfl (.terminal .nil) h
    | nothing h => exact key _ _ rfl (.nothing .nil) h
    | nonTerminal hr hi hk h1 h2 => exact key _ _ rfl (.nonTerminal hr hi hk h1 .nil) h2

/-- Trees for any symbols of an alternative. -/
theorem some_trees (hp : g.Productive) {j : Nat} {alt : Sequence} (ha : g.Alt j alt) {ys : List Symbol}
    (hs : ∀ x ∈ ys, x ∈ alt.symbols) : ∃ ts, DTrees g ys ts := by
  obtain ⟨w, hw⟩ := gen_of_productive ys (fun n hn => hp j alt n ha (hs _ hn))
  obtain ⟨ts, h, _⟩ := dtrees_of_gen hw
  exact ⟨ts, h⟩

theorem first_trees (hp : g.Productive) {j : Nat} {alt : Sequence} (ha : g.Alt j alt) {ys : List Symbol}
    (hs : ∀ x ∈ ys, x ∈ alt.symbols) {b : UInt8} (hf : First g ys b) :
    ∃ ts w, DTrees g ys ts ∧ DTree.yields ts = b :: w := by
  obtain ⟨w, hw⟩ := gen_of_first hp hf (fun n hn => hp j alt n ha (hs _ hn))
  obtain ⟨ts, h, he⟩ := dtrees_of_gen hw
  exact ⟨ts, w, h, he⟩

theorem null_trees {ys : List Symbol} (hn : Nullable g ys) : ∃ ts, DTrees g ys ts ∧ DTree.yields ts = [] :=
  dtrees_of_gen (nullable_iff_gen.1 hn)

/-- A non-empty tree of a reachable rule occurs in a derivation. -/
theorem reach_ctx (hp : g.Productive) {j : Nat} (hr : Reachable g j) :
    ∀ {r : Rule} {k : Nat} {alt : Sequence} {cs : List DTree}, g.rules[j]? = some r →
      r.tail.sequences[k]? = some alt → DTrees g alt.symbols cs → DTree.yields cs ≠ [] →
      ∃ c w d, IsDTree g 0 w d ∧ ∀ i b, Vanishes i b [.node j k cs] c → Vanishes i b [d] 0 := by
  induction hr with
  | start =>
    intro r k alt cs hi hk hD _
    exact ⟨0, _, _, ⟨r, k, alt, cs, hi, hk, hD, rfl, rfl⟩, fun i b h => h⟩
  | @step j' j alt' name _ ha' hm hr ih =>
    intro r k alt cs hi hk hD hne
    obtain ⟨pre, post, hs⟩ := List.append_of_mem hm
    obtain ⟨us, hu⟩ := some_trees hp ha' (ys := pre) (fun x hx => by rw [hs]; simp [hx])
    obtain ⟨vs, hv⟩ := some_trees hp ha' (ys := post) (fun x hx => by rw [hs]; simp [hx])
    obtain ⟨r', hi', hm'⟩ := id ha'
    obtain ⟨k', hk'⟩ := List.getElem?_of_mem hm'
    have hne' : DTree.yields (us ++ .node j k cs :: vs) ≠ [] := by
      rw [DTree.yields_append]; simp [DTree.yields, DTree.yield, hne]
    obtain ⟨c, w, d, hd, hV⟩ := ih (cs := us ++ .node j k cs :: vs) hi' hk'
      (by rw [hs]; exact hu.append (.nonTerminal hr hi hk hD hv)) hne'
    refine ⟨ahead (DTree.yields vs) c, w, d, hd, fun i b h => hV i b (.inside hne' ?_)⟩
    exact (Vanishes.before (us := vs) h rfl).behind us

/-- The same with a given byte of the FOLLOW set behind it. -/
theorem follow_ctx (hg : g.Reduced) {j : Nat} {c : UInt8} (hf : Follow g j c) :
    ∀ {r : Rule} {k : Nat} {alt : Sequence} {cs : List DTree}, g.rules[j]? = some r →
      r.tail.sequences[k]? = some alt → DTrees g alt.symbols cs → DTree.yields cs ≠ [] →
      ∃ w d, IsDTree g 0 w d ∧ ∀ i b, Vanishes i b [.node j k cs] c → Vanishes i b [d] 0 := by
  induction hf with
  | start =>
    intro r k alt cs hi hk hD _
    exact ⟨_, _, ⟨r, k, alt, cs, hi, hk, hD, rfl, rfl⟩, fun i b h => h⟩
  | @first j' j alt' pre post name b' ha' hs hr hfp =>
    intro r k alt cs hi hk hD hne
    obtain ⟨us, hu⟩ := some_trees hg.1 ha' (ys := pre) (fun x hx => by rw [hs]; simp [hx])
    obtain ⟨vs, w', hv, hw'⟩ := first_trees hg.1 ha' (ys := post) (fun x hx => by rw [hs]; simp [hx]) hfp
    obtain ⟨r', hi', hm'⟩ := id ha'
    obtain ⟨k', hk'⟩ := List.getElem?_of_mem hm'
    have hne' : DTree.yields (us ++ .node j k cs :: vs) ≠ [] := by
      rw [DTree.yields_append]; simp [DTree.yields, DTree.yield, hne]
    obtain ⟨c, w, d, hd, hV⟩ := reach_ctx hg.1 (hg.2 j' ha'.lt) (cs := us ++ .node j k cs :: vs) hi' hk'
      (by rw [hs]; exact hu.append (.nonTerminal hr hi hk hD hv)) hne'
    refine ⟨w, d, hd, fun i b h => hV i b (.inside hne' ?_)⟩
    exact (Vanishes.before (us := vs) h (by rw [hw']; rfl)).behind us
  | @last j' j alt' pre post name b' ha' hs hr hn _ ih =>
    intro r k alt cs hi hk hD hne
    obtain ⟨us, hu⟩ := some_trees hg.1 ha' (ys := pre) (fun x hx => by rw [hs]; simp [hx])
    obtain ⟨vs, hv, hw'⟩ := null_trees hn
    obtain ⟨r', hi', hm'⟩ := id ha'
    obtain ⟨k', hk'⟩ := List.getElem?_of_mem hm'
    have hne' : DTree.yields (us ++ .node j k cs :: vs) ≠ [] := by
      rw [DTree.yields_append]; simp [DTree.yields, DTree.yield, hne]
    obtain ⟨w, d, hd, hV⟩ := ih (cs := us ++ .node j k cs :: vs) hi' hk'
      (by rw [hs]; exact hu.append (.nonTerminal hr hi hk hD hv)) hne'
    refine ⟨w, d, hd, fun i b h => hV i b (.inside hne' ?_)⟩
    exact (Vanishes.before (us := vs) h (by rw [hw']; rfl)).behind us

theorem vanishes_of_mustVanish (hg : g.Reduced) {i : Nat} {b : UInt8} (h : MustVanish g i b) :
    ∃ w d, IsDTree g 0 w d ∧ Vanishes i b [d] 0 := by
  cases h with
  | @first j alt pre post name ha hs hr hn hf =>
    obtain ⟨alt', ha', hn'⟩ := hn
    obtain ⟨r', hi', hm'⟩ := id ha'
    obtain ⟨k', hk'⟩ := List.getElem?_of_mem hm'
    obtain ⟨es, he, he'⟩ := null_trees hn'
    obtain ⟨us, hu⟩ := some_trees hg.1 ha (ys := pre) (fun x hx => by rw [hs]; simp [hx])
    obtain ⟨vs, w', hv, hw'⟩ := first_trees hg.1 ha (ys := post) (fun x hx => by rw [hs]; simp [hx]) hf
    obtain ⟨r, hi, hm⟩ := id ha
    obtain ⟨k, hk⟩ := List.getElem?_of_mem hm
    have hne : DTree.yields (us ++ .node i k' es :: vs) ≠ [] := by
      rw [DTree.yields_append]; simp [DTree.yields, hw']
    obtain ⟨c, w, d, hd, hV⟩ := reach_ctx hg.1 (hg.2 j ha.lt) (cs := us ++ .node i k' es :: vs) hi hk
      (by rw [hs]; exact hu.append (.nonTerminal hr hi' hk' he hv)) hne
    exact ⟨w, d, hd, hV i b (.inside hne (Vanishes.behind (.here he' (by rw [hw']; rfl)) us))⟩
  | @last j alt pre post name c ha hs hr hn hf hnp hfol =>
    obtain ⟨alt', ha', hn'⟩ := hn
    obtain ⟨r', hi', hm'⟩ := id ha'
    obtain ⟨k', hk'⟩ := List.getElem?_of_mem hm'
    obtain ⟨es, he, he'⟩ := null_trees hn'
    obtain ⟨us, w', hu, hw'⟩ := first_trees hg.1 ha (ys := pre) (fun x hx => by rw [hs]; simp [hx]) hf
    obtain ⟨vs, hv, hv'⟩ := null_trees hnp
    obtain ⟨r, hi, hm⟩ := id ha
    obtain ⟨k, hk⟩ := List.getElem?_of_mem hm
    have hne : DTree.yields (us ++ .node i k' es :: vs) ≠ [] := by
      rw [DTree.yields_append]; simp [hw']
    obtain ⟨w, d, hd, hV⟩ := follow_ctx hg hfol (cs := us ++ .node i k' es :: vs) hi hk
      (by rw [hs]; exact hu.append (.nonTerminal hr hi' hk' he hv)) hne
    exact ⟨w, d, hd, hV i b (.inside hne (Vanishes.behind (.here he' (by rw [hv']; rfl)) us))⟩

end LL1
