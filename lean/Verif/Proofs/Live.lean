import Verif.Model.Live
import Verif.Spec.Live
import Verif.Proofs.Hang

/-!
# `Parse` on a source that changes: what it can do
-/

namespace LL1.Live

variable {tbl : Table} {names : Option Names} {mem : Nat → Str}

/-- The literal stands in the source, byte by byte, when it is read. -/
def LitLive (mem : Nat → Str) (s : Str) (r i : Nat) : Prop :=
  ∀ k, k < s.length → s[k]? = some (byteAt (mem (r + k)) (i + k))

theorem LitLive.nil (r i : Nat) : LitLive mem [] r i := by intro k hk; simp at hk

theorem litLive_cons {c : UInt8} {s : Str} {r i : Nat} :
    LitLive mem (c :: s) r i ↔ c = byteAt (mem r) i ∧ LitLive mem s (r + 1) (i + 1) := by
  constructor
  · intro h
    refine ⟨by simpa using h 0 (by simp), fun k hk => ?_⟩
    have := h (k + 1) (by simpa using hk)
    rw [List.getElem?_cons_succ] at this
    rw [this, show r + 1 + k = r + (k + 1) by omega, show i + 1 + k = i + (k + 1) by omega]
  · rintro ⟨h1, h2⟩ k hk
    cases k with
    | zero => simp [h1]
    | succ k =>
      rw [List.getElem?_cons_succ, h2 k (by simpa using hk), show r + 1 + k = r + (k + 1) by omega,
        show i + 1 + k = i + (k + 1) by omega]

theorem step_nonTerminal (r : Nat) (S : List ParserOp) (P : List Node) (n : Int) (i : Nat) :
    step tbl names mem r ⟨i, .nonTerminal n :: S, P⟩ =
      match bodyFor tbl n (byteAt (mem r) i) with
      | some body => .next (r + 1) ⟨i, body ++ .function n i body.length :: S, P⟩
      | none => .done (.err (whyNot tbl names n (byteAt (mem (r + 1)) i))) := by
  simp only [step, processNonTerminal, processTableNonTerminal, processBuiltinNonTerminal, bodyFor,
    whyNot, peek_eq, nodeTypeName_eq]
  by_cases h : n < 0
  · have h' : ¬ (0 ≤ n) := by omega
    simp only [h, h', if_true, if_false]
    by_cases h2 : n = -2
    · simp only [h2, if_true]
      by_cases h3 : byteAt (mem r) i = 10
      · simp [h3]
      · by_cases h4 : byteAt (mem r) i = 13
        · simp [h4]
        · simp [h3, h4]
    · simp [h2]
  · have h' : 0 ≤ n := by omega
    simp only [h, h', if_true, if_false]
    cases hr : tbl.get n with
    | none => simp
    | some row =>
      simp only [Option.bind_some]
      cases hc : GoMap.get row (byteAt (mem r) i) with
      | none => simp
      | some body => simp

theorem step_of_function (r : Nat) {s s' : PState} {S : List ParserOp} {n : Int} {p a : Nat}
    (ho : s.opStack = .function n p a :: S) (src : Str) (h : LL1.step tbl names src s = .next s') :
    step tbl names mem r s = .next r s' := by
  simp only [LL1.step, ho] at h
  simp only [step, ho, processFunction, h]

theorem run_chars (s : Str) (r i : Nat) (h : LitLive mem s r i) (fuel : Nat) (S : List ParserOp)
    (P : List Node) :
    runFuel tbl names mem (fuel + s.length) r ⟨i, s.map .char ++ S, P⟩ =
      runFuel tbl names mem fuel (r + s.length) ⟨i + s.length, S, (charNodes i s.length).reverse ++ P⟩ := by
  induction s generalizing r i P with
  | nil => simp [charNodes]
  | cons c s ih =>
    rw [litLive_cons] at h
    have e : fuel + (c :: s).length = (fuel + s.length) + 1 := by simp; omega
    rw [e, runFuel]
    simp only [List.map_cons, List.cons_append, step, processChar, peek_eq, h.1, ne_eq,
      not_true_eq_false, if_false]
    rw [ih (r + 1) (i + 1) h.2]
    rw [List.length_cons, show r + (s.length + 1) = r + 1 + s.length by omega,
      show i + (s.length + 1) = i + 1 + s.length by omega]
    simp [charNodes]

/-- The end of a literal. -/
theorem run_litEnd (s : Str) (r i : Nat) (fuel : Nat) (S : List ParserOp) (P : List Node) :
    runFuel tbl names mem (fuel + 1) r ⟨i + s.length, .function builtinTerminal i s.length :: S,
      (charNodes i s.length).reverse ++ P⟩ =
      runFuel tbl names mem fuel r ⟨i + s.length, S, literalNode s i :: P⟩ := by
  rw [runFuel]
  by_cases hs : s = []
  · subst hs
    rw [step_of_function r rfl [] (by simpa using step_function_zero S _ builtinTerminal _ _)]
    simp [charNodes, literalNode, builtinTerminal]
  · have hne : (charNodes i s.length).reverse ≠ [] := by
      intro h
      have := congrArg List.length h
      simp [charNodes_length] at this
      exact hs this
    have := step_function_lit (tbl := tbl) (names := names) (src := []) S P
      (charNodes i s.length).reverse (i + s.length) i hne
      (by intro n hn; exact charNodes_type i s.length n (by simpa using hn))
    rw [List.length_reverse, charNodes_length] at this
    rw [step_of_function r rfl [] this]
    simp [literalNode, hs]

theorem run_literal (s : Str) (r i : Nat) (h : LitLive mem s r i) (fuel : Nat) (S : List ParserOp)
    (P : List Node) :
    runFuel tbl names mem (fuel + (s.length + 2)) r ⟨i, .terminal s :: S, P⟩ =
      runFuel tbl names mem fuel (r + s.length) ⟨i + s.length, S, literalNode s i :: P⟩ := by
  have e : fuel + (s.length + 2) = ((fuel + 1) + s.length) + 1 := by omega
  rw [e, runFuel]
  simp only [step, processTerminal]
  rw [run_chars s r i h, run_litEnd]

theorem run_function (n : Int) (r i j : Nat) (body : List ParserOp) (cs : List Node)
    (hl : cs.length = body.length) (hn : n ≠ builtinTerminal) (hij : body = [] → i = j) (fuel : Nat)
    (S : List ParserOp) (P : List Node) :
    runFuel tbl names mem (fuel + 1) r ⟨j, .function n i body.length :: S, cs.reverse ++ P⟩ =
      runFuel tbl names mem fuel r ⟨j, S, ntNode n i j body cs :: P⟩ := by
  rw [runFuel]
  by_cases hb : body = []
  · subst hb
    have : cs = [] := by simpa using hl
    subst this
    have := hij rfl
    subst this
    rw [step_of_function r rfl [] (by simpa using step_function_zero S _ n _ _)]
    simp [ntNode]
  · have hcs : cs ≠ [] := by
      intro h; subst h; exact hb (List.eq_nil_of_length_eq_zero hl.symm)
    rw [← hl, step_of_function r rfl [] (step_function_nt S P cs n j i hcs hn)]
    simp [ntNode, hb]

end LL1.Live

namespace LL1

variable {tbl : Table} {names : Option Names} {mem : Nat → Str}

theorem LiveDerives.length {ops : List ParserOp} {r i r' j : Nat} {cs : List Node}
    (h : LiveDerives tbl mem ops r i r' j cs) : cs.length = ops.length := by
  induction h <;> simp_all

theorem LiveDerives.nil_inv {r i r' j : Nat} {cs : List Node} (h : LiveDerives tbl mem [] r i r' j cs) :
    r = r' ∧ i = j ∧ cs = [] := by
  cases h; exact ⟨rfl, rfl, rfl⟩

theorem LiveDerives.le {ops : List ParserOp} {r i r' j : Nat} {cs : List Node}
    (h : LiveDerives tbl mem ops r i r' j cs) : i ≤ j ∧ r ≤ r' := by
  induction h with
  | nil => exact ⟨Nat.le_refl _, Nat.le_refl _⟩
  | lit _ _ ih => omega
  | nt _ _ _ ih1 ih2 => omega

theorem LiveDerives.det {ops : List ParserOp} {r i r1 j1 : Nat} {cs : List Node}
    (h : LiveDerives tbl mem ops r i r1 j1 cs) :
    ∀ {r2 j2 cs'}, LiveDerives tbl mem ops r i r2 j2 cs' → r1 = r2 ∧ j1 = j2 ∧ cs = cs' := by
  induction h with
  | nil r i => intro r2 j2 cs' h'; cases h'; exact ⟨rfl, rfl, rfl⟩
  | lit hl hd ih =>
    intro r2 j2 cs' h'
    cases h' with
    | lit hl' hd' =>
      obtain ⟨h1, h2, h3⟩ := ih hd'
      exact ⟨h1, h2, by rw [h3]⟩
  | nt hb hd1 hd2 ih1 ih2 =>
    intro r2 j2 cs' h'
    cases h' with
    | nt hb' hd1' hd2' =>
      rw [hb] at hb'
      cases hb'
      obtain ⟨rfl, rfl, rfl⟩ := ih1 hd1'
      obtain ⟨rfl, rfl, rfl⟩ := ih2 hd2'
      exact ⟨rfl, rfl, rfl⟩

theorem LiveDerives.append {xs ys : List ParserOp} {r i r' j r'' k : Nat} {cs ds : List Node}
    (h : LiveDerives tbl mem xs r i r' j cs) (h' : LiveDerives tbl mem ys r' j r'' k ds) :
    LiveDerives tbl mem (xs ++ ys) r i r'' k (cs ++ ds) := by
  induction h with
  | nil => exact h'
  | lit hl _ ih => exact .lit hl (ih h')
  | nt hb h1 _ _ ih => exact .nt hb h1 (ih h')

end LL1

namespace LL1.Live

variable {tbl : Table} {names : Option Names} {mem : Nat → Str}

theorem run_derives {ops : List ParserOp} {r i r' j : Nat} {cs : List Node}
    (h : LiveDerives tbl mem ops r i r' j cs) :
    ∃ k, ∀ fuel S P, runFuel tbl names mem (fuel + k) r ⟨i, ops ++ S, P⟩ =
      runFuel tbl names mem fuel r' ⟨j, S, cs.reverse ++ P⟩ := by
  induction h with
  | nil r i => exact ⟨0, by simp⟩
  | @lit s ops r i r' j cs hl hd ih =>
    obtain ⟨k, hk⟩ := ih
    refine ⟨k + (s.length + 2), fun fuel S P => ?_⟩
    rw [← Nat.add_assoc, List.cons_append, run_literal s r i hl, hk]
    simp
  | @nt n body ops r i r' j r'' k cs ds hb hd1 hd2 ih1 ih2 =>
    obtain ⟨k1, hk1⟩ := ih1
    obtain ⟨k2, hk2⟩ := ih2
    refine ⟨((k2 + 1) + k1) + 1, fun fuel S P => ?_⟩
    have e : fuel + (((k2 + 1) + k1) + 1) = (((fuel + k2) + 1) + k1) + 1 := by omega
    rw [e, runFuel, List.cons_append, step_nonTerminal, hb]
    simp only
    rw [hk1, run_function n r' i j body cs hd1.length (bodyFor_ne hb), hk2]
    · simp
    · rintro rfl
      exact hd1.nil_inv.2.1

theorem run_chars_fail (s : Str) (r i k : Nat) (c : UInt8)
    (h : ∀ q, q < k → s[q]? = some (byteAt (mem (r + q)) (i + q)))
    (hc : s[k]? = some c) (hne : c ≠ byteAt (mem (r + k)) (i + k)) (S : List ParserOp) (P : List Node) (fuel : Nat) :
    runFuel tbl names mem (fuel + k + 1) r ⟨i, s.map .char ++ S, P⟩ =
      some (.err (.expectedChar c (byteAt (mem (r + k + 1)) (i + k)))) := by
  induction k generalizing s r i P with
  | zero =>
    cases s with
    | nil => simp at hc
    | cons d s =>
      simp only [List.getElem?_cons_zero, Option.some.injEq] at hc
      subst hc
      rw [runFuel]
      simp only [Nat.add_zero] at hne ⊢
      simp [step, processChar, peek_eq, hne]
  | succ k ih =>
    cases s with
    | nil => simp at hc
    | cons d s =>
      have h0 : d = byteAt (mem r) i := by simpa using h 0 (by omega)
      rw [List.getElem?_cons_succ] at hc
      have e1 : i + (k + 1) = (i + 1) + k := by omega
      have e2 : r + (k + 1) = (r + 1) + k := by omega
      rw [e1, e2] at hne
      rw [e1, e2]
      have := ih s (r + 1) (i + 1) (fun q hq => by
        have := h (q + 1) (by omega)
        rw [List.getElem?_cons_succ] at this
        rw [this, show r + 1 + q = r + (q + 1) by omega, show i + 1 + q = i + (q + 1) by omega]) hc hne
        (P := .mk builtinTerminal i (i + 1) [] :: P)
      rw [show fuel + (k + 1) + 1 = (fuel + k + 1) + 1 by omega, runFuel]
      simp only [List.map_cons, List.cons_append, step, processChar, peek_eq, h0, ne_eq,
        not_true_eq_false, if_false]
      exact this

theorem run_fails {ops : List ParserOp} {r i : Nat} {e : PErr} (h : LiveFails tbl names mem ops r i e) :
    ∃ m, ∀ S P, runFuel tbl names mem m r ⟨i, ops ++ S, P⟩ = some (.err e) := by
  induction h with
  | @lit s ops r i k c h1 h2 h3 =>
    refine ⟨(0 + k + 1) + 1, fun S P => ?_⟩
    rw [runFuel]
    simp only [List.cons_append, step, processTerminal]
    exact run_chars_fail s r i k c h1 h2 h3 _ _ 0
  | @afterLit s ops r i e hl hf ih =>
    obtain ⟨m, hm⟩ := ih
    refine ⟨m + (s.length + 2), fun S P => ?_⟩
    rw [List.cons_append, run_literal s r i hl, hm]
  | @noBody n ops r i hb =>
    refine ⟨0 + 1, fun S P => ?_⟩
    rw [runFuel, List.cons_append, step_nonTerminal, hb]
  | @inside n body ops r i e hb hf ih =>
    obtain ⟨m, hm⟩ := ih
    refine ⟨m + 1, fun S P => ?_⟩
    rw [runFuel, List.cons_append, step_nonTerminal, hb]
    exact hm _ _
  | @afterNt n body ops r i r' j cs e hb hd hf ih =>
    obtain ⟨m, hm⟩ := ih
    obtain ⟨k1, hk1⟩ := run_derives (names := names) hd
    refine ⟨((m + 1) + k1) + 1, fun S P => ?_⟩
    rw [runFuel, List.cons_append, step_nonTerminal, hb]
    simp only
    rw [hk1, run_function n r' i j body cs hd.length (bodyFor_ne hb), hm]
    rintro rfl
    exact hd.nil_inv.2.1

theorem runFuel_mono {fuel r : Nat} {s : PState} {o : Outcome} (h : runFuel tbl names mem fuel r s = some o)
    (k : Nat) : runFuel tbl names mem (fuel + k) r s = some o := by
  induction fuel generalizing r s with
  | zero => simp [runFuel] at h
  | succ f ih =>
    rw [show f + 1 + k = (f + k) + 1 by omega, runFuel]
    rw [runFuel] at h
    cases hs : step tbl names mem r s with
    | next r' s' => rw [hs] at h; simp only at h ⊢; exact ih h
    | done o' => rw [hs] at h; simpa using h

theorem runFuel_det {f g r : Nat} {s : PState} {o o' : Outcome} (h : runFuel tbl names mem f r s = some o)
    (h' : runFuel tbl names mem g r s = some o') : o = o' := by
  have h1 := runFuel_mono h g
  have h2 := runFuel_mono h' f
  rw [Nat.add_comm, h2] at h1
  exact (Option.some.inj h1).symm

theorem chars_inv (s : Str) (r i : Nat) (fuel : Nat) (S : List ParserOp) (P : List Node) (o : Outcome)
    (h : runFuel tbl names mem fuel r ⟨i, s.map .char ++ S, P⟩ = some o) :
    (LitLive mem s r i ∧ ∃ f, fuel = f + s.length ∧
      runFuel tbl names mem f (r + s.length) ⟨i + s.length, S, (charNodes i s.length).reverse ++ P⟩ = some o) ∨
    (∃ k c, (∀ q, q < k → s[q]? = some (byteAt (mem (r + q)) (i + q))) ∧ s[k]? = some c ∧
      c ≠ byteAt (mem (r + k)) (i + k) ∧ o = .err (.expectedChar c (byteAt (mem (r + k + 1)) (i + k)))) := by
  induction s generalizing r i fuel P with
  | nil => exact Or.inl ⟨LitLive.nil _ _, fuel, by simp, by simpa [charNodes] using h⟩
  | cons c s ih =>
    cases fuel with
    | zero => simp [runFuel] at h
    | succ f =>
      rw [runFuel] at h
      simp only [List.map_cons, List.cons_append, step, processChar, peek_eq] at h
      by_cases hc : c = byteAt (mem r) i
      · simp only [hc, ne_eq, not_true_eq_false, if_false] at h
        rcases ih (r + 1) (i + 1) f _ h with ⟨hl, f', hf, hr⟩ | ⟨k, d, h1, h2, h3, h4⟩
        · refine Or.inl ⟨litLive_cons.2 ⟨hc, hl⟩, f', by simp; omega, ?_⟩
          rw [← hr]
          rw [show r + (c :: s).length = r + 1 + s.length by simp; omega,
            show i + (c :: s).length = i + 1 + s.length by simp; omega]
          simp [charNodes]
        · refine Or.inr ⟨k + 1, d, ?_, by simpa using h2, ?_, ?_⟩
          · intro q hq
            cases q with
            | zero => simp [hc]
            | succ q =>
              rw [List.getElem?_cons_succ, h1 q (by omega), show r + 1 + q = r + (q + 1) by omega,
                show i + 1 + q = i + (q + 1) by omega]
          · rw [show i + (k + 1) = i + 1 + k by omega, show r + (k + 1) = r + 1 + k by omega]; exact h3
          · rw [show i + (k + 1) = i + 1 + k by omega, show r + (k + 1) + 1 = r + 1 + k + 1 by omega]; exact h4
      · simp only [ne_eq, hc, not_false_eq_true, if_true, Option.some.injEq] at h
        exact Or.inr ⟨0, c, by simp, by simp, by simpa using hc, by simpa using h.symm⟩

theorem run_inv (hpub : Table.Public tbl) (fuel : Nat) : ∀ (ops : List ParserOp) (r i : Nat)
    (S : List ParserOp) (P : List Node) (o : Outcome), (∀ op ∈ ops, op.Public) →
    runFuel tbl names mem fuel r ⟨i, ops ++ S, P⟩ = some o →
    (∃ r' j cs f, LiveDerives tbl mem ops r i r' j cs ∧ f ≤ fuel ∧
      runFuel tbl names mem f r' ⟨j, S, cs.reverse ++ P⟩ = some o) ∨
    (∃ e, LiveFails tbl names mem ops r i e ∧ o = .err e) := by
  induction fuel using Nat.strongRecOn with
  | ind fuel IH =>
    intro ops r i S P o hops h
    cases ops with
    | nil => exact Or.inl ⟨r, i, [], fuel, .nil r i, Nat.le_refl _, by simpa using h⟩
    | cons op ops =>
      have hops' : ∀ op ∈ ops, op.Public := fun x hx => hops x (List.mem_cons_of_mem _ hx)
      have hop := hops op List.mem_cons_self
      cases fuel with
      | zero => simp [runFuel] at h
      | succ f =>
        cases op with
        | terminal s =>
          rw [runFuel] at h
          simp only [List.cons_append, step, processTerminal] at h
          rcases chars_inv s r i f _ P o h with ⟨hl, f', hf, hr⟩ | ⟨k, c, h1, h2, h3, h4⟩
          · obtain ⟨f'', rfl⟩ : ∃ f'', f' = f'' + 1 := by
              cases f' with
              | zero => simp [runFuel] at hr
              | succ f'' => exact ⟨f'', rfl⟩
            rw [run_litEnd] at hr
            rcases IH f'' (by omega) ops _ _ S _ o hops' hr with ⟨r', j, cs, g, hd, hg, hrun⟩ | ⟨e, hf, ho⟩
            · refine Or.inl ⟨r', j, _, g, .lit hl hd, by omega, by simpa using hrun⟩
            · exact Or.inr ⟨e, .afterLit hl hf, ho⟩
          · exact Or.inr ⟨_, .lit h1 h2 h3, h4⟩
        | nonTerminal n =>
          rw [runFuel, List.cons_append, step_nonTerminal] at h
          cases hb : bodyFor tbl n (byteAt (mem r) i) with
          | none =>
            rw [hb] at h
            simp only [Option.some.injEq] at h
            exact Or.inr ⟨_, .noBody hb, h.symm⟩
          | some body =>
            rw [hb] at h
            simp only at h
            rcases IH f (by omega) body _ i _ P o (bodyFor_public hpub hb) h with
              ⟨r', j, cs, g, hd, hg, hrun⟩ | ⟨e, hf, ho⟩
            · cases g with
              | zero => simp [runFuel] at hrun
              | succ g =>
                rw [run_function n r' i j body cs hd.length (bodyFor_ne hb)
                  (by rintro rfl; exact hd.nil_inv.2.1)] at hrun
                rcases IH g (by omega) ops r' j S _ o hops' hrun with ⟨r'', j', ds, g', hd', hg', hrun'⟩ | ⟨e, hf, ho⟩
                · exact Or.inl ⟨r'', j', _, g', .nt hb hd hd', by omega, by simpa using hrun'⟩
                · exact Or.inr ⟨e, .afterNt hb hd hf, ho⟩
            · exact Or.inr ⟨e, .inside hb hf, ho⟩
        | function _ _ _ => exact hop.elim
        | eos => exact hop.elim
        | char _ => exact hop.elim
        | nil => exact hop.elim

theorem run_eos (r j : Nat) (t : Node) (fuel : Nat) :
    runFuel tbl names mem (fuel + 1) r ⟨j, [.eos], [t]⟩ =
      some (if byteAt (mem r) j ≠ 0 then .err (.expectedEnd (byteAt (mem (r + 1)) j)) else finish names t) := by
  rw [runFuel]
  simp only [step, processEOS, peek_eq]
  by_cases h : byteAt (mem r) j = 0
  · simp only [h, ne_eq, not_true_eq_false, if_false]
    cases names <;> rfl
  · simp [h]

theorem run_init (hpub : Table.Public tbl) {fuel : Nat} {o : Outcome}
    (h : runFuel tbl names mem fuel 0 initState = some o) :
    (∃ t, LiveParse tbl mem t ∧ o = finish names t) ∨ (∃ e, LiveStuck tbl names mem e ∧ o = .err e) := by
  rcases run_inv hpub fuel [.nonTerminal 0] 0 0 [.eos] [] o (by simp [ParserOp.Public]) h with
    ⟨r, j, cs, f, hd, hf, hrun⟩ | ⟨e, hf, ho⟩
  · have hl := hd.length
    match cs, hl with
    | [t], _ =>
      cases f with
      | zero => simp [runFuel] at hrun
      | succ f =>
        simp only [List.reverse_cons, List.reverse_nil, List.nil_append, List.append_nil] at hrun
        rw [run_eos] at hrun
        simp only [Option.some.injEq] at hrun
        by_cases hb : byteAt (mem r) j = 0
        · simp only [hb, ne_eq, not_true_eq_false, if_false] at hrun
          exact Or.inl ⟨t, ⟨r, j, hd, hb⟩, hrun.symm⟩
        · simp only [hb, ne_eq, not_false_eq_true, if_true] at hrun
          exact Or.inr ⟨_, Or.inr ⟨r, j, t, hd, hb, rfl⟩, hrun.symm⟩
  · exact Or.inr ⟨e, Or.inl hf, ho⟩

theorem run_of_derives {r j : Nat} {t : Node} (hd : LiveDerives tbl mem [.nonTerminal 0] 0 0 r j [t]) :
    ∃ fuel, runFuel tbl names mem fuel 0 initState =
      some (if byteAt (mem r) j ≠ 0 then .err (.expectedEnd (byteAt (mem (r + 1)) j)) else finish names t) := by
  obtain ⟨k, hk⟩ := run_derives (names := names) hd
  refine ⟨0 + 1 + k, ?_⟩
  have := hk (0 + 1) [.eos] []
  simp only [List.singleton_append, List.reverse_cons, List.reverse_nil, List.nil_append, List.append_nil] at this
  rw [initState, this, run_eos]

theorem run_of_parse {t : Node} (h : LiveParse tbl mem t) :
    ∃ fuel, runFuel tbl names mem fuel 0 initState = some (finish names t) := by
  obtain ⟨r, j, hd, hb⟩ := h
  obtain ⟨fuel, hf⟩ := run_of_derives (names := names) hd
  exact ⟨fuel, by simpa [hb] using hf⟩

theorem run_of_stuck {e : PErr} (h : LiveStuck tbl names mem e) :
    ∃ fuel, runFuel tbl names mem fuel 0 initState = some (.err e) := by
  rcases h with hf | ⟨r, j, t, hd, hb, rfl⟩
  · obtain ⟨m, hm⟩ := run_fails hf
    exact ⟨m, hm [.eos] []⟩
  · obtain ⟨fuel, hf⟩ := run_of_derives (names := names) hd
    exact ⟨fuel, by simpa [hb] using hf⟩

theorem parseFuel_entry {p : Parser} (he : p.table.HasEntry) (fuel : Nat) :
    parseFuel p fuel mem = runFuel p.table p.names mem fuel 0 initState := by
  obtain ⟨row, hrow⟩ := he
  have : p.table.length ≠ 0 := by
    intro h0
    rw [List.eq_nil_of_length_eq_zero h0] at hrow
    cases hrow
  simp [parseFuel, this, hrow]

theorem returns_iff {p : Parser} (he : p.table.HasEntry) (hpub : p.table.Public) {o : Outcome} :
    Returns p mem o ↔ (∃ t, LiveParse p.table mem t ∧ o = finish p.names t) ∨
      (∃ e, LiveStuck p.table p.names mem e ∧ o = .err e) := by
  simp only [Returns, parseFuel_entry he]
  constructor
  · rintro ⟨fuel, h⟩; exact run_init hpub h
  · rintro (⟨t, h, rfl⟩ | ⟨e, h, rfl⟩)
    · exact run_of_parse h
    · exact run_of_stuck h

theorem diverges_or_returns (p : Parser) (mem : Nat → Str) : Diverges p mem ∨ ∃ o, Returns p mem o := by
  rcases Classical.em (∃ o, Returns p mem o) with h | h
  · exact .inr h
  · refine .inl fun fuel => ?_
    cases hf : parseFuel p fuel mem with
    | none => rfl
    | some o => exact (h ⟨o, fuel, hf⟩).elim

/-! ## When it does not end -/

theorem _root_.LL1.LiveDerives.not_fails {ops : List ParserOp} {r i r' j : Nat} {cs : List Node} {e : PErr}
    (h : LiveDerives tbl mem ops r i r' j cs) : ¬ LiveFails tbl names mem ops r i e := by
  induction h with
  | nil => intro h; cases h
  | @lit s ops r i r' j cs hl hd ih =>
    intro h
    cases h with
    | @lit _ _ _ _ k c h1 h2 h3 =>
      have hk : k < s.length := by
        rcases Nat.lt_or_ge k s.length with h | h
        · exact h
        · rw [List.getElem?_eq_none h] at h2; cases h2
      have := hl k hk
      rw [h2] at this
      exact h3 (by simpa using this)
    | afterLit _ hf => exact ih hf
  | nt hb hd1 hd2 ih1 ih2 =>
    intro h
    cases h with
    | noBody hb' => rw [hb] at hb'; cases hb'
    | inside hb' hf => rw [hb] at hb'; cases hb'; exact ih1 hf
    | afterNt hb' hd' hf =>
      rw [hb] at hb'
      cases hb'
      obtain ⟨rfl, rfl, _⟩ := hd1.det hd'
      exact ih2 hf

theorem _root_.LL1.LiveDerives.acc {ops : List ParserOp} {r i r' j : Nat} {cs : List Node}
    (h : LiveDerives tbl mem ops r i r' j cs) :
    ∀ pre m post q k ds, ops = pre ++ .nonTerminal m :: post → LiveDerives tbl mem pre r i q k ds →
      Acc (fun y x => LiveEnters tbl mem x y) (m, k, q) := by
  induction h with
  | nil i => intro pre m post q k ds h _; cases pre <;> cases h
  | @lit s ops r i r' j cs hl hd ih =>
    intro pre m post q k ds h hp
    cases pre with
    | nil => cases h
    | cons op pre =>
      cases h
      cases hp with
      | lit _ hp => exact ih pre m post q k _ rfl hp
  | @nt n body ops r i r' j r'' k' cs ds' hb hd1 hd2 ih1 ih2 =>
    intro pre m post q k ds h hp
    cases pre with
    | nil =>
      cases h
      cases hp
      refine ⟨_, ?_⟩
      rintro ⟨m', k2, q2⟩ ⟨pre', post', es, hb', hp'⟩
      rw [hb] at hb'
      cases hb'
      exact ih1 pre' m' post' q2 k2 es rfl hp'
    | cons op pre =>
      cases h
      cases hp with
      | nt hb' hp1 hp2 =>
        rw [hb] at hb'
        cases hb'
        obtain ⟨rfl, rfl, _⟩ := hp1.det hd1
        exact ih2 pre m post q k _ rfl hp2

theorem _root_.LL1.LiveFails.acc {ops : List ParserOp} {r i : Nat} {e : PErr} (h : LiveFails tbl names mem ops r i e) :
    ∀ pre m post q k ds, ops = pre ++ .nonTerminal m :: post → LiveDerives tbl mem pre r i q k ds →
      Acc (fun y x => LiveEnters tbl mem x y) (m, k, q) := by
  induction h with
  | @lit s ops r i k c h1 h2 h3 =>
    intro pre m post q k' ds h hp
    cases pre with
    | nil => cases h
    | cons op pre =>
      cases h
      cases hp with
      | lit hl _ =>
        have hk : k < s.length := by
          rcases Nat.lt_or_ge k s.length with h | h
          · exact h
          · rw [List.getElem?_eq_none h] at h2; cases h2
        have := hl k hk
        rw [h2] at this
        exact (h3 (by simpa using this)).elim
  | @afterLit s ops r i e hl hd ih =>
    intro pre m post q k ds h hp
    cases pre with
    | nil => cases h
    | cons op pre =>
      cases h
      cases hp with
      | lit _ hp => exact ih pre m post q k _ rfl hp
  | @noBody n ops r i hb =>
    intro pre m post q k ds h hp
    cases pre with
    | nil =>
      cases h
      cases hp
      refine ⟨_, ?_⟩
      rintro ⟨m', k2, q2⟩ ⟨pre', post', es, hb', hp'⟩
      rw [hb] at hb'
      cases hb'
    | cons op pre =>
      cases h
      cases hp with
      | nt hb' hp1 hp2 => rw [hb] at hb'; cases hb'
  | @inside n body ops r i e hb hf ih =>
    intro pre m post q k' ds h hp
    cases pre with
    | nil =>
      cases h
      cases hp
      refine ⟨_, ?_⟩
      rintro ⟨m', k2, q2⟩ ⟨pre', post', es, hb', hp'⟩
      rw [hb] at hb'
      cases hb'
      exact ih pre' m' post' q2 k2 es rfl hp'
    | cons op pre =>
      cases h
      cases hp with
      | nt hb' hp1 hp2 =>
        rw [hb] at hb'
        cases hb'
        exact (hp1.not_fails hf).elim
  | @afterNt n body ops r i r' j cs e hb hd hf ih =>
    intro pre m post q k' ds h hp
    cases pre with
    | nil =>
      cases h
      cases hp
      refine ⟨_, ?_⟩
      rintro ⟨m', k2, q2⟩ ⟨pre', post', es, hb', hp'⟩
      rw [hb] at hb'
      cases hb'
      exact hd.acc pre' m' post' q2 k2 es rfl hp'
    | cons op pre =>
      cases h
      cases hp with
      | nt hb' hp1 hp2 =>
        rw [hb] at hb'
        cases hb'
        obtain ⟨rfl, rfl, _⟩ := hp1.det hd
        exact ih pre m post q k' _ rfl hp2

theorem first_mismatch_live (s : Str) (r i : Nat) (h : ¬ LitLive mem s r i) :
    ∃ k c, (∀ q, q < k → s[q]? = some (byteAt (mem (r + q)) (i + q))) ∧ s[k]? = some c ∧
      c ≠ byteAt (mem (r + k)) (i + k) := by
  induction s generalizing r i with
  | nil => exact absurd (LitLive.nil _ _) h
  | cons c s ih =>
    by_cases hc : c = byteAt (mem r) i
    · have : ¬ LitLive mem s (r + 1) (i + 1) := fun h' => h (litLive_cons.2 ⟨hc, h'⟩)
      obtain ⟨k, d, h1, h2, h3⟩ := ih (r + 1) (i + 1) this
      refine ⟨k + 1, d, ?_, by simpa using h2, ?_⟩
      · intro q hq
        cases q with
        | zero => simp [hc]
        | succ q =>
          rw [List.getElem?_cons_succ, h1 q (by omega), show r + 1 + q = r + (q + 1) by omega,
            show i + 1 + q = i + (q + 1) by omega]
      · rw [show i + (k + 1) = i + 1 + k by omega, show r + (k + 1) = r + 1 + k by omega]; exact h3
    · exact ⟨0, c, by simp, by simp, by simpa using hc⟩

theorem ends_of_acc (hpub : tbl.Public) {x : Int × Nat × Nat} (h : Acc (fun y x => LiveEnters tbl mem x y) x) :
    (∃ r' j cs, LiveDerives tbl mem [.nonTerminal x.1] x.2.2 x.2.1 r' j cs) ∨
      (∃ e, LiveFails tbl names mem [.nonTerminal x.1] x.2.2 x.2.1 e) := by
  induction h with
  | intro x _ ih =>
    obtain ⟨n, i, r⟩ := x
    cases hb : bodyFor tbl n (byteAt (mem r) i) with
    | none => exact .inr ⟨_, .noBody hb⟩
    | some body =>
      suffices hs : ∀ rest pre q k cs, body = pre ++ rest → LiveDerives tbl mem pre (r + 1) i q k cs →
          (∃ q' j ds, LiveDerives tbl mem rest q k q' j ds) ∨ (∃ e, LiveFails tbl names mem rest q k e) by
        rcases hs body [] (r + 1) i [] rfl (.nil _ i) with ⟨q', j, ds, hd⟩ | ⟨e, hf⟩
        · exact .inl ⟨_, _, _, .nt hb hd (.nil _ _)⟩
        · exact .inr ⟨_, .inside hb hf⟩
      intro rest
      induction rest with
      | nil => intro pre q k cs _ _; exact .inl ⟨_, _, _, .nil _ _⟩
      | cons op rest ihr =>
        intro pre q k cs he hp
        have hop : op.Public := bodyFor_public hpub hb op (by rw [he]; simp)
        have he' : body = (pre ++ [op]) ++ rest := by rw [he]; simp
        cases op with
        | terminal s =>
          by_cases hl : LitLive mem s q k
          · rcases ihr (pre ++ [.terminal s]) (q + s.length) (k + s.length) _ he'
              (hp.append (.lit hl (.nil _ _))) with ⟨q', j, ds, hd⟩ | ⟨e, hf⟩
            · exact .inl ⟨_, _, _, .lit hl hd⟩
            · exact .inr ⟨_, .afterLit hl hf⟩
          · obtain ⟨l, c, h1, h2, h3⟩ := first_mismatch_live s q k hl
            exact .inr ⟨_, .lit h1 h2 h3⟩
        | nonTerminal m =>
          rcases ih (m, k, q) ⟨pre, rest, cs, by rw [hb, he], hp⟩ with ⟨q', j, ds, hd⟩ | ⟨e, hf⟩
          · cases hd with
            | nt hb1 hd1 hd2 =>
              cases hd2
              rcases ihr (pre ++ [.nonTerminal m]) q' j _ he' (hp.append (.nt hb1 hd1 (.nil _ _))) with
                ⟨q'', j', ds, hd⟩ | ⟨e, hf⟩
              · exact .inl ⟨_, _, _, .nt hb1 hd1 hd⟩
              · exact .inr ⟨_, .afterNt hb1 hd1 hf⟩
          · cases hf with
            | noBody hb1 => exact .inr ⟨_, .noBody hb1⟩
            | inside hb1 hf1 => exact .inr ⟨_, .inside hb1 hf1⟩
            | afterNt _ _ hf1 => cases hf1
        | _ => exact hop.elim

theorem diverges_iff_not_acc {p : Parser} (he : p.table.HasEntry) (hpub : p.table.Public) :
    Diverges p mem ↔ ¬ Acc (fun y x => LiveEnters p.table mem x y) (0, 0, 0) := by
  constructor
  · intro hd ha
    have : ∃ o, Returns p mem o := by
      rcases ends_of_acc (names := p.names) hpub ha with ⟨r, j, cs, hd⟩ | ⟨e, hf⟩
      · obtain ⟨t, rfl⟩ : ∃ t, cs = [t] := by
          cases hd with
          | nt _ _ h => cases h; exact ⟨_, rfl⟩
        by_cases h0 : byteAt (mem r) j = 0
        · exact ⟨_, (returns_iff he hpub).2 (.inl ⟨t, ⟨r, j, hd, h0⟩, rfl⟩)⟩
        · exact ⟨_, (returns_iff he hpub).2 (.inr ⟨_, .inr ⟨r, j, t, hd, h0, rfl⟩, rfl⟩)⟩
      · exact ⟨_, (returns_iff he hpub).2 (.inr ⟨e, .inl hf, rfl⟩)⟩
    obtain ⟨o, fuel, hf⟩ := this
    rw [hd fuel] at hf
    cases hf
  · intro hn
    rcases diverges_or_returns p mem with h | ⟨o, h⟩
    · exact h
    · exfalso
      rcases (returns_iff he hpub).1 h with ⟨t, ⟨r, j, hd, _⟩, _⟩ | ⟨e, hf | ⟨r, j, t, hd, _⟩, _⟩
      · exact hn (hd.acc [] 0 [] 0 0 [] rfl (.nil _ _))
      · exact hn (hf.acc [] 0 [] 0 0 [] rfl (.nil _ _))
      · exact hn (hd.acc [] 0 [] 0 0 [] rfl (.nil _ _))

end LL1.Live
