import Verif.Spec.Derivation

/-!
# The stack machine computes exactly `Derives` / `FailsAt`
-/

namespace LL1

variable {tbl : Table} {names : Option Names} {src : Str}

theorem peek_eq (src : Str) (i : Nat) : peek src i = byteAt src i := by
  unfold peek byteAt
  split
  · rw [List.getD_eq_getElem?_getD, List.getElem?_eq_none (by assumption)]; rfl
  · next h => rw [List.getD_eq_getElem?_getD, List.getElem?_eq_getElem (Nat.lt_of_not_ge h)]; rfl

theorem byteAt_ge {src : Str} {i : Nat} (h : src.length ≤ i) : byteAt src i = 0 := by
  unfold byteAt
  rw [List.getD_eq_getElem?_getD, List.getElem?_eq_none h]; rfl

theorem LitAt.nil (src : Str) (i : Nat) : LitAt src [] i := by
  intro k hk; simp at hk

theorem litAt_cons (src : Str) (c : UInt8) (s : Str) (i : Nat) :
    LitAt src (c :: s) i ↔ c = byteAt src i ∧ LitAt src s (i + 1) := by
  constructor
  · intro h
    refine ⟨by simpa using h 0 (by simp), ?_⟩
    intro k hk
    have := h (k + 1) (by simpa using hk)
    rw [List.getElem?_cons_succ] at this
    rw [this]; congr 2; omega
  · rintro ⟨h1, h2⟩ k hk
    cases k with
    | zero => simp [h1]
    | succ k =>
      rw [List.getElem?_cons_succ, h2 k (by simpa using hk)]
      congr 2; omega

/-- Nodes of matched single characters. -/
def charNodes : Nat → Nat → List Node
  | _, 0 => []
  | i, k + 1 => .mk builtinTerminal i (i + 1) [] :: charNodes (i + 1) k

theorem charNodes_length (i k : Nat) : (charNodes i k).length = k := by
  induction k generalizing i with
  | zero => rfl
  | succ k ih => simp [charNodes, ih]

theorem charNodes_type (i k : Nat) : ∀ n ∈ charNodes i k, n.type = builtinTerminal := by
  induction k generalizing i with
  | zero => simp [charNodes]
  | succ k ih =>
    intro n hn
    rcases List.mem_cons.1 hn with rfl | h
    · rfl
    · exact ih _ n h

theorem popChilds_keep (cs P acc : List Node) :
    popChilds false cs.length (cs ++ P) acc = .ok (cs.reverse ++ acc, P) := by
  induction cs generalizing acc with
  | nil => rfl
  | cons c cs ih => simp [popChilds, ih]

theorem popChilds_discard (cs P acc : List Node) (h : ∀ n ∈ cs, n.type = builtinTerminal) :
    popChilds true cs.length (cs ++ P) acc = .ok (acc, P) := by
  induction cs generalizing acc with
  | nil => rfl
  | cons c cs ih =>
    have h1 := h c List.mem_cons_self
    simp only [List.length_cons, List.cons_append, popChilds, Bool.not_true, Bool.false_eq_true,
      if_false, h1, ne_eq, not_true_eq_false]
    exact ih acc (fun n hn => h n (List.mem_cons_of_mem _ hn))

theorem nodeTypeName_eq (names : Option Names) (n : Int) : nodeTypeName names n = rowName names n := by
  unfold nodeTypeName rowName
  cases names with
  | none => rfl
  | some m => simp only [Option.getD_some]; cases m.get n <;> rfl

theorem step_nonTerminal (S : List ParserOp) (P : List Node) (n : Int) (i : Nat) :
    step tbl names src ⟨i, .nonTerminal n :: S, P⟩ =
      match bodyFor tbl n (byteAt src i) with
      | some body => .next ⟨i, body ++ .function n i body.length :: S, P⟩
      | none => .done (.err (whyNot tbl names n (byteAt src i))) := by
  simp only [step, processNonTerminal, processTableNonTerminal, processBuiltinNonTerminal, bodyFor,
    whyNot, peek_eq, nodeTypeName_eq]
  by_cases h : n < 0
  · have h' : ¬ (0 ≤ n) := by omega
    simp only [h, h', if_true, if_false]
    by_cases h2 : n = -2
    · simp only [h2, if_true]
      by_cases hb : byteAt src i = 10
      · simp [hb]
      · by_cases hb' : byteAt src i = 13
        · simp [hb']
        · simp [hb, hb']
    · simp [h2]
  · have h' : 0 ≤ n := by omega
    simp only [h, h', if_true, if_false]
    cases hr : tbl.get n with
    | none => simp
    | some row =>
      simp only [Option.bind_some]
      cases hc : GoMap.get row (byteAt src i) with
      | none => simp
      | some body => simp

theorem step_function_zero (S : List ParserOp) (P : List Node) (n : Int) (i p : Nat) :
    step tbl names src ⟨i, .function n p 0 :: S, P⟩ =
      .next ⟨i, S, .mk n i i [nothingNode i] :: P⟩ := by
  simp [step, processFunction, nothingNode, builtinNothing]

theorem step_function_lit (S : List ParserOp) (P cs : List Node) (i p : Nat)
    (hcs : cs ≠ []) (h : ∀ n ∈ cs, n.type = builtinTerminal) :
    step tbl names src ⟨i, .function builtinTerminal p cs.length :: S, cs ++ P⟩ =
      .next ⟨i, S, .mk (-1) p i [] :: P⟩ := by
  have hl : cs.length ≠ 0 := by simpa using hcs
  simp only [step, processFunction, hl, if_false, decide_true]
  rw [popChilds_discard _ _ _ h]
  rfl

theorem step_function_nt (S : List ParserOp) (P cs : List Node) (n : Int) (i p : Nat)
    (hcs : cs ≠ []) (hn : n ≠ builtinTerminal) :
    step tbl names src ⟨i, .function n p cs.length :: S, cs.reverse ++ P⟩ =
      .next ⟨i, S, .mk n p i cs :: P⟩ := by
  have hl : cs.length ≠ 0 := by simpa using hcs
  simp only [step, processFunction, hl, if_false, hn, decide_false]
  have := popChilds_keep cs.reverse P []
  rw [List.length_reverse, List.reverse_reverse] at this
  rw [this]
  simp

/-- Running the character operations of a matching literal. -/
theorem run_chars (s : Str) (i : Nat) (h : LitAt src s i) (fuel : Nat) (S : List ParserOp)
    (P : List Node) :
    runFuel tbl names src (fuel + s.length) ⟨i, s.map .char ++ S, P⟩ =
      runFuel tbl names src fuel ⟨i + s.length, S, (charNodes i s.length).reverse ++ P⟩ := by
  induction s generalizing i P with
  | nil => simp [charNodes]
  | cons c s ih =>
    rw [litAt_cons] at h
    have e : fuel + (c :: s).length = (fuel + s.length) + 1 := by simp; omega
    rw [e, runFuel]
    simp only [List.map_cons, List.cons_append, step, processChar, peek_eq, h.1, ne_eq,
      not_true_eq_false, if_false]
    rw [ih (i + 1) h.2]
    congr 2
    · simp; omega
    · simp [charNodes]

theorem run_literal (s : Str) (i : Nat) (h : LitAt src s i) (fuel : Nat) (S : List ParserOp)
    (P : List Node) :
    runFuel tbl names src (fuel + (s.length + 2)) ⟨i, .terminal s :: S, P⟩ =
      runFuel tbl names src fuel ⟨i + s.length, S, literalNode s i :: P⟩ := by
  have e : fuel + (s.length + 2) = ((fuel + 1) + s.length) + 1 := by omega
  rw [e, runFuel]
  simp only [step, processTerminal]
  rw [run_chars s i h]
  by_cases hs : s = []
  · subst hs
    rw [runFuel]
    simp [charNodes, step_function_zero, literalNode, builtinTerminal]
  · have hl : s.length ≠ 0 := by simpa using hs
    rw [runFuel]
    have hne : (charNodes i s.length).reverse ≠ [] := by
      intro h
      have := congrArg List.length h
      simp [charNodes_length] at this
      exact hs this
    have := step_function_lit (tbl := tbl) (names := names) (src := src) S P
      (charNodes i s.length).reverse (i + s.length) i hne
      (by intro n hn; exact charNodes_type i s.length n (by simpa using hn))
    rw [List.length_reverse, charNodes_length] at this
    rw [this]
    simp [literalNode, hs]

theorem Derives.length {ops : List ParserOp} {i j : Nat} {cs : List Node}
    (h : Derives tbl src ops i j cs) : cs.length = ops.length := by
  induction h <;> simp_all

theorem bodyFor_ne {n : Int} {b : UInt8} {body : List ParserOp} (h : bodyFor tbl n b = some body) :
    n ≠ builtinTerminal := by
  rintro rfl
  simp [bodyFor, builtinTerminal] at h

/-- Finishing a non-terminal. -/
theorem run_function (n : Int) (i j : Nat) (body : List ParserOp) (cs : List Node)
    (hl : cs.length = body.length) (hn : n ≠ builtinTerminal) (hij : body = [] → i = j) (fuel : Nat)
    (S : List ParserOp) (P : List Node) :
    runFuel tbl names src (fuel + 1) ⟨j, .function n i body.length :: S, cs.reverse ++ P⟩ =
      runFuel tbl names src fuel ⟨j, S, ntNode n i j body cs :: P⟩ := by
  rw [runFuel]
  by_cases hb : body = []
  · subst hb
    have : cs = [] := by simpa using hl
    subst this
    have := hij rfl
    subst this
    simp [step_function_zero, ntNode]
  · have hcs : cs ≠ [] := by
      intro h; subst h; exact hb (List.eq_nil_of_length_eq_zero hl.symm)
    rw [← hl, step_function_nt S P cs n j i hcs hn]
    simp [ntNode, hb]

theorem Derives.nil_inv {i j : Nat} {cs : List Node} (h : Derives tbl src [] i j cs) : i = j ∧ cs = [] := by
  cases h; exact ⟨rfl, rfl⟩

/-- Simulation: the machine performs every derivation. -/
theorem run_derives {ops : List ParserOp} {i j : Nat} {cs : List Node}
    (h : Derives tbl src ops i j cs) :
    ∃ k, ∀ fuel S P, runFuel tbl names src (fuel + k) ⟨i, ops ++ S, P⟩ =
      runFuel tbl names src fuel ⟨j, S, cs.reverse ++ P⟩ := by
  induction h with
  | nil i => exact ⟨0, by simp⟩
  | @lit s ops i j cs hl hd ih =>
    obtain ⟨k, hk⟩ := ih
    refine ⟨k + (s.length + 2), fun fuel S P => ?_⟩
    rw [← Nat.add_assoc, List.cons_append, run_literal s i hl, hk]
    simp
  | @nt n body ops i j k cs ds hb hd1 hd2 ih1 ih2 =>
    obtain ⟨k1, hk1⟩ := ih1
    obtain ⟨k2, hk2⟩ := ih2
    refine ⟨((k2 + 1) + k1) + 1, fun fuel S P => ?_⟩
    have e : fuel + (((k2 + 1) + k1) + 1) = (((fuel + k2) + 1) + k1) + 1 := by omega
    rw [e, runFuel, List.cons_append, step_nonTerminal, hb]
    simp only
    rw [hk1, run_function n i j body cs hd1.length (bodyFor_ne hb), hk2]
    · simp
    · rintro rfl
      exact hd1.nil_inv.1

theorem run_chars_fail (s : Str) (i k : Nat) (c : UInt8) (h : LitAt src (s.take k) i)
    (hc : s[k]? = some c) (hne : c ≠ byteAt src (i + k)) (S : List ParserOp) (P : List Node) (fuel : Nat) :
    runFuel tbl names src (fuel + k + 1) ⟨i, s.map .char ++ S, P⟩ =
      some (.err (.expectedChar c (byteAt src (i + k)))) := by
  induction k generalizing s i P with
  | zero =>
    cases s with
    | nil => simp at hc
    | cons d s =>
      simp only [List.getElem?_cons_zero, Option.some.injEq] at hc
      subst hc
      rw [runFuel]
      simp only [Nat.add_zero] at hne ⊢
      simp [step, processChar, peek_eq, hne]
  | succ k ih =>
    cases s with
    | nil => simp at hc
    | cons d s =>
      rw [List.take_succ_cons, litAt_cons] at h
      rw [List.getElem?_cons_succ] at hc
      have e1 : i + (k + 1) = (i + 1) + k := by omega
      rw [e1] at hne ⊢
      have := ih s (i + 1) h.2 hc hne (P := .mk builtinTerminal i (i + 1) [] :: P)
      rw [show fuel + (k + 1) + 1 = (fuel + k + 1) + 1 by omega, runFuel]
      simp only [List.map_cons, List.cons_append, step, processChar, peek_eq, h.1, ne_eq,
        not_true_eq_false, if_false]
      exact this

/-- Simulation: the machine reports every stuck derivation. -/
theorem run_fails {ops : List ParserOp} {i k : Nat} {e : PErr}
    (h : FailsAt tbl names src ops i k e) :
    ∃ m, ∀ S P, runFuel tbl names src m ⟨i, ops ++ S, P⟩ = some (.err e) := by
  induction h with
  | @lit s ops i k c h1 h2 h3 =>
    refine ⟨(0 + k + 1) + 1, fun S P => ?_⟩
    rw [runFuel]
    simp only [List.cons_append, step, processTerminal]
    exact run_chars_fail s i k c h1 h2 h3 _ _ 0
  | @afterLit s ops i k e hl hf ih =>
    obtain ⟨m, hm⟩ := ih
    refine ⟨m + (s.length + 2), fun S P => ?_⟩
    rw [List.cons_append, run_literal s i hl, hm]
  | @noBody n ops i hb =>
    refine ⟨0 + 1, fun S P => ?_⟩
    rw [runFuel, List.cons_append, step_nonTerminal, hb]
  | @inside n body ops i k e hb hf ih =>
    obtain ⟨m, hm⟩ := ih
    refine ⟨m + 1, fun S P => ?_⟩
    rw [runFuel, List.cons_append, step_nonTerminal, hb]
    exact hm _ _
  | @afterNt n body ops i j k cs e hb hd hf ih =>
    obtain ⟨m, hm⟩ := ih
    obtain ⟨k1, hk1⟩ := run_derives (names := names) hd
    refine ⟨((m + 1) + k1) + 1, fun S P => ?_⟩
    rw [runFuel, List.cons_append, step_nonTerminal, hb]
    simp only
    rw [hk1, run_function n i j body cs hd.length (bodyFor_ne hb), hm]
    rintro rfl
    exact hd.nil_inv.1

theorem runFuel_mono {fuel : Nat} {s : PState} {o : Outcome} (h : runFuel tbl names src fuel s = some o)
    (k : Nat) : runFuel tbl names src (fuel + k) s = some o := by
  induction fuel generalizing s with
  | zero => simp [runFuel] at h
  | succ f ih =>
    rw [show f + 1 + k = (f + k) + 1 by omega, runFuel]
    rw [runFuel] at h
    cases hs : step tbl names src s with
    | next s' => rw [hs] at h; simp only at h ⊢; exact ih h
    | done o' => rw [hs] at h; simpa using h

theorem runFuel_mono_le {f g : Nat} {s : PState} {o : Outcome} (h : runFuel tbl names src f s = some o)
    (hle : f ≤ g) : runFuel tbl names src g s = some o := by
  obtain ⟨k, rfl⟩ := Nat.exists_eq_add_of_le hle
  exact runFuel_mono h k

theorem runFuel_det {f g : Nat} {s : PState} {o o' : Outcome} (h : runFuel tbl names src f s = some o)
    (h' : runFuel tbl names src g s = some o') : o = o' := by
  have h1 := runFuel_mono_le h (Nat.le_max_left f g)
  have h2 := runFuel_mono_le h' (Nat.le_max_right f g)
  rw [h1] at h2
  exact Option.some.inj h2

/-- What the machine does with the characters of a literal. -/
theorem chars_inv (s : Str) (i : Nat) (fuel : Nat) (S : List ParserOp) (P : List Node) (o : Outcome)
    (h : runFuel tbl names src fuel ⟨i, s.map .char ++ S, P⟩ = some o) :
    (LitAt src s i ∧ ∃ f, fuel = f + s.length ∧
      runFuel tbl names src f ⟨i + s.length, S, (charNodes i s.length).reverse ++ P⟩ = some o) ∨
    (∃ k c, LitAt src (s.take k) i ∧ s[k]? = some c ∧ c ≠ byteAt src (i + k) ∧
      o = .err (.expectedChar c (byteAt src (i + k)))) := by
  induction s generalizing i fuel P with
  | nil => exact Or.inl ⟨LitAt.nil _ _, fuel, by simp, by simpa [charNodes] using h⟩
  | cons c s ih =>
    cases fuel with
    | zero => simp [runFuel] at h
    | succ f =>
      rw [runFuel] at h
      simp only [List.map_cons, List.cons_append, step, processChar, peek_eq] at h
      by_cases hc : c = byteAt src i
      · simp only [hc, ne_eq, not_true_eq_false, if_false] at h
        rcases ih (i + 1) f _ h with ⟨hl, f', hf, hr⟩ | ⟨k, d, h1, h2, h3, h4⟩
        · refine Or.inl ⟨(litAt_cons ..).2 ⟨hc, hl⟩, f', by simp; omega, ?_⟩
          rw [← hr]
          congr 2
          · simp; omega
          · simp [charNodes]
        · refine Or.inr ⟨k + 1, d, ?_, by simpa using h2, ?_, ?_⟩
          · rw [List.take_succ_cons, litAt_cons]; exact ⟨hc, h1⟩
          · rw [show i + (k + 1) = i + 1 + k by omega]; exact h3
          · rw [show i + (k + 1) = i + 1 + k by omega]; exact h4
      · simp only [ne_eq, hc, not_false_eq_true, if_true, Option.some.injEq] at h
        exact Or.inr ⟨0, c, by simpa using LitAt.nil _ _, by simp, by simpa using hc, by simpa using h.symm⟩

/-- Every run of the machine on public operations is a derivation or a stuck derivation. -/
theorem run_inv (hpub : Table.Public tbl) (fuel : Nat) : ∀ (ops : List ParserOp) (i : Nat)
    (S : List ParserOp) (P : List Node) (o : Outcome), (∀ op ∈ ops, op.Public) →
    runFuel tbl names src fuel ⟨i, ops ++ S, P⟩ = some o →
    (∃ j cs f, Derives tbl src ops i j cs ∧ f ≤ fuel ∧
      runFuel tbl names src f ⟨j, S, cs.reverse ++ P⟩ = some o) ∨
    (∃ k e, FailsAt tbl names src ops i k e ∧ o = .err e) := by
  induction fuel using Nat.strongRecOn with
  | ind fuel IH =>
    intro ops i S P o hops h
    cases ops with
    | nil => exact Or.inl ⟨i, [], fuel, .nil i, Nat.le_refl _, by simpa using h⟩
    | cons op ops =>
      have hops' : ∀ op ∈ ops, op.Public := fun x hx => hops x (List.mem_cons_of_mem _ hx)
      have hop := hops op List.mem_cons_self
      cases fuel with
      | zero => simp [runFuel] at h
      | succ f =>
        cases op with
        | terminal s =>
          rw [runFuel] at h
          simp only [List.cons_append, step, processTerminal] at h
          rcases chars_inv s i f _ P o h with ⟨hl, f', hf, hr⟩ | ⟨k, c, h1, h2, h3, h4⟩
          · -- literal matched: replay with run_literal
            have hr' : ∃ f'', f' = f'' + 1 := by
              cases f' with
              | zero => simp [runFuel] at hr
              | succ f'' => exact ⟨f'', rfl⟩
            obtain ⟨f'', rfl⟩ := hr'
            have h' : runFuel tbl names src (f'' + (s.length + 2)) ⟨i, .terminal s :: (ops ++ S), P⟩ = some o := by
              rw [show f'' + (s.length + 2) = f + 1 by omega, runFuel]
              simpa only [step, processTerminal] using h
            rw [run_literal s i hl] at h'
            rcases IH f'' (by omega) ops _ S _ o hops' h' with ⟨j, cs, g, hd, hg, hrun⟩ | ⟨k, e, hf, ho⟩
            · refine Or.inl ⟨j, _, g, .lit hl hd, by omega, by simpa using hrun⟩
            · exact Or.inr ⟨k, e, .afterLit hl hf, ho⟩
          · exact Or.inr ⟨_, _, .lit h1 h2 h3, h4⟩
        | nonTerminal n =>
          rw [runFuel, List.cons_append, step_nonTerminal] at h
          cases hb : bodyFor tbl n (byteAt src i) with
          | none =>
            rw [hb] at h
            simp only [Option.some.injEq] at h
            exact Or.inr ⟨i, _, .noBody hb, h.symm⟩
          | some body =>
            rw [hb] at h
            simp only at h
            have hbp : ∀ op ∈ body, op.Public := by
              simp only [bodyFor] at hb
              split at hb
              · cases hr : tbl.get n with
                | none => simp [hr] at hb
                | some row =>
                  simp only [hr, Option.bind_some] at hb
                  exact hpub n row _ body hr hb
              · split at hb
                · split at hb
                  · simp only [Option.some.injEq] at hb; subst hb; simp [ParserOp.Public]
                  · split at hb
                    · simp only [Option.some.injEq] at hb; subst hb; simp [ParserOp.Public]
                    · simp at hb
                · simp at hb
            rcases IH f (by omega) body i _ P o hbp h with ⟨j, cs, g, hd, hg, hrun⟩ | ⟨k, e, hf, ho⟩
            · cases g with
              | zero => simp [runFuel] at hrun
              | succ g =>
                rw [run_function n i j body cs hd.length (bodyFor_ne hb)
                  (by rintro rfl; exact hd.nil_inv.1)] at hrun
                rcases IH g (by omega) ops j S _ o hops' hrun with ⟨j', ds, g', hd', hg', hrun'⟩ | ⟨k, e, hf, ho⟩
                · exact Or.inl ⟨j', _, g', .nt hb hd hd', by omega, by simpa using hrun'⟩
                · exact Or.inr ⟨k, e, .afterNt hb hd hf, ho⟩
            · exact Or.inr ⟨k, e, .inside hb hf, ho⟩
        | function _ _ _ => exact hop.elim
        | eos => exact hop.elim
        | char _ => exact hop.elim
        | nil => exact hop.elim

theorem Derives.det {ops : List ParserOp} {i j : Nat} {cs : List Node}
    (h : Derives tbl src ops i j cs) : ∀ {j' cs'}, Derives tbl src ops i j' cs' → j = j' ∧ cs = cs' := by
  induction h with
  | nil i => intro j' cs' h'; cases h'; exact ⟨rfl, rfl⟩
  | lit hl hd ih =>
    intro j' cs' h'
    cases h' with
    | lit hl' hd' =>
      obtain ⟨h1, h2⟩ := ih hd'
      exact ⟨h1, by rw [h2]⟩
  | nt hb hd1 hd2 ih1 ih2 =>
    intro j' cs' h'
    cases h' with
    | nt hb' hd1' hd2' =>
      rw [hb] at hb'
      simp only [Option.some.injEq] at hb'
      subst hb'
      obtain ⟨h1, h2⟩ := ih1 hd1'
      subst h1 h2
      obtain ⟨h3, h4⟩ := ih2 hd2'
      subst h3 h4
      exact ⟨rfl, rfl⟩

/-- How `Parse` ends after a complete derivation. -/
def finish (names : Option Names) (t : Node) : Outcome :=
  match names with
  | none => .panic .nilMapWrite
  | some m => .ok t (addBuiltinNames m)

/-- The outcome when the derivation is complete and only end-of-input is left. -/
theorem run_eos (j : Nat) (t : Node) (fuel : Nat) :
    runFuel tbl names src (fuel + 1) ⟨j, [.eos], [t]⟩ =
      some (if byteAt src j ≠ 0 then .err (.expectedEnd (byteAt src j)) else finish names t) := by
  rw [runFuel]
  simp only [step, processEOS, peek_eq]
  by_cases h : byteAt src j = 0
  · simp only [h, ne_eq, not_true_eq_false, if_false]
    cases names <;> rfl
  · simp [h]

/-- Everything the parsing loop can do. -/
theorem run_init (hpub : Table.Public tbl) {fuel : Nat} {o : Outcome}
    (h : runFuel tbl names src fuel initState = some o) :
    (∃ t, IsParse tbl src t ∧ o = finish names t) ∨
    (∃ k e, StuckAt tbl names src k e ∧ o = .err e) := by
  rcases run_inv hpub fuel [.nonTerminal 0] 0 [.eos] [] o (by simp [ParserOp.Public]) h with
    ⟨j, cs, f, hd, hf, hrun⟩ | ⟨k, e, hf, ho⟩
  · have hl := hd.length
    match cs, hl with
    | [t], _ =>
      cases f with
      | zero => simp [runFuel] at hrun
      | succ f =>
        simp only [List.reverse_cons, List.reverse_nil, List.nil_append, List.append_nil] at hrun
        rw [run_eos] at hrun
        simp only [Option.some.injEq] at hrun
        by_cases hb : byteAt src j = 0
        · simp only [hb, ne_eq, not_true_eq_false, if_false] at hrun
          exact Or.inl ⟨t, ⟨j, hd, hb⟩, hrun.symm⟩
        · simp only [hb, ne_eq, not_false_eq_true, if_true] at hrun
          exact Or.inr ⟨j, _, Or.inr ⟨t, hd, hb, rfl⟩, hrun.symm⟩
  · exact Or.inr ⟨k, e, Or.inl hf, ho⟩

theorem run_of_isParse {t : Node} (h : IsParse tbl src t) :
    ∃ fuel, runFuel tbl names src fuel initState = some (finish names t) := by
  obtain ⟨j, hd, hb⟩ := h
  obtain ⟨k, hk⟩ := run_derives (names := names) hd
  refine ⟨0 + 1 + k, ?_⟩
  have := hk (0 + 1) [.eos] []
  simp only [List.singleton_append, List.reverse_cons, List.reverse_nil, List.nil_append, List.append_nil] at this
  rw [initState, this, run_eos]
  simp only [hb, ne_eq, not_true_eq_false, if_false]

theorem run_of_stuckAt {k : Nat} {e : PErr} (h : StuckAt tbl names src k e) :
    ∃ fuel, runFuel tbl names src fuel initState = some (.err e) := by
  rcases h with hf | ⟨t, hd, hb, rfl⟩
  · obtain ⟨m, hm⟩ := run_fails hf
    exact ⟨m, hm [.eos] []⟩
  · obtain ⟨m, hk⟩ := run_derives (names := names) hd
    refine ⟨0 + 1 + m, ?_⟩
    have := hk (0 + 1) [.eos] []
    simp only [List.singleton_append, List.reverse_cons, List.reverse_nil, List.nil_append, List.append_nil] at this
    rw [initState, this, run_eos]
    simp only [hb, ne_eq, not_false_eq_true, if_true]

end LL1
