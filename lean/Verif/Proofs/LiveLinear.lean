import Verif.Proofs.Dichotomy
import Verif.Proofs.LiveFacts

/-!
# Parsing a source that changes takes linear time unless it can hang

Weights: a row weighs more than all the rows it can come to without consuming anything, taken together; entering a row by a
body that must consume something is paid for by the byte consumed before.
-/

namespace LL1.LiveLin

open Live

variable {tbl : Table} {names : Option Names} {mem : Nat → Str}

/-! ## Ranks -/

theorem corner_asked {n m : Int} (h : AnyCorner tbl n m) : m ∈ asked tbl := by
  obtain ⟨b, pre, post, hb, _⟩ := h
  exact List.mem_flatMap.2 ⟨_, Lin.mem_cells hb, List.mem_filterMap.2 ⟨.nonTerminal m, by simp, rfl⟩⟩

/-- Number of rows a row can come to without consuming anything. -/
noncomputable def rank (tbl : Table) (n : Int) : Nat :=
  open Classical in (asked tbl).countP fun k => decide (Steps1 (AnyCorner tbl) n k)

/-- More than any rank. -/
def top (tbl : Table) : Nat := (asked tbl).length + 1

theorem rank_lt_top (n : Int) : rank tbl n + 1 ≤ top tbl := by
  have := List.countP_le_length (p := fun k => @decide (Steps1 (AnyCorner tbl) n k) (Classical.propDecidable _)) (l := asked tbl)
  unfold rank top
  omega

theorem rank_lt {n m : Int} (h : AnyCorner tbl n m) (hm : ¬ Steps1 (AnyCorner tbl) m m) : rank tbl m < rank tbl n := by
  classical
  unfold rank
  refine countP_lt (x := m) ?_ (corner_asked h) (decide_eq_true ⟨n, .refl, h⟩) (decide_eq_false hm)
  intro x _ hx
  obtain ⟨y, h1, h2⟩ := of_decide_eq_true hx
  exact decide_eq_true ⟨y, .head h h1, h2⟩

/-! ## Weights -/

/-- What an operation counts in a body. -/
def base : ParserOp → Nat
  | .terminal s => s.length + 2
  | _ => 1

def bases (ops : List ParserOp) : Nat := (ops.map base).sum

noncomputable def weight (tbl : Table) (B : Nat) : ParserOp → Nat
  | .nonTerminal n => B ^ (rank tbl n + 1)
  | op => base op

noncomputable def weights (tbl : Table) (B : Nat) (ops : List ParserOp) : Nat := (ops.map (weight tbl B)).sum

theorem weights_append (B : Nat) (xs ys : List ParserOp) : weights tbl B (xs ++ ys) = weights tbl B xs + weights tbl B ys := by
  simp [weights]

theorem weights_cons (B : Nat) (x : ParserOp) (ys : List ParserOp) :
    weights tbl B (x :: ys) = weight tbl B x + weights tbl B ys := by
  simp [weights]

theorem weights_le {B e : Nat} (hB : 1 ≤ B) {ops : List ParserOp} (h : ∀ m, .nonTerminal m ∈ ops → rank tbl m + 1 ≤ e) :
    weights tbl B ops ≤ bases ops * B ^ e := by
  induction ops with
  | nil => simp [weights]
  | cons op ops ih =>
    have ih := ih fun m hm => h m (List.mem_cons_of_mem _ hm)
    rw [weights_cons, show bases (op :: ops) = base op + bases ops by simp [bases], Nat.add_mul]
    have hp : 1 ≤ B ^ e := Nat.one_le_pow _ _ hB
    have : weight tbl B op ≤ base op * B ^ e := by
      cases op with
      | nonTerminal m =>
        simp only [weight, base, Nat.one_mul]
        exact Nat.pow_le_pow_right hB (h m List.mem_cons_self)
      | _ => simp only [weight]; exact Nat.le_mul_of_pos_right _ hp
    omega

/-! ## How many bodies that must consume can be entered before the next byte is consumed -/

open Classical in
noncomputable def due (tbl : Table) : List ParserOp → Nat
  | [] => 0
  | .nonTerminal n :: S => if CanVanish tbl [.nonTerminal n] then max (rank tbl n + 1) (due tbl S) else rank tbl n + 1
  | .terminal [] :: S => due tbl S
  | .terminal (_ :: _) :: _ => 0
  | .function _ _ _ :: S => due tbl S
  | .char _ :: _ => 0
  | .eos :: _ => 0
  | .nil :: _ => 0

theorem due_le (S : List ParserOp) : due tbl S ≤ top tbl := by
  induction S with
  | nil => simp [due]
  | cons op S ih =>
    cases op with
    | nonTerminal n =>
      have := rank_lt_top (tbl := tbl) n
      unfold due
      split <;> omega
    | terminal t => cases t <;> simp [due, ih]
    | function => simpa [due] using ih
    | _ => simp [due]

theorem canVanish_cons {op : ParserOp} {ops : List ParserOp} (h1 : CanVanish tbl [op]) (h2 : CanVanish tbl ops) :
    CanVanish tbl (op :: ops) := by
  cases h1 with
  | lit => exact .lit h2
  | nt hb hbody _ => exact .nt hb hbody h2

theorem canVanish_append {xs ys : List ParserOp} (h1 : CanVanish tbl xs) (h2 : CanVanish tbl ys) : CanVanish tbl (xs ++ ys) := by
  induction h1 with
  | nil => exact h2
  | lit _ ih => exact .lit ih
  | nt hb hbody _ _ ih => exact .nt hb hbody ih

/-- The rows at the front of `body` have rank below `ρ`. -/
theorem due_body {ρ : Nat} (body : List ParserOp) (hpub : ∀ op ∈ body, op.Public) (S : List ParserOp)
    (h : ∀ pre m post, body = pre ++ .nonTerminal m :: post → CanVanish tbl pre → rank tbl m + 1 ≤ ρ) :
    (CanVanish tbl body → due tbl (body ++ S) ≤ max ρ (due tbl S)) ∧ (¬ CanVanish tbl body → due tbl (body ++ S) ≤ ρ) := by
  induction body with
  | nil => exact ⟨fun _ => by simp; omega, fun hn => (hn .nil).elim⟩
  | cons op body ih =>
    have ih' := fun (h1 : CanVanish tbl [op]) => ih (fun o ho => hpub o (List.mem_cons_of_mem _ ho)) fun pre m post he hv =>
      h (op :: pre) m post (by rw [he]; rfl) (canVanish_cons h1 hv)
    have hp := hpub op List.mem_cons_self
    have hsplit : CanVanish tbl (op :: body) ↔ CanVanish tbl [op] ∧ CanVanish tbl body :=
      ⟨fun hc => CanVanish.append_inv (xs := [op]) hc, fun hc => canVanish_cons hc.1 hc.2⟩
    cases op with
    | nonTerminal n =>
      have hn := h [] n body rfl .nil
      simp only [List.cons_append, due]
      rw [hsplit]
      by_cases hv : CanVanish tbl [.nonTerminal n]
      · simp only [hv, if_true, true_and]
        obtain ⟨i1, i2⟩ := ih' hv
        exact ⟨fun hc => by have := i1 hc; omega, fun hc => by have := i2 hc; omega⟩
      · simp only [hv, if_false, false_and, not_false_eq_true, forall_const]
        exact ⟨fun hc => hc.elim, hn⟩
    | terminal t =>
      cases t with
      | nil =>
        simp only [List.cons_append, due]
        rw [hsplit]
        have hv : CanVanish tbl [.terminal []] := .lit .nil
        simp only [hv, true_and]
        exact ih' hv
      | cons c t => simp [due]
    | _ => simp [ParserOp.Public] at hp

/-! ## Invariants of a run -/

/-- Rows that can come to the top are rows some input leads to. -/
def Led (tbl : Table) (ops : List ParserOp) : Prop :=
  ∀ pre m post, ops = pre ++ .nonTerminal m :: post → CanFinish tbl pre → Steps (AnyEnters tbl) 0 m

theorem canFinish_append {xs ys : List ParserOp} (h1 : CanFinish tbl xs) (h2 : CanFinish tbl ys) : CanFinish tbl (xs ++ ys) := by
  induction h1 with
  | nil => exact h2
  | lit _ ih => exact .lit ih
  | nt hb hbody _ _ ih => exact .nt hb hbody ih

theorem canFinish_append_inv {xs ys : List ParserOp} (h : CanFinish tbl (xs ++ ys)) : CanFinish tbl xs ∧ CanFinish tbl ys := by
  induction xs with
  | nil => exact ⟨.nil, h⟩
  | cons x xs ih =>
    cases h with
    | lit h => obtain ⟨a, b⟩ := ih h; exact ⟨.lit a, b⟩
    | nt hb h1 h => obtain ⟨a, b⟩ := ih h; exact ⟨.nt hb h1 a, b⟩

theorem Led.tail {op : ParserOp} {ops : List ParserOp} (h : Led tbl (op :: ops)) (ho : CanFinish tbl [op]) : Led tbl ops :=
  fun pre m post he hf => h (op :: pre) m post (by rw [he]; rfl) (canFinish_append (xs := [op]) ho hf)

theorem Led.expand {n : Int} {b : UInt8} {body ops : List ParserOp} (h : Led tbl (.nonTerminal n :: ops))
    (hb : bodyFor tbl n b = some body) : Led tbl (body ++ ops) := by
  intro pre m post he hf
  rcases List.append_eq_append_iff.1 he with ⟨a, rfl, ha⟩ | ⟨a, rfl, ha⟩
  · obtain ⟨h1, h2⟩ := canFinish_append_inv hf
    exact h (.nonTerminal n :: a) m post (by rw [ha]; rfl) (.nt hb h1 h2)
  · cases a with
    | nil =>
      simp only [List.nil_append] at ha
      rw [List.append_nil] at hb
      exact h [.nonTerminal n] m post (by rw [← ha]; rfl) (.nt hb hf .nil)
    | cons x a =>
      simp only [List.cons_append, List.cons.injEq] at ha
      rw [← ha.1] at hb
      exact .step (h [] n ops rfl .nil) ⟨b, pre, a, hb, hf⟩

theorem Led.chars {s : Str} {ops : List ParserOp} (h : Led tbl (.terminal s :: ops)) :
    Led tbl (s.map (fun c => ParserOp.terminal [c]) ++ ops) := by
  intro pre m post he hf
  rcases List.append_eq_append_iff.1 he with ⟨a, rfl, ha⟩ | ⟨a, hpre, ha⟩
  · exact h (.terminal s :: a) m post (by rw [ha]; rfl) (.lit (canFinish_append_inv hf).2)
  · cases a with
    | nil =>
      simp only [List.nil_append] at ha
      exact h [.terminal s] m post (by rw [← ha]; rfl) (.lit .nil)
    | cons x a =>
      simp only [List.cons_append, List.cons.injEq] at ha
      have : ParserOp.nonTerminal m ∈ s.map (fun c => ParserOp.terminal [c]) := by rw [hpre, ← ha.1]; simp
      simp at this

/-- No operation wants a NUL byte. -/
def NoNul (ops : List ParserOp) : Prop := (∀ s, .terminal s ∈ ops → (0 : UInt8) ∉ s) ∧ .char 0 ∉ ops

/-- What the argument needs of a table: `M` bounds what the bodies count. -/
structure Fit (tbl : Table) (M : Nat) : Prop where
  pub : tbl.Public
  nulFree : tbl.NulFree
  small : ∀ n b body, bodyFor tbl n b = some body → bases body ≤ M
  noLoop : ∀ n, Steps (AnyEnters tbl) 0 n → ¬ Steps1 (AnyCorner tbl) n n

/-- The price of a body that must consume something. -/
def price (tbl : Table) (M : Nat) : Nat := M * (M + 2) ^ top tbl + 1

noncomputable def potential (tbl : Table) (M L : Nat) (s : PState) : Nat :=
  (L - s.offset) * (price tbl M * top tbl) + price tbl M * due tbl s.opStack + weights tbl (M + 2) s.opStack

theorem step_down {M L : Nat} (hf : Fit tbl M) (hL : ∀ r, (mem r).length = L) {r r' : Nat} {s s' : PState}
    (hled : Led tbl (flat s.opStack)) (hnul : NoNul s.opStack) (h : Live.step tbl names mem r s = .next r' s') :
    Led tbl (flat s'.opStack) ∧ NoNul s'.opStack ∧ potential tbl M L s' < potential tbl M L s := by
  obtain ⟨i, S, P⟩ := s
  cases S with
  | nil => simp [Live.step] at h
  | cons op S =>
    have hnul' : NoNul S := ⟨fun s hs => hnul.1 s (List.mem_cons_of_mem _ hs), fun hc => hnul.2 (List.mem_cons_of_mem _ hc)⟩
    cases op with
    | nonTerminal n =>
      rw [Live.step_nonTerminal] at h
      cases hb : bodyFor tbl n (byteAt (mem r) i) with
      | none => rw [hb] at h; cases h
      | some body =>
        rw [hb] at h
        cases h
        have hpb := bodyFor_public hf.pub hb
        have hn : Steps (AnyEnters tbl) 0 n := hled [] n (flat S) rfl .nil
        refine ⟨?_, ?_, ?_⟩
        · simp only
          rw [flat_public hpb]
          exact Led.expand hled hb
        · refine ⟨fun t ht => ?_, fun hc => ?_⟩
          · simp only [List.mem_append, List.mem_cons] at ht
            rcases ht with ht | ht | ht
            · exact bodyFor_nulFree hf.nulFree hb t ht
            · cases ht
            · exact hnul'.1 t ht
          · simp only [List.mem_append, List.mem_cons] at hc
            rcases hc with hc | hc | hc
            · have := hpb _ hc; simp [ParserOp.Public] at this
            · cases hc
            · exact hnul'.2 hc
        · have hrk : ∀ pre m post, body = pre ++ .nonTerminal m :: post → CanVanish tbl pre → rank tbl m + 1 ≤ rank tbl n := by
            intro pre m post he hv
            have hc : AnyCorner tbl n m := ⟨_, pre, post, by rw [hb, he], hv⟩
            exact rank_lt hc (hf.noLoop m (.step hn hc.enters))
          obtain ⟨d1, d2⟩ := due_body body hpb (.function n i body.length :: S) hrk
          have hM := hf.small _ _ _ hb
          have hdf : due tbl (.function n i body.length :: S) = due tbl S := by simp [due]
          rw [hdf] at d1
          simp only [potential, weights_append, weights_cons, weight, base]
          have hpow : 1 ≤ (M + 2) ^ rank tbl n := Nat.one_le_pow _ _ (by omega)
          have hpow' : (M + 2) ^ (rank tbl n + 1) = M * (M + 2) ^ rank tbl n + 2 * (M + 2) ^ rank tbl n := by
            rw [Nat.pow_succ, Nat.mul_comm, Nat.add_mul]
          by_cases hv : CanVanish tbl body
          · have hw : weights tbl (M + 2) body ≤ M * (M + 2) ^ rank tbl n := by
              refine Nat.le_trans (weights_le (by omega) fun m hm => ?_) (Nat.mul_le_mul_right _ hM)
              obtain ⟨pre, post, he⟩ := List.append_of_mem hm
              exact hrk pre m post he (he ▸ hv).append_inv.1
            have hdue : due tbl (.nonTerminal n :: S) = max (rank tbl n + 1) (due tbl S) := by
              simp only [due]
              rw [if_pos (.nt hb hv .nil)]
            have hd : due tbl (body ++ .function n i body.length :: S) ≤ due tbl (.nonTerminal n :: S) := by
              have := d1 hv; omega
            have := Nat.mul_le_mul_left (price tbl M) hd
            omega
          · have hw : weights tbl (M + 2) body ≤ M * (M + 2) ^ top tbl :=
              Nat.le_trans (weights_le (by omega) fun m _ => rank_lt_top m) (Nat.mul_le_mul_right _ hM)
            have hdue : rank tbl n + 1 ≤ due tbl (.nonTerminal n :: S) := by
              simp only [due]
              split <;> omega
            have hd : due tbl (body ++ .function n i body.length :: S) + 1 ≤ due tbl (.nonTerminal n :: S) := by
              have := d2 hv; omega
            have h1 := Nat.mul_le_mul_left (price tbl M) hd
            rw [Nat.mul_add, Nat.mul_one] at h1
            have h2 : price tbl M = M * (M + 2) ^ top tbl + 1 := rfl
            omega
    | terminal t =>
      simp only [Live.step, processTerminal] at h
      cases h
      refine ⟨?_, ?_, ?_⟩
      · simp only
        rw [flat_chars]
        exact Led.chars hled
      · refine ⟨fun u hu => ?_, fun hc => ?_⟩
        · simp only [List.mem_append, List.mem_cons, List.mem_map] at hu
          rcases hu with ⟨_, _, hu⟩ | hu | hu
          · cases hu
          · cases hu
          · exact hnul'.1 u hu
        · simp only [List.mem_append, List.mem_cons, List.mem_map] at hc
          rcases hc with ⟨c, hc, he⟩ | hc | hc
          · cases he; exact hnul.1 t List.mem_cons_self hc
          · cases hc
          · exact hnul'.2 hc
      · have hc : weights tbl (M + 2) (t.map .char) = t.length := by
          clear hled hnul
          induction t with
          | nil => rfl
          | cons c t ih => rw [List.map_cons, weights_cons, ih, List.length_cons]; simp only [weight, base]; omega
        simp only [potential, weights_append, weights_cons, weight, base, hc]
        cases t with
        | nil => simp [due]
        | cons c t => simp only [List.map_cons, List.cons_append, due]; omega
    | function n pos a =>
      have hres : s'.opStack = S ∧ s'.offset = i := by
        by_cases ha : a = 0
        · simp only [Live.step, Live.processFunction, LL1.processFunction, ha, if_true] at h; cases h; exact ⟨rfl, rfl⟩
        · simp only [Live.step, Live.processFunction, LL1.processFunction, ha, if_false] at h
          cases hp : popChilds (decide (n = builtinTerminal)) a P [] with
          | error p => rw [hp] at h; cases h
          | ok q => rw [hp] at h; cases h; exact ⟨rfl, rfl⟩
      refine ⟨by rw [hres.1]; exact hled, by rw [hres.1]; exact hnul', ?_⟩
      simp only [potential, hres.1, hres.2, due, weights_cons, weight, base]
      omega
    | char c =>
      by_cases hne : c ≠ peek (mem r) i
      · simp only [Live.step, Live.processChar, if_pos hne] at h; cases h
      · simp only [Live.step, Live.processChar, if_neg hne] at h
        cases h
        refine ⟨Led.tail hled (.lit .nil), hnul', ?_⟩
        have hc : c = byteAt (mem r) i := by rw [← peek_eq]; simpa using hne
        have hi : i < L := by
          apply Classical.byContradiction
          intro hge
          rw [byteAt_ge (by rw [hL]; omega)] at hc
          subst hc
          exact hnul.2 List.mem_cons_self
        simp only [potential, due, weights_cons, weight, base]
        have h3 := Nat.mul_le_mul_left (price tbl M) (due_le (tbl := tbl) S)
        have h4 : L - i = (L - (i + 1)) + 1 := by omega
        rw [h4, Nat.add_mul, Nat.one_mul]
        omega
    | eos => simp [Live.step] at h
    | nil => simp [Live.step] at h

theorem run_down {M L : Nat} (hf : Fit tbl M) (hL : ∀ r, (mem r).length = L) (f : Nat) : ∀ (r : Nat) (s : PState),
    Led tbl (flat s.opStack) → NoNul s.opStack → potential tbl M L s < f → ∃ o, Live.runFuel tbl names mem f r s = some o := by
  induction f with
  | zero => intro r s _ _ h; omega
  | succ f ih =>
    intro r s h1 h2 hp
    rw [Live.runFuel]
    cases hst : Live.step tbl names mem r s with
    | done o => exact ⟨o, rfl⟩
    | next r' s' =>
      obtain ⟨k1, k2, k3⟩ := step_down hf hL h1 h2 hst
      exact ih r' s' k1 k2 (by omega)

/-- A bound on what the bodies of a table count. -/
theorem exists_small (tbl : Table) : ∃ M, ∀ n b body, bodyFor tbl n b = some body → bases body ≤ M := by
  refine ⟨((Lin.cells tbl).map fun c => bases c.2.2).sum, fun n b body hb => ?_⟩
  have key : ∀ (L : List Nat) x, x ∈ L → x ≤ L.sum := by
    intro L
    induction L with
    | nil => intro x hx; cases hx
    | cons y L ih =>
      intro x hx
      rw [List.sum_cons]
      rcases List.mem_cons.1 hx with rfl | hx
      · omega
      · have := ih x hx; omega
  exact key _ _ (List.mem_map.2 ⟨_, Lin.mem_cells hb, rfl⟩)

/-- No row that some input leads to comes back to itself: one constant for all sources and all writers. -/
theorem linear (he : tbl.HasEntry) (hpub : tbl.Public) (hnf : tbl.NulFree)
    (hno : ∀ n, Steps (AnyEnters tbl) 0 n → ¬ Steps1 (AnyCorner tbl) n n) :
    ∃ C, ∀ (names : Option Names) (L : Nat) (mem : Nat → Str), (∀ r, (mem r).length = L) →
      ∃ o, Live.parseFuel (Parser.mk tbl names) (C * (L + 1)) mem = some o := by
  obtain ⟨M, hM⟩ := exists_small tbl
  have hf : Fit tbl M := ⟨hpub, hnf, hM, hno⟩
  refine ⟨price tbl M * top tbl + weights tbl (M + 2) initState.opStack + 1, fun names L mem hL => ?_⟩
  rw [Live.parseFuel_entry (p := Parser.mk tbl names) he]
  refine run_down hf hL _ 0 initState ?_ ?_ ?_
  · intro pre m post heq _
    simp only [initState, flat] at heq
    cases pre with
    | nil => cases heq; exact .refl
    | cons x pre => simp at heq
  · constructor
    · intro s hs; simp [initState] at hs
    · simp [initState]
  · have h1 := Nat.mul_le_mul_left (price tbl M) (due_le (tbl := tbl) initState.opStack)
    have h2 : initState.offset = 0 := rfl
    simp only [potential, h2, Nat.sub_zero]
    rw [Nat.mul_add, Nat.mul_one]
    have h3 : L * (price tbl M * top tbl) ≤ (price tbl M * top tbl + weights tbl (M + 2) initState.opStack + 1) * L := by
      rw [Nat.mul_comm]
      exact Nat.mul_le_mul_right _ (by omega)
    omega

end LL1.LiveLin
