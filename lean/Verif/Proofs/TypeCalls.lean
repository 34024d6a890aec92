import Verif.Spec.TypeCalls
import Verif.Spec.StringCalls
import Verif.Props.AnySymbol

/-!
# Lemmas for C110
-/

namespace LL1
namespace Weigh

open Told (Slice Sym RuleVal Mem)
open AnySym (Panic Cmp)

variable {W : Type}

theorem inOrder_zero {R : Nat → W → Cmp → W → Prop} {w w' : W} {c : Cmp} :
    InOrder 0 R w c w' ↔ c = .result true ∧ w' = w := by
  constructor
  · rintro ⟨ws, h0, _, ⟨hl, hw, hc⟩ | ⟨i, u, _, hi, _⟩⟩
    · match ws, hl with
      | [x], _ => simp at h0 hw; exact ⟨hc, by rw [← hw, h0]⟩
    · omega
  · rintro ⟨rfl, rfl⟩
    exact ⟨[w'], rfl, by intro i u v _ h; simp at h, .inl ⟨rfl, rfl, rfl⟩⟩

theorem inOrder_succ {n : Nat} {R : Nat → W → Cmp → W → Prop} {w w' : W} {c : Cmp} :
    InOrder (n + 1) R w c w' ↔
      (∃ u, R 0 w (.result true) u ∧ InOrder n (fun i => R (i + 1)) u c w') ∨ (R 0 w c w' ∧ c ≠ .result true) := by
  constructor
  · rintro ⟨ws, h0, hs, h⟩
    match ws, h0 with
    | [x], h0 =>
      simp at h0; subst h0
      rcases h with ⟨hl, _⟩ | ⟨i, u, hl, hi, hu, hR, hc⟩
      · simp at hl
      · simp at hl hu; subst hl; subst hu; exact .inr ⟨hR, hc⟩
    | x :: y :: ws, h0 =>
      simp at h0; subst h0
      refine .inl ⟨y, hs 0 x y rfl rfl, y :: ws, rfl, fun i u v hu hv => hs (i + 1) u v (by simpa using hu) (by simpa using hv), ?_⟩
      rcases h with ⟨hl, hw, hc⟩ | ⟨i, u, hl, hi, hu, hR, hc⟩
      · exact .inl ⟨by simpa using hl, by simpa using hw, hc⟩
      · cases i with
        | zero => simp at hl
        | succ i => exact .inr ⟨i, u, by simpa using hl, by omega, by simpa using hu, hR, hc⟩
  · rintro (⟨u, h, ws, h0, hs, h'⟩ | ⟨h, hc⟩)
    · match ws, h0 with
      | y :: ws, h0 =>
        simp at h0; subst h0
        refine ⟨w :: y :: ws, rfl, fun i u v hu hv => ?_, ?_⟩
        · cases i with
          | zero => simp at hu hv; subst hu; subst hv; exact h
          | succ i => exact hs i u v (by simpa using hu) (by simpa using hv)
        · rcases h' with ⟨hl, hw, hc⟩ | ⟨i, u, hl, hi, hu, hR, hc⟩
          · exact .inl ⟨by simpa using hl, by simpa using hw, hc⟩
          · exact .inr ⟨i + 1, u, by simpa using hl, by omega, by simpa using hu, hR, hc⟩
    · exact ⟨[w], rfl, by intro i u v _ h; simp at h, .inr ⟨0, w, rfl, by omega, rfl, h, hc⟩⟩

theorem loop_iff {α : Type} {rA rB : W → Nat → α} {eq : α → α → W → Cmp × W} {R : α → α → W → Cmp → W → Prop}
    (hR : ∀ x y w c w', eq x y w = (c, w') ↔ R x y w c w') (n i : Nat) (w : W) (c : Cmp) (w' : W) :
    compareLoop rA rB eq n i w = (c, w') ↔ InOrder n (fun j u => R (rA u (i + j)) (rB u (i + j)) u) w c w' := by
  induction n generalizing i w with
  | zero => rw [inOrder_zero]; simp [compareLoop, eq_comm]
  | succ n ih =>
    rw [inOrder_succ]
    have hi : (fun j u => R (rA u (i + (j + 1))) (rB u (i + (j + 1))) u) = fun j u => R (rA u (i + 1 + j)) (rB u (i + 1 + j)) u := by
      funext j u; rw [show i + (j + 1) = i + 1 + j by omega]
    simp only [hi, ← ih, compareLoop, Nat.add_zero, ← hR]
    rcases h : eq (rA w i) (rB w i) w with ⟨d, u⟩
    constructor
    · intro h'
      split at h'
      · rename_i he; cases he; exact .inl ⟨u, rfl, h'⟩
      · rename_i hne he
        cases he; cases h'
        refine .inr ⟨rfl, fun hc => ?_⟩
        subst hc; exact hne rfl
    · rintro (⟨v, hv, h'⟩ | ⟨hv, hc⟩)
      · cases hv; exact h'
      · cases hv
        split
        · rename_i he; cases he; exact (hc rfl).elim
        · rename_i he; cases he; rfl

theorem slice_iff {α : Type} {read : W → Slice → Nat → α} {eq : α → α → W → Cmp × W} {R : α → α → W → Cmp → W → Prop}
    (hR : ∀ x y w c w', eq x y w = (c, w') ↔ R x y w c w') (a b : Slice) (w : W) (c : Cmp) (w' : W) :
    (if a.len ≠ b.len then (.result false, w) else compareLoop (fun w i => read w a i) (fun w i => read w b i) eq a.len 0 w) =
      (c, w') ↔ SliceCmp read R a b w c w' := by
  unfold SliceCmp
  split
  · rename_i h
    simp only [h, ne_eq, not_false_eq_true, true_and, false_and, or_false, Prod.mk.injEq]
    exact ⟨fun ⟨a, b⟩ => ⟨a.symm, b.symm⟩, fun ⟨a, b⟩ => ⟨a.symm, b.symm⟩⟩
  · rename_i h
    have h : a.len = b.len := Classical.not_not.1 h
    rw [loop_iff hR]
    simp only [h, ne_eq, not_true_eq_false, false_and, true_and, false_or, Nat.zero_add]

theorem asked_iff (E : World W) (y : Sym) (w : W) (r : Except Panic Int) (w' : W) :
    askType E y w = (r, w') ↔ Asked E y w r w' := by
  constructor
  · intro h
    unfold askType at h
    split at h
    · cases h; exact .nonTerminal
    · cases h; exact .terminal
    · cases h; exact .nothing
    · cases h; exact .nil
    · split at h
      · rename_i he; cases h; exact .answer he
      · rename_i he; cases h; exact .throws he
  · intro h
    cases h <;> first | rfl | (rename_i h; simp only [askType, h])

theorem asked_own {E : World W} {s : Symbol} {w w' : W} {r : Except Panic Int} (h : Asked E (.own s) w r w') :
    w' = w ∧ ((∃ n, s = .nonTerminal n ∧ r = .ok 0) ∨ (∃ n, s = .terminal n ∧ r = .ok 1) ∨ (s = .nothing ∧ r = .ok 2)) := by
  cases h <;> simp

theorem symbols_iff (E : World W) (a b : Sym) (w : W) (c : Cmp) (w' : W) :
    isSymbolsEqual E a b w = (c, w') ↔ SymCmp E a b w c w' := by
  have mp : ∀ c w', isSymbolsEqual E a b w = (c, w') → SymCmp E a b w c w' := by
    intro c w' h
    unfold isSymbolsEqual at h
    split at h
    · rename_i h1; cases h; exact .left ((asked_iff ..).1 h1)
    rename_i ta w₁ h1
    have h1 := (asked_iff ..).1 h1
    split at h
    · rename_i h2; cases h; exact .right h1 ((asked_iff ..).1 h2)
    rename_i tb w₂ h2
    have h2 := (asked_iff ..).1 h2
    split at h
    · rename_i hne; cases h; exact .types h1 h2 hne
    rename_i he
    have he : ta = tb := Classical.not_not.1 he
    subst he
    split at h
    · rename_i h3; cases h; exact .again h1 h2 ((asked_iff ..).1 h3)
    rename_i t w₃ h3
    have h3 := (asked_iff ..).1 h3
    split at h
    · rename_i h0
      subst h0
      unfold compareNonTerminals at h
      split at h
      · cases h; exact .nonTerminals h1 h2 h3 rfl rfl
      · rename_i hn
        cases h
        refine .pretends h1 h2 h3 (.inl rfl) ?_
        by_contra hc
        push Not at hc
        obtain ⟨⟨s, rfl⟩, s', rfl⟩ := hc
        have k3 := (asked_own h3).2
        have k1 := (asked_own h1).2
        have k2 := (asked_own h2).2
        rcases k3 with ⟨n, rfl, _⟩ | ⟨n, rfl, k⟩ | ⟨rfl, k⟩
        · have : ta = 0 := by rcases k1 with ⟨_, _, k⟩ | ⟨_, k, _⟩ | ⟨k, _⟩ <;> cases k; rfl
          subst this
          rcases k2 with ⟨m, rfl, _⟩ | ⟨m, rfl, k⟩ | ⟨rfl, k⟩
          · exact hn _ _ rfl rfl
          · cases k
          · cases k
        · cases k
        · cases k
    split at h
    · rename_i h0
      subst h0
      unfold compareTerminals at h
      split at h
      · cases h; exact .terminals h1 h2 h3 rfl rfl
      · rename_i hn
        cases h
        refine .pretends h1 h2 h3 (.inr rfl) ?_
        by_contra hc
        push Not at hc
        obtain ⟨⟨s, rfl⟩, s', rfl⟩ := hc
        have k3 := (asked_own h3).2
        have k1 := (asked_own h1).2
        have k2 := (asked_own h2).2
        rcases k3 with ⟨n, rfl, k⟩ | ⟨n, rfl, _⟩ | ⟨rfl, k⟩
        · cases k
        · have : ta = 1 := by rcases k1 with ⟨_, k, _⟩ | ⟨_, _, k⟩ | ⟨k, _⟩ <;> cases k; rfl
          subst this
          rcases k2 with ⟨m, rfl, k⟩ | ⟨m, rfl, _⟩ | ⟨rfl, k⟩
          · cases k
          · exact hn _ _ rfl rfl
          · cases k
        · cases k
    split at h
    · rename_i h0; subst h0; cases h; exact .nothing h1 h2 h3
    have hu : t < 0 ∨ 2 < t := by omega
    split at h
    · rename_i h4; cases h; exact .message h1 h2 h3 hu ((asked_iff ..).1 h4)
    · rename_i h4; cases h; exact .unknown h1 h2 h3 hu ((asked_iff ..).1 h4)
  refine ⟨mp c w', fun h => ?_⟩
  have f : ∀ {y u r v}, Asked E y u r v → askType E y u = (r, v) := fun h => (asked_iff ..).2 h
  unfold isSymbolsEqual
  cases h with
  | left h1 => simp only [f h1]
  | right h1 h2 => simp only [f h1, f h2]
  | types h1 h2 h => simp [f h1, f h2, h]
  | again h1 h2 h3 => simp [f h1, f h2, f h3]
  | nonTerminals h1 h2 h3 ha hb => simp only [f h1, f h2, f h3]; simp [ha, hb, compareNonTerminals]
  | terminals h1 h2 h3 ha hb => simp only [f h1, f h2, f h3]; simp [ha, hb, compareTerminals]
  | pretends h1 h2 h3 hu hf =>
    simp only [f h1, f h2, f h3]
    have e0 : compareNonTerminals a b = .panic .conversion := by
      unfold compareNonTerminals
      split
      · rcases hf with hf | hf <;> exact (hf _ rfl).elim
      · rfl
    have e1 : compareTerminals a b = .panic .conversion := by
      unfold compareTerminals
      split
      · rcases hf with hf | hf <;> exact (hf _ rfl).elim
      · rfl
    rcases hu with rfl | rfl <;> simp [e0, e1]
  | nothing h1 h2 h3 => simp [f h1, f h2, f h3]
  | unknown h1 h2 h3 hu h4 =>
    simp only [f h1, f h2, f h3, f h4]
    rw [if_neg (by simp), if_neg (by omega), if_neg (by omega), if_neg (by omega)]
  | message h1 h2 h3 hu h4 =>
    simp only [f h1, f h2, f h3, f h4]
    rw [if_neg (by simp), if_neg (by omega), if_neg (by omega), if_neg (by omega)]

theorem rules_iff (E : World W) (a b : RuleVal) (w : W) (c : Cmp) (w' : W) :
    isRulesEqual E a b w = (c, w') ↔ RuleCmp E a b w c w' := by
  unfold isRulesEqual RuleCmp
  split
  · rename_i h
    simp only [h, ne_eq, not_false_eq_true, true_and, false_and, or_false, Prod.mk.injEq]
    exact ⟨fun ⟨a, b⟩ => ⟨a.symm, b.symm⟩, fun ⟨a, b⟩ => ⟨a.symm, b.symm⟩⟩
  · rename_i h
    have h : a.head = b.head := Classical.not_not.1 h
    simp only [h, ne_eq, not_true_eq_false, false_and, true_and, false_or]
    exact slice_iff (fun s t u d v => slice_iff (symbols_iff E) s t u d v) _ _ _ _ _

theorem grammars_iff (E : World W) (a b : Slice) (w : W) (c : Cmp) (w' : W) :
    isGrammarsEqual E a b w = (c, w') ↔ GrammarCmp E a b w c w' :=
  slice_iff (rules_iff E) a b w c w'

/-! ## Equal -/

/-- All rounds equal. -/
theorem inOrder_true {R : Nat → W → Cmp → W → Prop} {I : W → Prop} {P : Nat → Prop} {n : Nat} {w w' : W}
    (hI : ∀ i u c v, I u → R i u c v → I v) (hP : ∀ i u v, I u → R i u (.result true) v → P i) (hw : I w)
    (h : InOrder n R w (.result true) w') : ∀ i < n, P i := by
  induction n generalizing w R P with
  | zero => intro i hi; omega
  | succ n ih =>
    rcases inOrder_succ.1 h with ⟨u, h0, h'⟩ | ⟨_, h⟩
    · intro i hi
      cases i with
      | zero => exact hP 0 w u hw h0
      | succ i =>
        exact ih (R := fun i => R (i + 1)) (P := fun i => P (i + 1)) (fun i => hI (i + 1)) (fun i => hP (i + 1)) (hI _ _ _ _ hw h0)
          h' i (by omega)
    · exact (h rfl).elim

theorem inOrder_inv {R : Nat → W → Cmp → W → Prop} {I : W → Prop} {n : Nat} {w w' : W} {c : Cmp}
    (hI : ∀ i u c v, I u → R i u c v → I v) (hw : I w) (h : InOrder n R w c w') : I w' := by
  induction n generalizing w R with
  | zero => exact (inOrder_zero.1 h).2 ▸ hw
  | succ n ih =>
    rcases inOrder_succ.1 h with ⟨u, h0, h'⟩ | ⟨h, _⟩
    · exact ih (R := fun i => R (i + 1)) (fun i => hI (i + 1)) (hI _ _ _ _ hw h0) h'
    · exact hI _ _ _ _ hw h

theorem slice_inv {α : Type} {read : W → Slice → Nat → α} {R : α → α → W → Cmp → W → Prop} {I : W → Prop}
    (hI : ∀ x y u c v, I u → R x y u c v → I v) (a b : Slice) (w : W) (c : Cmp) (w' : W) (hw : I w)
    (h : SliceCmp read R a b w c w') : I w' := by
  rcases h with ⟨_, _, rfl⟩ | ⟨_, h⟩
  · exact hw
  · exact inOrder_inv (fun i u c v => hI _ _ u c v) hw h

theorem asked_mem {E : World W} (hE : ∀ id u, E.mem (E.type id u).2 = E.mem u) {y : Sym} {w w' : W} {r : Except Panic Int}
    (h : Asked E y w r w') : E.mem w' = E.mem w := by
  cases h with
  | @answer id t w w' h => have := hE id w; rw [h] at this; exact this
  | @throws id v w w' h => have := hE id w; rw [h] at this; exact this
  | _ => rfl

theorem sym_mem {E : World W} (hE : ∀ id u, E.mem (E.type id u).2 = E.mem u) {a b : Sym} {w w' : W} {c : Cmp}
    (h : SymCmp E a b w c w') : E.mem w' = E.mem w := by
  have k := @asked_mem W E hE
  cases h with
  | left h1 => rw [k h1]
  | right h1 h2 => rw [k h2, k h1]
  | types h1 h2 => rw [k h2, k h1]
  | again h1 h2 h3 => rw [k h3, k h2, k h1]
  | nonTerminals h1 h2 h3 => rw [k h3, k h2, k h1]
  | terminals h1 h2 h3 => rw [k h3, k h2, k h1]
  | pretends h1 h2 h3 => rw [k h3, k h2, k h1]
  | nothing h1 h2 h3 => rw [k h3, k h2, k h1]
  | unknown h1 h2 h3 _ h4 => rw [k h4, k h3, k h2, k h1]
  | message h1 h2 h3 _ h4 => rw [k h4, k h3, k h2, k h1]

/-- What two symbols that come out equal look like. -/
def CanEqual (x y : Sym) : Prop :=
  (∃ s, x = .own s ∧ y = .own s) ∨ ((∃ id, x = .other id) ∧ y ≠ .nil) ∨ (x = .own .nothing ∧ ∃ id, y = .other id)

theorem sym_true {E : World W} {a b : Sym} {w w' : W} (h : SymCmp E a b w (.result true) w') : CanEqual a b := by
  generalize hc : Cmp.result true = c at h
  cases h with
  | nonTerminals h1 h2 h3 ha hb =>
    simp only [Cmp.result.injEq, Bool.true_eq, decide_eq_true_eq] at hc
    exact .inl ⟨_, ha, by rw [hb, hc]⟩
  | terminals h1 h2 h3 ha hb =>
    simp only [Cmp.result.injEq, Bool.true_eq, decide_eq_true_eq] at hc
    exact .inl ⟨_, ha, by rw [hb, hc]⟩
  | nothing h1 h2 h3 =>
    have hb : b ≠ .nil := by rintro rfl; cases h2
    cases a with
    | nil => cases h1
    | other id => exact .inr (.inl ⟨⟨id, rfl⟩, hb⟩)
    | own s =>
      cases h3
      cases h1
      cases b with
      | nil => exact (hb rfl).elim
      | other id => exact .inr (.inr ⟨rfl, id, rfl⟩)
      | own s => cases h2; exact .inl ⟨_, rfl, rfl⟩
  | _ => cases hc

theorem grammar_true {E : World W} (hE : ∀ id u, E.mem (E.type id u).2 = E.mem u) {P : Sym → Sym → Prop}
    (hP : ∀ x y u v, SymCmp E x y u (.result true) v → P x y)
    {a b : Slice} {w w' : W} (h : GrammarCmp E a b w (.result true) w') : PlaceByPlace P (E.mem w) a b := by
  have k1 : ∀ x y u c v, E.mem u = E.mem w → SymCmp E x y u c v → E.mem v = E.mem w := fun x y u c v hu h => by
    rw [sym_mem hE h, hu]
  have k2 : ∀ (x y : Slice) u c v, E.mem u = E.mem w →
      SliceCmp (fun u s i => (E.mem u).symbols s.array (s.start + i)) (SymCmp E) x y u c v → E.mem v = E.mem w :=
    slice_inv (I := fun u => E.mem u = E.mem w) k1
  have k3 : ∀ (x y : RuleVal) u c v, E.mem u = E.mem w → RuleCmp E x y u c v → E.mem v = E.mem w := by
    rintro x y u c v hu (⟨_, _, rfl⟩ | ⟨_, h⟩)
    · exact hu
    · exact slice_inv (I := fun u => E.mem u = E.mem w) k2 _ _ _ _ _ hu h
  rcases h with ⟨_, h, _⟩ | ⟨hl, h⟩
  · cases h
  refine ⟨hl, inOrder_true (I := fun u => E.mem u = E.mem w) (fun i u c v hu h => k3 _ _ _ _ _ hu h) (fun i u v hu h => ?_) rfl h⟩
  beta_reduce at h
  rw [hu] at h
  rcases h with ⟨_, h, _⟩ | ⟨hh, ⟨_, h, _⟩ | ⟨hl, h⟩⟩
  · cases h
  · cases h
  refine ⟨hh, hl, inOrder_true (I := fun u => E.mem u = E.mem w) (fun i u c v hu h => k2 _ _ _ _ _ hu h) (fun j u v hu h => ?_) hu h⟩
  beta_reduce at h
  rw [hu] at h
  rcases h with ⟨_, h, _⟩ | ⟨hl, h⟩
  · cases h
  refine ⟨hl, inOrder_true (I := fun u => E.mem u = E.mem w) (fun i u c v hu h => k1 _ _ _ _ _ hu h) (fun k u v hu h => ?_) hu h⟩
  beta_reduce at h
  rw [hu] at h
  exact hP _ _ _ _ h

/-! ## Constant answers -/

/-- A symbol as a value. -/
def symValue (answer : Nat → Except Str Int) : Sym → AnySym.Sym
  | .own y => .own y
  | .nil => .nil
  | .other id => .other (answer id) (.ok [])

theorem symbols_constant {E : World W} {answer : Nat → Except Str Int} (hE : ∀ id u, E.type id u = (answer id, u))
    (a b : Sym) (w : W) :
    isSymbolsEqual E a b w = (AnySym.isSymbolsEqual (symValue answer a) (symValue answer b), w) := by
  have ask : ∀ y, askType E y w = ((symValue answer y).type, w) := by
    intro y
    cases y with
    | nil => rfl
    | own s => cases s <;> rfl
    | other id =>
      simp only [askType, hE, symValue, AnySym.Sym.type]
      cases answer id <;> rfl
  have n0 : ∀ y, AnySym.asNonTerminal (symValue answer y) =
      match y with | .own (.nonTerminal n) => .ok n | _ => .error .conversion := by
    intro y
    cases y with
    | nil => rfl
    | own s => cases s <;> rfl
    | other id => rfl
  have n1 : ∀ y, AnySym.asTerminal (symValue answer y) =
      match y with | .own (.terminal n) => .ok n | _ => .error .conversion := by
    intro y
    cases y with
    | nil => rfl
    | own s => cases s <;> rfl
    | other id => rfl
  have m0 : compareNonTerminals a b = match AnySym.asNonTerminal (symValue answer a) with
      | .error p => .panic p
      | .ok n => match AnySym.asNonTerminal (symValue answer b) with
        | .error p => .panic p
        | .ok n' => .result (decide (n = n')) := by
    rw [n0, n0]
    rcases a with (_ | _ | _) | _ | _ <;> rcases b with (_ | _ | _) | _ | _ <;> rfl
  have m1 : compareTerminals a b = match AnySym.asTerminal (symValue answer a) with
      | .error p => .panic p
      | .ok n => match AnySym.asTerminal (symValue answer b) with
        | .error p => .panic p
        | .ok n' => .result (decide (n = n')) := by
    rw [n1, n1]
    rcases a with (_ | _ | _) | _ | _ <;> rcases b with (_ | _ | _) | _ | _ <;> rfl
  unfold isSymbolsEqual AnySym.isSymbolsEqual
  rw [m0, m1]
  have ha := ask a
  have hb := ask b
  cases h : (symValue answer a).type with
  | error p => rw [h] at ha; simp only [ha]
  | ok ta =>
    rw [h] at ha
    cases h' : (symValue answer b).type with
    | error p => rw [h'] at hb; simp only [ha, hb]
    | ok tb =>
      rw [h'] at hb
      simp only [ha, hb]
      split
      · rfl
      · split
        · rfl
        · split
          · rfl
          · split <;> rfl

theorem loop_constant {α β : Type} {rA rB : W → Nat → α} {eq : α → α → W → Cmp × W} {f : W → α → β}
    {eq' : β → β → Cmp} {w : W} (h : ∀ x y, eq x y w = (eq' (f w x) (f w y), w)) (n i : Nat) :
    compareLoop rA rB eq n i w =
      (AnySym.compareLoop eq' ((List.range n).map fun j => f w (rA w (i + j))) ((List.range n).map fun j => f w (rB w (i + j))), w) := by
  induction n generalizing i with
  | zero => rfl
  | succ n ih =>
    simp only [compareLoop, h, List.range_succ_eq_map, List.map_cons, List.map_map, AnySym.compareLoop, Nat.add_zero]
    have hi : ∀ r : W → Nat → α, (List.map ((fun j => f w (r w (i + j))) ∘ Nat.succ) (List.range n)) =
        (List.range n).map fun j => f w (r w (i + 1 + j)) := by
      intro r
      apply List.map_congr_left
      intro j _
      simp only [Function.comp]
      rw [show i + j.succ = i + 1 + j by omega]
    rw [hi, hi]
    cases hc : eq' (f w (rA w i)) (f w (rB w i)) with
    | result b =>
      cases b with
      | false => rfl
      | true =>
        exact ih (i + 1)
    | panic p => rfl
    | exit t => rfl

theorem slice_constant {α β : Type} {read : W → Slice → Nat → α} {eq : α → α → W → Cmp × W} {f : W → α → β}
    {eq' : β → β → Cmp} {w : W} (h : ∀ x y, eq x y w = (eq' (f w x) (f w y), w)) (a b : Slice) :
    (if a.len ≠ b.len then (.result false, w) else compareLoop (fun w i => read w a i) (fun w i => read w b i) eq a.len 0 w) =
      (if ((List.range a.len).map fun j => f w (read w a j)).length ≠ ((List.range b.len).map fun j => f w (read w b j)).length
        then .result false
        else AnySym.compareLoop eq' ((List.range a.len).map fun j => f w (read w a j)) ((List.range b.len).map fun j => f w (read w b j)), w) := by
  simp only [List.length_map, List.length_range]
  split
  · rfl
  · rename_i hl
    have hl : a.len = b.len := Classical.not_not.1 hl
    rw [loop_constant h a.len 0, hl]
    simp only [Nat.zero_add]

theorem sequences_constant {E : World W} {answer : Nat → Except Str Int} (hE : ∀ id u, E.type id u = (answer id, u))
    (w : W) (a b : Slice) : isSequencesEqual E a b w =
      (AnySym.isSequencesEqual ((List.range a.len).map fun k => symValue answer ((E.mem w).symbol a k))
        ((List.range b.len).map fun k => symValue answer ((E.mem w).symbol b k)), w) :=
  slice_constant (read := fun w s i => (E.mem w).symbol s i) (f := fun _ => symValue answer)
    (fun x y => symbols_constant hE x y w) a b

theorem rules_constant {E : World W} {answer : Nat → Except Str Int} (hE : ∀ id u, E.type id u = (answer id, u))
    (w : W) (a b : RuleVal) :
    isRulesEqual E a b w =
      (AnySym.isRulesEqual
        ⟨a.head, (List.range a.sequences.len).map fun j => (List.range ((E.mem w).sequence a.sequences j).len).map fun k =>
          symValue answer ((E.mem w).symbol ((E.mem w).sequence a.sequences j) k)⟩
        ⟨b.head, (List.range b.sequences.len).map fun j => (List.range ((E.mem w).sequence b.sequences j).len).map fun k =>
          symValue answer ((E.mem w).symbol ((E.mem w).sequence b.sequences j) k)⟩, w) := by
  unfold isRulesEqual AnySym.isRulesEqual
  simp only []
  split
  · rfl
  · exact slice_constant (read := fun w s i => (E.mem w).sequence s i)
      (f := fun w s => (List.range s.len).map fun k => symValue answer ((E.mem w).symbol s k))
      (fun x y => sequences_constant hE w x y) a.sequences b.sequences

theorem grammars_constant {E : World W} {answer : Nat → Except Str Int} (hE : ∀ id u, E.type id u = (answer id, u))
    (w : W) (a b : Slice) :
    isGrammarsEqual E a b w = (AnySym.isGrammarsEqual (asValue answer (E.mem w) a) (asValue answer (E.mem w) b), w) := by
  have e : ∀ g, asValue answer (E.mem w) g = ⟨(List.range g.len).map fun i =>
      ⟨((E.mem w).rule g i).head, (List.range ((E.mem w).rule g i).sequences.len).map fun j =>
        (List.range ((E.mem w).sequence ((E.mem w).rule g i).sequences j).len).map fun k =>
          symValue answer ((E.mem w).symbol ((E.mem w).sequence ((E.mem w).rule g i).sequences j) k)⟩⟩ := by
    intro g
    rfl
  rw [e, e]
  exact slice_constant (read := fun w s i => (E.mem w).rule s i)
    (f := fun w (r : RuleVal) => (⟨r.head, (List.range r.sequences.len).map fun j =>
        (List.range ((E.mem w).sequence r.sequences j).len).map fun k =>
          symValue answer ((E.mem w).symbol ((E.mem w).sequence r.sequences j) k)⟩ : AnySym.Rule))
    (fun x y => rules_constant hE w x y) a b

/-! ## Own symbols -/

theorem loop_own {α : Type} {rA rB : W → Nat → α} {eq : α → α → W → Cmp × W} {P : Nat → Prop} {w : W} (n i : Nat)
    (h : ∀ j < n, ∃ r, eq (rA w (i + j)) (rB w (i + j)) w = (.result r, w) ∧ (r = true ↔ P (i + j))) :
    ∃ r, compareLoop rA rB eq n i w = (.result r, w) ∧ (r = true ↔ ∀ j < n, P (i + j)) := by
  induction n generalizing i with
  | zero => exact ⟨true, rfl, by simp⟩
  | succ n ih =>
    obtain ⟨r0, h0, hp0⟩ := h 0 (by omega)
    simp only [Nat.add_zero] at h0 hp0
    simp only [compareLoop, h0]
    cases r0 with
    | false =>
      refine ⟨false, rfl, by simp, fun hP => ?_⟩
      have := hp0.2 (by simpa using hP 0 (by omega))
      exact this
    | true =>
      obtain ⟨r, h1, hp⟩ := ih (i + 1) fun j hj => by
        have := h (j + 1) (by omega)
        rwa [show i + (j + 1) = i + 1 + j by omega] at this
      refine ⟨r, h1, hp.trans ⟨fun hP j hj => ?_, fun hP j hj => ?_⟩⟩
      · cases j with
        | zero => simpa using hp0.1 rfl
        | succ j => have := hP j (by omega); rwa [show i + 1 + j = i + (j + 1) by omega] at this
      · have := hP (j + 1) (by omega); rwa [show i + (j + 1) = i + 1 + j by omega] at this

theorem slice_own {α : Type} {read : W → Slice → Nat → α} {eq : α → α → W → Cmp × W} {P : α → α → Prop} {w : W} (a b : Slice)
    (h : a.len = b.len → ∀ j < a.len, ∃ r, eq (read w a j) (read w b j) w = (.result r, w) ∧
      (r = true ↔ P (read w a j) (read w b j))) :
    ∃ r, (if a.len ≠ b.len then (.result false, w)
        else compareLoop (fun w i => read w a i) (fun w i => read w b i) eq a.len 0 w) = (.result r, w) ∧
      (r = true ↔ a.len = b.len ∧ ∀ j < a.len, P (read w a j) (read w b j)) := by
  split
  · rename_i hl
    exact ⟨false, rfl, by simp, fun hc => (hl hc.1).elim⟩
  · rename_i hl
    have hl : a.len = b.len := Classical.not_not.1 hl
    obtain ⟨r, h1, h2⟩ := loop_own (rA := fun w i => read w a i) (rB := fun w i => read w b i) (eq := eq)
      (P := fun j => P (read w a j) (read w b j)) (w := w) a.len 0 (fun j hj => by simpa using h hl j hj)
    exact ⟨r, h1, h2.trans (by simp [hl])⟩

theorem symbols_own (E : World W) (s t : Symbol) (w : W) :
    ∃ r, isSymbolsEqual E (.own s) (.own t) w = (.result r, w) ∧ (r = true ↔ Sym.own s = Sym.own t) := by
  cases s <;> cases t <;> simp [isSymbolsEqual, askType, compareNonTerminals, compareTerminals]

theorem mem_symbolsIn {m : Mem} {g : Slice} {i j k : Nat} (hi : i < g.len)
    (hj : j < (m.rules g.array (g.start + i)).sequences.len)
    (hk : k < (m.sequences (m.rules g.array (g.start + i)).sequences.array ((m.rules g.array (g.start + i)).sequences.start + j)).len) :
    m.symbols (m.sequences (m.rules g.array (g.start + i)).sequences.array ((m.rules g.array (g.start + i)).sequences.start + j)).array
      ((m.sequences (m.rules g.array (g.start + i)).sequences.array ((m.rules g.array (g.start + i)).sequences.start + j)).start + k) ∈
      Told.symbolsIn m g := by
  unfold Told.symbolsIn
  refine List.mem_flatMap.2 ⟨i, List.mem_range.2 hi, List.mem_flatMap.2 ⟨j, List.mem_range.2 hj, List.mem_map.2 ⟨k, List.mem_range.2 hk, rfl⟩⟩⟩

theorem grammars_own (E : World W) (a b : Slice) (w : W) (ha : ∀ y ∈ Told.symbolsIn (E.mem w) a, ∃ s, y = .own s)
    (hb : ∀ y ∈ Told.symbolsIn (E.mem w) b, ∃ s, y = .own s) :
    ∃ r, isGrammarsEqual E a b w = (.result r, w) ∧ (r = true ↔ PlaceByPlace (· = ·) (E.mem w) a b) := by
  refine slice_own (read := fun w s i => (E.mem w).rule s i) (eq := isRulesEqual E) (w := w)
    (P := fun r r' => r.head = r'.head ∧ r.sequences.len = r'.sequences.len ∧ ∀ j < r.sequences.len,
      let s := (E.mem w).sequences r.sequences.array (r.sequences.start + j)
      let s' := (E.mem w).sequences r'.sequences.array (r'.sequences.start + j)
      s.len = s'.len ∧ ∀ k < s.len, (E.mem w).symbols s.array (s.start + k) = (E.mem w).symbols s'.array (s'.start + k))
    a b fun hl i hi => ?_
  have hi' : i < b.len := hl ▸ hi
  unfold isRulesEqual
  split
  · rename_i hh
    exact ⟨false, rfl, by simp, fun hc => (hh hc.1).elim⟩
  rename_i hh
  have hh := Classical.not_not.1 hh
  obtain ⟨r, h1, h2⟩ := slice_own (read := fun w s i => (E.mem w).sequence s i) (eq := isSequencesEqual E) (w := w)
    (P := fun s s' => s.len = s'.len ∧ ∀ k < s.len, (E.mem w).symbols s.array (s.start + k) = (E.mem w).symbols s'.array (s'.start + k))
    ((E.mem w).rule a i).sequences ((E.mem w).rule b i).sequences fun hl j hj => by
      have hj' : j < ((E.mem w).rule b i).sequences.len := hl ▸ hj
      refine slice_own (read := fun w s i => (E.mem w).symbol s i) (eq := isSymbolsEqual E) (w := w) (P := fun x y => x = y) _ _
        fun hl k hk => ?_
      obtain ⟨s, hs⟩ := ha _ (mem_symbolsIn hi hj hk)
      obtain ⟨t, ht⟩ := hb _ (mem_symbolsIn hi' hj' (hl ▸ hk))
      unfold Mem.symbol
      exact hs ▸ ht ▸ symbols_own E s t w
  exact ⟨r, h1, h2.trans ⟨fun h => ⟨hh, h⟩, fun h => h.2⟩⟩

end Weigh
end LL1
