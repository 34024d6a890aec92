import Verif.Proofs.ToAstHeap

/-!
# C87: grammars returned by `ToAST` share no memory
-/

namespace LL1
open FC Mem

namespace FC

theorem toAST_ne_diverge (b : Bindings) (root : Node) (str : Str) : b.toAST root str ≠ .diverge := by
  unfold Bindings.toAST Bindings.toASTBody
  split <;> simp

/-- How one call of `ToAST` in memory compares with the value model. -/
def Agrees (m : AstMem) (r : R SliceRef) (v : R Grammar) : Prop :=
  (∃ s, r = .ok s ∧ v = .ok (m.grammar s)) ∨ (∃ e, r = .err e ∧ v = .err e) ∨ ∃ p, r = .panic p ∧ v = .panic p

end FC

/-- **C87.** With the slices of the grammar in memory `ToAST` ends as it does with values, whatever capacities the runtime
chooses and whatever is in memory; the grammar it returns is in memory the grammar of the value model; and no array that
was there before is changed, whether the call succeeds, fails or panics. -/
theorem C87_memory (grow : Nat → Nat → Nat) (hg : Roomy grow) (b : Bindings) (root : Node) (str : Str) (m : AstMem) :
    Agrees (b.toASTH grow root str m).1 (b.toASTH grow root str m).2 (b.toAST root str) ∧
    (∀ a, a < m.syms.next → (b.toASTH grow root str m).1.syms.arrays a = m.syms.arrays a) ∧
    (∀ a, a < m.seqs.next → (b.toASTH grow root str m).1.seqs.arrays a = m.seqs.arrays a) ∧
    (∀ a, a < m.rules.next → (b.toASTH grow root str m).1.rules.arrays a = m.rules.arrays a) := by
  have hd := toAST_ne_diverge b root str
  have h := toAST_rel hg b root str m
  generalize b.toASTH grow root str m = x at h ⊢
  generalize b.toAST root str = v at h hd ⊢
  obtain ⟨m', r⟩ := x
  obtain ⟨h1, h2⟩ := h
  dsimp only at h1 h2 ⊢
  refine ⟨?_, h1.syms.same, h1.seqs.same, h1.rules.same⟩
  cases h2 with
  | ok h => exact .inl ⟨_, rfl, by rw [h.2]⟩
  | err => exact .inr (.inl ⟨_, rfl, rfl⟩)
  | panic => exact .inr (.inr ⟨_, rfl, rfl⟩)
  | diverge => exact (hd rfl).elim

namespace FC

/-- No array of one grammar is an array of the other. -/
def Apart (m : AstMem) (s s' : SliceRef) : Prop :=
  (∀ a, a ∈ own s → a ∈ own s' → False) ∧
  (∀ r ∈ m.rules.read s, ∀ r' ∈ m.rules.read s', ∀ a, a ∈ own r.tail → a ∈ own r'.tail → False) ∧
  (∀ r ∈ m.rules.read s, ∀ r' ∈ m.rules.read s', ∀ q ∈ m.seqs.read r.tail, ∀ q' ∈ m.seqs.read r'.tail,
    ∀ a, a ∈ own q → a ∈ own q' → False)

theorem Apart.symm {m : AstMem} {s s' : SliceRef} (h : Apart m s s') : Apart m s' s :=
  ⟨fun a ha hb => h.1 a hb ha, fun r hr r' hr' a ha hb => h.2.1 r' hr' r hr a hb ha,
    fun r hr r' hr' q hq q' hq' a ha hb => h.2.2 r' hr' r hr q' hq' q hq a hb ha⟩

theorem toASTCalls_inv {grow : Nat → Nat → Nat} (hg : Roomy grow) : ∀ (calls : List (Bindings × Node × Str)) (m : AstMem),
    m.Grows (toASTCalls grow m calls).1 ∧
    (toASTCalls grow m calls).2.length = calls.length ∧
    (∀ (k : Nat) (c : Bindings × Node × Str) (r : R SliceRef), calls[k]? = some c → (toASTCalls grow m calls).2[k]? = some r →
      Agrees (toASTCalls grow m calls).1 r (c.1.toAST c.2.1 c.2.2)) ∧
    (∀ (k : Nat) (s : SliceRef), (toASTCalls grow m calls).2[k]? = some (.ok s) → GrammarInv m (toASTCalls grow m calls).1 s) ∧
    (∀ (k l : Nat) (s s' : SliceRef), k ≠ l → (toASTCalls grow m calls).2[k]? = some (.ok s) →
      (toASTCalls grow m calls).2[l]? = some (.ok s') → Apart (toASTCalls grow m calls).1 s s')
  | [], m => ⟨.refl _, rfl, by simp, by simp [toASTCalls], by simp [toASTCalls]⟩
  | (b, root, str) :: calls, m => by
    have hrel := toAST_rel hg b root str m
    have hd := toAST_ne_diverge b root str
    simp only [toASTCalls]
    generalize b.toASTH grow root str m = x at hrel ⊢
    obtain ⟨m1, r0⟩ := x
    obtain ⟨h1, h2⟩ := hrel
    dsimp only at h1 h2 ⊢
    obtain ⟨i1, i2, i3, i4, i5⟩ := toASTCalls_inv hg calls m1
    generalize toASTCalls grow m1 calls = y at i1 i2 i3 i4 i5 ⊢
    obtain ⟨m2, rs⟩ := y
    dsimp only at i1 i2 i3 i4 i5 ⊢
    have hhead : ∀ s : SliceRef, r0 = .ok s → GrammarInv m m1 s := by
      rintro s rfl
      clear hd
      generalize b.toAST root str = v at h2
      cases h2 with | ok h => exact h.1
    have hap : ∀ (s s' : SliceRef) (l : Nat), r0 = .ok s → rs[l]? = some (.ok s') → Apart m2 s s' := by
      intro s s' l h0 hl
      have a1 := hhead s h0
      have a2 := i4 l s' hl
      have e1 := i1.rules.read a1.fits
      refine ⟨fun a ha hb => ?_, fun r hr r' hr' a ha hb => ?_, fun r hr r' hr' q hq q' hq' a ha hb => ?_⟩
      · have := (fits_own a1.fits ha).2; have := (fits_own a2.fits hb).1; omega
      · rw [e1] at hr
        have := (fits_own (a1.tails r hr) ha).2; have := (fits_own (a2.tails r' hr') hb).1; omega
      · rw [e1] at hr
        rw [i1.seqs.read (a1.tails r hr)] at hq
        have := (fits_own (a1.seqs r hr q hq) ha).2; have := (fits_own (a2.seqs r' hr' q' hq') hb).1; omega
    refine ⟨h1.trans i1, by simp [i2], ?_, ?_, ?_⟩
    · intro k c r hc hr
      cases k with
      | zero =>
        simp only [List.getElem?_cons_zero, Option.some.injEq] at hc hr
        subst hc hr
        dsimp only
        generalize b.toAST root str = v at h2 hd ⊢
        cases h2 with
        | ok h => exact .inl ⟨_, rfl, by rw [(h.1.grows i1).2, h.2]⟩
        | err => exact .inr (.inl ⟨_, rfl, rfl⟩)
        | panic => exact .inr (.inr ⟨_, rfl, rfl⟩)
        | diverge => exact (hd rfl).elim
      | succ k =>
        simp only [List.getElem?_cons_succ] at hc hr
        exact i3 k c r hc hr
    · intro k s hk
      cases k with
      | zero =>
        simp only [List.getElem?_cons_zero, Option.some.injEq] at hk
        exact ((hhead s hk).grows i1).1
      | succ k => exact (i4 k s hk).weaken h1
    · intro k l s s' hkl hk hl
      cases k with
      | zero =>
        cases l with
        | zero => exact (hkl rfl).elim
        | succ l =>
          simp only [List.getElem?_cons_zero, Option.some.injEq] at hk
          exact hap s s' l hk hl
      | succ k =>
        cases l with
        | zero =>
          simp only [List.getElem?_cons_zero, Option.some.injEq] at hl
          exact (hap s' s k hl hk).symm
        | succ l => exact i5 k l s s' (by omega) hk hl

/-! ## Edits -/

section
variable {α : Type} {m : Mem α} {base : Nat} {q : SliceRef}

theorem read_cap {i : Nat} (h : i < (m.read q).length) : 0 < q.cap := by
  rcases Nat.eq_zero_or_pos q.cap with h0 | h0
  · simp [Mem.read, h0] at h
  · exact h0

theorem store_self {i : Nat} (h : i < (m.read q).length) (x : α) : (m.store q i x).read q = (m.read q).set i x := by
  have hc := read_cap h
  have h0 : q.cap ≠ 0 := by omega
  simp only [Mem.read, Mem.store, Mem.write, h0, if_false, if_true]
  rw [List.take_set]

theorem store_other {q' : SliceRef} {i : Nat} {x : α} (h : ∀ a, a ∈ own q → a ∈ own q' → False) (hc : 0 < q.cap) :
    (m.store q i x).read q' = m.read q' := by
  refine read_congr fun hc' => ?_
  have : q'.arr ≠ q.arr := fun e => h q.arr (mem_own.2 ⟨hc, rfl⟩) (mem_own.2 ⟨hc', e.symm⟩)
  simp [Mem.store, Mem.write, this]

theorem append_self {grow : Nat → Nat → Nat} {zero x : α} (hf : m.Fits base q) :
    (m.append grow zero q x).1.read q = m.read q := by
  unfold Mem.append
  split
  · next h =>
    have h0 : q.cap ≠ 0 := by omega
    simp only [Mem.read, Mem.write, h0, if_false, if_true]
    rw [List.take_set_of_le (Nat.le_refl _)]
  · refine read_congr fun hc => ?_
    have := (hf.alloc hc).2.1
    have : q.arr ≠ m.next := by omega
    simp [Mem.write, this]

theorem append_other {grow : Nat → Nat → Nat} {zero x : α} {q' : SliceRef} (hf : m.Fits base q')
    (h : ∀ a, a ∈ own q → a ∈ own q' → False) : (m.append grow zero q x).1.read q' = m.read q' := by
  refine read_congr fun hc' => ?_
  have h2 := (hf.alloc hc').2.1
  unfold Mem.append
  split
  · next h1 =>
    have : q'.arr ≠ q.arr := fun e => h q.arr (mem_own.2 ⟨by omega, rfl⟩) (mem_own.2 ⟨hc', e.symm⟩)
    simp [Mem.write, this]
  · have : q'.arr ≠ m.next := by omega
    simp [Mem.write, this]
end

theorem nodup_flatMap_ne {α β : Type} {l : List α} {f : α → List β} (h : (l.flatMap f).Nodup) {i j : Nat} {x y : α}
    (hi : l[i]? = some x) (hj : l[j]? = some y) (hij : i ≠ j) {a : β} (ha : a ∈ f x) (hb : a ∈ f y) : False := by
  induction l generalizing i j with
  | nil => simp at hi
  | cons z l ih =>
    rw [List.flatMap_cons, List.nodup_append] at h
    cases i with
    | zero =>
      cases j with
      | zero => exact hij rfl
      | succ j =>
        simp only [List.getElem?_cons_zero, Option.some.injEq, List.getElem?_cons_succ] at hi hj
        subst hi
        exact h.2.2 a ha a (List.mem_flatMap.2 ⟨y, List.mem_of_getElem? hj, hb⟩) rfl
    | succ i =>
      cases j with
      | zero =>
        simp only [List.getElem?_cons_zero, Option.some.injEq, List.getElem?_cons_succ] at hi hj
        subst hj
        exact h.2.2 a hb a (List.mem_flatMap.2 ⟨x, List.mem_of_getElem? hi, ha⟩) rfl
      | succ j => exact ih h.2.1 hi hj (by omega)

theorem grammar_congr {m m' : AstMem} {s : SliceRef} (h1 : m'.rules.read s = m.rules.read s)
    (h2 : ∀ r ∈ m.rules.read s, m'.seqs.read r.tail = m.seqs.read r.tail)
    (h3 : ∀ r ∈ m.rules.read s, ∀ q ∈ m.seqs.read r.tail, m'.syms.read q = m.syms.read q) :
    m'.grammar s = m.grammar s := by
  simp only [AstMem.grammar, h1, Grammar.mk.injEq]
  refine List.map_congr_left fun r hr => ?_
  simp only [AstMem.rule, AstMem.substitution, h2 r hr, Rule.mk.injEq, true_and, Substitution.mk.injEq]
  refine List.map_congr_left fun q hq => ?_
  simp only [AstMem.sequence, h3 r hr q hq]

theorem map_modify_of {α β : Type} {l : List α} {f f' : α → β} {h : β → β} {i : Nat} {x : α} (hi : l[i]? = some x)
    (hx : f' x = h (f x)) (ho : ∀ j y, j ≠ i → l[j]? = some y → f' y = f y) : l.map f' = (l.map f).modify i h := by
  refine List.ext_getElem? fun j => ?_
  rw [List.getElem?_modify, List.getElem?_map, List.getElem?_map]
  by_cases hj : i = j
  · subst hj; rw [hi]; simp [hx]
  · cases hl : l[j]? with
    | none => simp
    | some y => simp [ho j y (fun e => hj e.symm) hl, hj]

end FC

/-- **C87.** After any number of `ToAST` calls, with any bindings, trees and texts, every grammar returned along the way is
in memory still the grammar its call returned, and the calls that failed failed as they do alone. -/
theorem C87_calls (grow : Nat → Nat → Nat) (hg : Roomy grow) (m : AstMem) (calls : List (Bindings × Node × Str)) (k : Nat)
    (b : Bindings) (root : Node) (str : Str) (hk : calls[k]? = some (b, root, str)) :
    ∃ r, (toASTCalls grow m calls).2[k]? = some r ∧ Agrees (toASTCalls grow m calls).1 r (b.toAST root str) := by
  obtain ⟨_, i2, i3, _⟩ := toASTCalls_inv hg calls m
  have hlt : k < (toASTCalls grow m calls).2.length := by
    rw [i2]; exact (List.getElem?_eq_some_iff.1 hk).1
  exact ⟨_, List.getElem?_eq_getElem hlt, i3 k _ _ hk (List.getElem?_eq_getElem hlt)⟩

section Edits
variable (grow : Nat → Nat → Nat) (hg : Roomy grow) (m0 m : AstMem) (calls : List (Bindings × Node × Str))
  (rs : List (R SliceRef)) (hrun : toASTCalls grow m0 calls = (m, rs)) (k : Nat) (s : SliceRef) (hk : rs[k]? = some (.ok s))
  (i : Nat) (r : HRule) (hr : (m.rules.read s)[i]? = some r)
include hg hrun hk hr

/-- **C87.** Overwriting a symbol in a returned grammar (`g.Rules[i].Tail.Sequences[j].Symbols[l] = y`) changes that symbol
of that grammar, and no other returned grammar. -/
theorem C87_edit_symbol (j : Nat) (q : SliceRef) (hq : (m.seqs.read r.tail)[j]? = some q) (l : Nat)
    (hl : l < (m.syms.read q).length) (y : Symbol) :
    (m.edit grow (.symbol q l y)).grammar s = (m.grammar s).setSymbol i j l y ∧
    ∀ k' s', k' ≠ k → rs[k']? = some (.ok s') → (m.edit grow (.symbol q l y)).grammar s' = m.grammar s' := by
  obtain ⟨_, _, _, i4, i5⟩ := toASTCalls_inv hg calls m0
  rw [hrun] at i4 i5
  have hinv := i4 k s hk
  have hrm := List.mem_of_getElem? hr
  have hqm := List.mem_of_getElem? hq
  have hc := read_cap hl
  constructor
  · simp only [AstMem.grammar, Grammar.setSymbol, Grammar.mk.injEq]
    refine map_modify_of hr ?_ ?_
    · simp only [AstMem.rule, Rule.mk.injEq, true_and, AstMem.substitution, Substitution.mk.injEq]
      refine map_modify_of hq ?_ ?_
      · simp only [AstMem.sequence, Sequence.mk.injEq]
        exact store_self hl y
      · intro j' q' hj' hq'
        simp only [AstMem.sequence, Sequence.mk.injEq]
        exact store_other (fun a ha hb => nodup_flatMap_ne (hinv.tail hrm).nodup hq hq' (fun e => hj' e.symm) ha hb) hc
    · intro i' r' hi' hr'
      simp only [AstMem.rule, Rule.mk.injEq, true_and, AstMem.substitution, Substitution.mk.injEq]
      refine List.map_congr_left fun q' hq' => ?_
      simp only [AstMem.sequence, Sequence.mk.injEq]
      exact store_other (fun a ha hb => nodup_flatMap_ne hinv.nodupSyms hr hr' (fun e => hi' e.symm)
        (List.mem_flatMap.2 ⟨q, hqm, ha⟩) (List.mem_flatMap.2 ⟨q', hq', hb⟩)) hc
  · intro k' s' hk' hs'
    refine grammar_congr rfl (fun _ _ => rfl) fun r' hr' q' hq' => ?_
    exact store_other (fun a ha hb => (i5 k k' s s' (fun e => hk' e.symm) hk hs').2.2 r hrm r' hr' q hqm q' hq' a ha hb) hc

/-- **C87.** Overwriting an alternative (`g.Rules[i].Tail.Sequences[j] = q`) likewise. -/
theorem C87_edit_alternative (j : Nat) (hj : j < (m.seqs.read r.tail).length) (q : SliceRef) :
    (m.edit grow (.sequence r.tail j q)).grammar s = (m.grammar s).setAlternative i j (m.sequence q) ∧
    ∀ k' s', k' ≠ k → rs[k']? = some (.ok s') → (m.edit grow (.sequence r.tail j q)).grammar s' = m.grammar s' := by
  obtain ⟨_, _, _, i4, i5⟩ := toASTCalls_inv hg calls m0
  rw [hrun] at i4 i5
  have hinv := i4 k s hk
  have hrm := List.mem_of_getElem? hr
  have hc := read_cap hj
  constructor
  · simp only [AstMem.grammar, Grammar.setAlternative, Grammar.mk.injEq]
    refine map_modify_of hr ?_ ?_
    · simp only [AstMem.rule, Rule.mk.injEq, true_and, AstMem.substitution, Substitution.mk.injEq]
      rw [show ((m.edit grow (.sequence r.tail j q)).seqs.read r.tail) = (m.seqs.read r.tail).set j q from store_self hj q,
        List.map_set]
      rfl
    · intro i' r' hi' hr'
      simp only [AstMem.rule, Rule.mk.injEq, true_and, AstMem.substitution, Substitution.mk.injEq]
      rw [show ((m.edit grow (.sequence r.tail j q)).seqs.read r'.tail) = m.seqs.read r'.tail from
        store_other (fun a ha hb => nodup_flatMap_ne hinv.nodupSeqs hr hr' (fun e => hi' e.symm) ha hb) hc]
      rfl
  · intro k' s' hk' hs'
    have hap := i5 k k' s s' (fun e => hk' e.symm) hk hs'
    exact grammar_congr rfl (fun r' hr' => store_other (fun a ha hb => hap.2.1 r hrm r' hr' a ha hb) hc) fun _ _ _ _ => rfl

/-- **C87.** Overwriting a rule (`g.Rules[i] = r'`) likewise. -/
theorem C87_edit_rule (r' : HRule) :
    (m.edit grow (.rule s i r')).grammar s = (m.grammar s).setRule i (m.rule r') ∧
    ∀ k' s', k' ≠ k → rs[k']? = some (.ok s') → (m.edit grow (.rule s i r')).grammar s' = m.grammar s' := by
  obtain ⟨_, _, _, i4, i5⟩ := toASTCalls_inv hg calls m0
  rw [hrun] at i4 i5
  have hlt := (List.getElem?_eq_some_iff.1 hr).1
  constructor
  · simp only [AstMem.grammar, Grammar.setRule, Grammar.mk.injEq]
    rw [show ((m.edit grow (.rule s i r')).rules.read s) = (m.rules.read s).set i r' from store_self hlt r', List.map_set]
    rfl
  · intro k' s' hk' hs'
    have hap := i5 k k' s s' (fun e => hk' e.symm) hk hs'
    exact grammar_congr (store_other (fun a ha hb => hap.1 a ha hb) (read_cap hlt)) (fun _ _ => rfl) fun _ _ _ _ => rfl

/-- **C87.** Appending to any of the slices of a returned grammar, without storing the result back, changes no returned
grammar, not even that one. -/
theorem C87_append (j : Nat) (q : SliceRef) (hq : (m.seqs.read r.tail)[j]? = some q) (y : Symbol) (q' : SliceRef)
    (r' : HRule) (k' : Nat) (s' : SliceRef) (hs' : rs[k']? = some (.ok s')) :
    (m.edit grow (.appendSymbol q y)).grammar s' = m.grammar s' ∧
    (m.edit grow (.appendSequence r.tail q')).grammar s' = m.grammar s' ∧
    (m.edit grow (.appendRule s r')).grammar s' = m.grammar s' := by
  obtain ⟨_, _, _, i4, i5⟩ := toASTCalls_inv hg calls m0
  rw [hrun] at i4 i5
  have hinv := i4 k s hk
  have hinv' := i4 k' s' hs'
  have hrm := List.mem_of_getElem? hr
  have hqm := List.mem_of_getElem? hq
  by_cases hkk : k = k'
  · subst hkk
    rw [hk] at hs'
    cases hs'
    refine ⟨grammar_congr rfl (fun _ _ => rfl) fun r2 hr2 q2 hq2 => ?_, grammar_congr rfl (fun r2 hr2 => ?_) fun _ _ _ _ => rfl,
      grammar_congr (append_self hinv.fits) (fun _ _ => rfl) fun _ _ _ _ => rfl⟩
    · obtain ⟨i2, hi2⟩ := List.getElem?_of_mem hr2
      obtain ⟨j2, hj2⟩ := List.getElem?_of_mem hq2
      by_cases hii : i = i2
      · subst hii
        rw [hr] at hi2; cases hi2
        by_cases hjj : j = j2
        · subst hjj
          rw [hq] at hj2; cases hj2
          exact append_self (hinv.seqs r hrm q hqm)
        · exact append_other (hinv.seqs r hr2 q2 hq2) fun a ha hb =>
            nodup_flatMap_ne (hinv.tail hrm).nodup hq hj2 hjj ha hb
      · exact append_other (hinv.seqs r2 hr2 q2 hq2) fun a ha hb =>
          nodup_flatMap_ne hinv.nodupSyms hr hi2 hii (List.mem_flatMap.2 ⟨q, hqm, ha⟩) (List.mem_flatMap.2 ⟨q2, hq2, hb⟩)
    · obtain ⟨i2, hi2⟩ := List.getElem?_of_mem hr2
      by_cases hii : i = i2
      · subst hii
        rw [hr] at hi2; cases hi2
        exact append_self (hinv.tails r hrm)
      · exact append_other (hinv.tails r2 hr2) fun a ha hb => nodup_flatMap_ne hinv.nodupSeqs hr hi2 hii ha hb
  · have hap := i5 k k' s s' hkk hk hs'
    exact ⟨grammar_congr rfl (fun _ _ => rfl) fun r2 hr2 q2 hq2 =>
        append_other (hinv'.seqs r2 hr2 q2 hq2) fun a ha hb => hap.2.2 r hrm r2 hr2 q hqm q2 hq2 a ha hb,
      grammar_congr rfl (fun r2 hr2 => append_other (hinv'.tails r2 hr2) fun a ha hb => hap.2.1 r hrm r2 hr2 a ha hb)
        fun _ _ _ _ => rfl,
      grammar_congr (append_other hinv'.fits hap.1) (fun _ _ => rfl) fun _ _ _ _ => rfl⟩

end Edits

section Example

/-- The tree (reduced to what `ToAST` looks at) of two rules with two alternatives of two symbols each. -/
private def exRule : Node :=
  let alt : Node := .mk 7 1 3 [.mk 9 1 2 [.mk 18 1 2 []], .mk 9 2 3 [.mk 18 2 3 []]]
  .mk 4 0 3 [.mk 18 0 1 [], .mk 5 1 3 [alt, alt]]
private def exTree : Node := .mk 0 0 3 [exRule, exRule]

private def exGrow : Nat → Nat → Nat := fun _ n => 3 * n

private def exRun : AstMem × List (R SliceRef) :=
  toASTCalls exGrow ⟨⟨0, fun _ => []⟩, ⟨0, fun _ => []⟩, ⟨0, fun _ => []⟩⟩
    [(selfBindings, exTree, b!"abc"), (selfBindings, exTree, b!"xyz")]

/-- A run the theorems apply to: two calls, tripled capacities; in the first grammar there is a symbol to overwrite, and
there is spare room behind the alternatives of its rules. -/
example : Roomy exGrow ∧ ∃ s s' r q, exRun.2 = [.ok s, .ok s'] ∧
    exRun.1.grammar s = ⟨[⟨b!"a", ⟨[⟨[.nonTerminal b!"b", .nonTerminal b!"c"]⟩, ⟨[.nonTerminal b!"b", .nonTerminal b!"c"]⟩]⟩⟩,
      ⟨b!"a", ⟨[⟨[.nonTerminal b!"b", .nonTerminal b!"c"]⟩, ⟨[.nonTerminal b!"b", .nonTerminal b!"c"]⟩]⟩⟩]⟩ ∧
    (exRun.1.rules.read s)[1]? = some r ∧ (exRun.1.seqs.read r.tail)[0]? = some q ∧ 1 < (exRun.1.syms.read q).length ∧
    r.tail.len < r.tail.cap ∧ s.arr ≠ s'.arr := by
  refine ⟨fun _ n => by show n ≤ 3 * n; omega, ⟨0, 2, 3⟩, ⟨1, 2, 3⟩, ⟨b!"a", ⟨1, 2, 3⟩⟩, ⟨2, 2, 3⟩, ?_⟩
  decide +kernel

end Example

end LL1
