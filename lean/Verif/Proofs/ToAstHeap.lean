import Verif.Spec.MemGrammar
import Verif.Proofs.SliceMem

/-!
# `ToAST` in memory: simulation with the value model
-/

namespace LL1

/-! ## Walking with two visitors side by side -/

section Walk
variable {V S1 S2 P1 P2 : Type}

/-- Two results that are related. -/
inductive ERel {P1 P2 A B : Type} (RP : P1 → P2 → Prop) (RS : A → B → Prop) : Except P1 A → Except P2 B → Prop
  | ok {a : A} {b : B} : RS a b → ERel RP RS (.ok a) (.ok b)
  | error {p : P1} {q : P2} : RP p q → ERel RP RS (.error p) (.error q)

variable {vis1 : Visitor V S1 P1} {vis2 : Visitor V S2 P2} {RP : P1 → P2 → Prop} {RS : S1 → S2 → Prop}

mutual
theorem walk_rel (hv : ∀ v n s1 s2, RS s1 s2 →
      ERel RP (fun a b => RS a.1 b.1 ∧ a.2 = b.2) (vis1.visit v n s1) (vis2.visit v n s2)) :
    ∀ (n : Node) (v : V) (s1 : S1) (s2 : S2), RS s1 s2 → ERel RP RS (walk vis1 v n s1) (walk vis2 v n s2)
  | .mk t p e cs, v, s1, s2, hs => by
    unfold walk
    have h := hv v (.mk t p e cs) s1 s2 hs
    generalize vis1.visit v (.mk t p e cs) s1 = x at h ⊢
    generalize vis2.visit v (.mk t p e cs) s2 = y at h ⊢
    cases h with
    | error h => exact .error h
    | @ok a b h =>
      obtain ⟨a1, a2⟩ := a
      obtain ⟨b1, b2⟩ := b
      obtain ⟨h1, h2⟩ := h
      dsimp only at h1 h2
      subst h2
      cases a2 with
      | none => exact .ok h1
      | some w => exact walkList_rel hv cs w a1 b1 h1
theorem walkList_rel (hv : ∀ v n s1 s2, RS s1 s2 →
      ERel RP (fun a b => RS a.1 b.1 ∧ a.2 = b.2) (vis1.visit v n s1) (vis2.visit v n s2)) :
    ∀ (ns : List Node) (v : V) (s1 : S1) (s2 : S2), RS s1 s2 → ERel RP RS (walkList vis1 v ns s1) (walkList vis2 v ns s2)
  | [], v, s1, s2, hs => by unfold walkList; exact .ok hs
  | n :: ns, v, s1, s2, hs => by
    unfold walkList
    have h := walk_rel hv n v s1 s2 hs
    generalize walk vis1 v n s1 = x at h ⊢
    generalize walk vis2 v n s2 = y at h ⊢
    cases h with
    | error h => exact .error h
    | ok h => exact walkList_rel hv ns v _ _ h
end
end Walk

namespace Mem

/-- Only new arrays were written. -/
structure Grows {α : Type} (m m' : Mem α) : Prop where
  next : m.next ≤ m'.next
  same : ∀ a, a < m.next → m'.arrays a = m.arrays a

variable {α : Type} {m m' m'' : Mem α} {s : SliceRef} {base : Nat}

theorem Grows.refl (m : Mem α) : m.Grows m := ⟨Nat.le_refl _, fun _ _ => rfl⟩

theorem Grows.trans (h : m.Grows m') (h' : m'.Grows m'') : m.Grows m'' :=
  ⟨Nat.le_trans h.next h'.next, fun a ha => by rw [h'.same a (Nat.lt_of_lt_of_le ha h.next), h.same a ha]⟩

theorem Grows.read (h : m.Grows m') (hf : m.Fits base s) : m'.read s = m.read s :=
  read_congr fun hc => h.same _ (hf.alloc hc).2.1

theorem Grows.fits (h : m.Grows m') (hf : m.Fits base s) : m'.Fits base s :=
  fits_congr hf h.next fun hc => h.same _ (hf.alloc hc).2.1

theorem Fits.weaken {b' : Nat} (hf : m.Fits base s) (h : b' ≤ base) : m.Fits b' s :=
  ⟨hf.len_le, fun hc => ⟨Nat.le_trans h (hf.alloc hc).1, (hf.alloc hc).2⟩⟩

/-- Appending to a slice that lies above `m0` leaves what is in `m0` alone. -/
theorem Grows.append {grow : Nat → Nat → Nat} {zero x : α} {m0 : Mem α} (hg : Roomy grow) (h : m0.Grows m)
    (hf : m.Fits m0.next s) :
    m0.Grows (m.append grow zero s x).1 ∧ (m.append grow zero s x).1.Fits m0.next (m.append grow zero s x).2 ∧
    (m.append grow zero s x).1.read (m.append grow zero s x).2 = m.read s ++ [x] := by
  have ha := append_spec hg zero hf h.next x
  refine ⟨⟨Nat.le_trans h.next ha.next, fun a hlt => ?_⟩, ha.fits, ha.read⟩
  rw [ha.others a (Nat.lt_of_lt_of_le hlt h.next) fun hc he => ?_, h.same a hlt]
  have := (hf.alloc hc).1
  omega

end Mem

namespace FC
open Mem

/-- The array a slice occupies, if any. -/
def own (s : SliceRef) : List Nat := if s.cap = 0 then [] else [s.arr]

theorem mem_own {s : SliceRef} {a : Nat} : a ∈ own s ↔ 0 < s.cap ∧ a = s.arr := by
  unfold own
  split
  · next h => simp [h]
  · next h => simp [Nat.pos_of_ne_zero h]

theorem own_nodup (s : SliceRef) : (own s).Nodup := by unfold own; split <;> simp

/-- Only new arrays were written. -/
structure AstMem.Grows (m m' : AstMem) : Prop where
  syms : m.syms.Grows m'.syms
  seqs : m.seqs.Grows m'.seqs
  rules : m.rules.Grows m'.rules

namespace AstMem.Grows
theorem refl (m : AstMem) : m.Grows m := ⟨.refl _, .refl _, .refl _⟩
theorem trans {m m' m'' : AstMem} (h : m.Grows m') (h' : m'.Grows m'') : m.Grows m'' :=
  ⟨h.syms.trans h'.syms, h.seqs.trans h'.seqs, h.rules.trans h'.rules⟩
end AstMem.Grows

/-- Two results of `ToAST`'s functions that are related. -/
inductive RRel {α β : Type} (rel : α → β → Prop) : R α → R β → Prop
  | ok {a : α} {b : β} : rel a b → RRel rel (.ok a) (.ok b)
  | err {e : Err} : RRel rel (.err e) (.err e)
  | panic {p : Panic} : RRel rel (.panic p) (.panic p)
  | diverge : RRel rel .diverge .diverge

/-- Starting from memory `m0`. -/
def Out {α β : Type} (m0 : AstMem) (rel : AstMem → α → β → Prop) (x : AstMem × R α) (y : R β) : Prop :=
  m0.Grows x.1 ∧ RRel (rel x.1) x.2 y

/-- Captured variables: memory and a slice against a value. -/
def StRel {β : Type} (m0 : AstMem) (rel : AstMem → SliceRef → β → Prop) (x : AstMem × SliceRef) (y : β) : Prop :=
  m0.Grows x.1 ∧ rel x.1 x.2 y

def PRel (m0 : AstMem) (x : AstMem × Panic) (y : Panic) : Prop := m0.Grows x.1 ∧ x.2 = y

theorem lrTraverse_rel {β : Type} {m0 : AstMem} {rel : AstMem → SliceRef → β → Prop} {b : Bindings}
    {f1 : OnNodeH (AstMem × SliceRef)} {f2 : OnNode β}
    (hf : ∀ n s1 s2, StRel m0 rel s1 s2 →
      ERel (PRel m0) (fun a b => StRel m0 rel a.1 b.1 ∧ a.2 = b.2) (f1 n s1) (f2 n s2))
    (root : Node) (ty : Int) (s1 : AstMem × SliceRef) (s2 : β) (hs : StRel m0 rel s1 s2) :
    ERel (PRel m0) (fun a b => StRel m0 rel a.1 b.1 ∧ a.2 = b.2) (b.lrTraverseH root ty f1 s1)
      (b.lrTraverse root ty f2 s2) := by
  unfold Bindings.lrTraverseH Bindings.lrTraverse FC.lrTraverse
  refine walk_rel (RS := fun (a : (AstMem × SliceRef) × Option Err) (b : β × Option Err) => StRel m0 rel a.1 b.1 ∧ a.2 = b.2) ?_ root () _ _ ⟨hs, rfl⟩
  rintro v n ⟨s1, e1⟩ ⟨s2, e2⟩ ⟨hs, he⟩
  dsimp only at hs he
  subst he
  unfold flexVisitorH flexVisitor
  dsimp only
  split
  · exact .ok ⟨⟨hs, rfl⟩, rfl⟩
  split
  · exact .ok ⟨⟨hs, rfl⟩, rfl⟩
  split
  · have h := hf n s1 s2 hs
    generalize f1 n s1 = x at h ⊢
    generalize f2 n s2 = y at h ⊢
    cases h with
    | error h => exact .error h
    | @ok a b h =>
      obtain ⟨a1, a2⟩ := a
      obtain ⟨b1, b2⟩ := b
      obtain ⟨h1, h2⟩ := h
      dsimp only at h1 h2
      subst h2
      exact .ok ⟨⟨h1, rfl⟩, rfl⟩
  · exact .ok ⟨⟨hs, rfl⟩, rfl⟩

/-! ## Sequences -/

def SeqRel (m0 m : AstMem) (s : SliceRef) (q : Sequence) : Prop := m.syms.Fits m0.syms.next s ∧ m.sequence s = q

variable {grow : Nat → Nat → Nat} (hg : Roomy grow)

include hg in
theorem doOnSymbol_rel (b : Bindings) (str : Str) (m0 : AstMem) (n : Node) (s1 : AstMem × SliceRef) (s2 : List Symbol)
    (hs : StRel m0 (fun m s l => SeqRel m0 m s ⟨l⟩) s1 s2) :
    ERel (PRel m0) (fun a b => StRel m0 (fun m s l => SeqRel m0 m s ⟨l⟩) a.1 b.1 ∧ a.2 = b.2)
      (b.doOnSymbolH grow str n s1) (b.doOnSymbol str n s2) := by
  obtain ⟨m, s⟩ := s1
  obtain ⟨h0, hf, hv⟩ := hs
  dsimp only at h0 hf hv
  unfold Bindings.doOnSymbolH Bindings.doOnSymbol
  dsimp only
  generalize b.parseSymbol n str = r
  cases r with
  | panic p => exact .error ⟨h0, rfl⟩
  | diverge => exact .ok ⟨⟨h0, hf, hv⟩, rfl⟩
  | err e => exact .ok ⟨⟨h0, hf, hv⟩, rfl⟩
  | ok o =>
    cases o with
    | none => exact .ok ⟨⟨h0, hf, hv⟩, rfl⟩
    | some y =>
      obtain ⟨h1, h2, h3⟩ := h0.syms.append (zero := .nothing) (x := y) hg hf
      refine .ok ⟨⟨⟨h1, h0.seqs, h0.rules⟩, h2, ?_⟩, rfl⟩
      show Sequence.mk _ = _
      simp only [AstMem.sequence, Sequence.mk.injEq] at hv ⊢
      rw [h3, hv]

include hg in
theorem parseSequence_rel (b : Bindings) (n : Node) (str : Str) (m0 : AstMem) :
    Out m0 (SeqRel m0) (b.parseSequenceH grow n str m0) (b.parseSequence n str) := by
  unfold Bindings.parseSequenceH Bindings.parseSequence
  have h := lrTraverse_rel (b := b) (doOnSymbol_rel hg b str m0) n b.sequencesSymbolType (m0, SliceRef.empty) []
    ⟨.refl _, fits_empty _ _, rfl⟩
  generalize b.lrTraverseH n b.sequencesSymbolType (b.doOnSymbolH grow str) (m0, SliceRef.empty) = x at h ⊢
  generalize b.lrTraverse n b.sequencesSymbolType (b.doOnSymbol str) [] = y at h ⊢
  cases h with
  | @error p q h => obtain ⟨m, p⟩ := p; obtain ⟨h1, rfl⟩ := h; exact ⟨h1, .panic⟩
  | @ok p q h =>
    obtain ⟨⟨m, s⟩, e⟩ := p
    obtain ⟨l, e'⟩ := q
    obtain ⟨⟨h1, h2⟩, rfl⟩ := h
    cases e with
    | none => exact ⟨h1, .ok h2⟩
    | some e => exact ⟨h1, .err⟩

/-! ## Substitutions -/

/-- The slices of a substitution: above `m0`, and no two in the same array. -/
structure TailInv (m0 m : AstMem) (s : SliceRef) : Prop where
  fits : m.seqs.Fits m0.seqs.next s
  seqs : ∀ q ∈ m.seqs.read s, m.syms.Fits m0.syms.next q
  nodup : ((m.seqs.read s).flatMap own).Nodup

theorem sequence_grows {m m' : AstMem} {base : Nat} (h : m.syms.Grows m'.syms) {q : SliceRef} (hf : m.syms.Fits base q) :
    m'.sequence q = m.sequence q := by
  simp only [AstMem.sequence, h.read hf]

theorem TailInv.grows {m0 m m' : AstMem} {s : SliceRef} (ht : TailInv m0 m s) (h : m.Grows m') :
    TailInv m0 m' s ∧ m'.substitution s = m.substitution s := by
  have hr := h.seqs.read ht.fits
  refine ⟨⟨h.seqs.fits ht.fits, fun q hq => ?_, by rw [hr]; exact ht.nodup⟩, ?_⟩
  · rw [hr] at hq; exact h.syms.fits (ht.seqs q hq)
  · simp only [AstMem.substitution, hr, Substitution.mk.injEq]
    exact List.map_congr_left fun q hq => sequence_grows h.syms (ht.seqs q hq)

theorem TailInv.weaken {m0 m1 m : AstMem} {s : SliceRef} (ht : TailInv m1 m s) (h : m0.Grows m1) : TailInv m0 m s :=
  ⟨ht.fits.weaken h.seqs.next, fun q hq => (ht.seqs q hq).weaken h.syms.next, ht.nodup⟩

theorem TailInv.empty (m0 m : AstMem) : TailInv m0 m SliceRef.empty :=
  ⟨fits_empty _ _, by simp [Mem.read, SliceRef.empty], by simp [Mem.read, SliceRef.empty]⟩

theorem fits_own {α : Type} {m : Mem α} {base : Nat} {q : SliceRef} (hf : m.Fits base q) {a : Nat} (ha : a ∈ own q) :
    base ≤ a ∧ a < m.next := by
  obtain ⟨hc, rfl⟩ := mem_own.1 ha
  exact ⟨(hf.alloc hc).1, (hf.alloc hc).2.1⟩

def SubRel (m0 m : AstMem) (s : SliceRef) (q : Substitution) : Prop := TailInv m0 m s ∧ m.substitution s = q

include hg in
theorem doOnSequence_rel (b : Bindings) (str : Str) (m0 : AstMem) (n : Node) (s1 : AstMem × SliceRef) (s2 : List Sequence)
    (hs : StRel m0 (fun m s l => SubRel m0 m s ⟨l⟩) s1 s2) :
    ERel (PRel m0) (fun a b => StRel m0 (fun m s l => SubRel m0 m s ⟨l⟩) a.1 b.1 ∧ a.2 = b.2)
      (b.doOnSequenceH grow str n s1) (b.doOnSequence str n s2) := by
  obtain ⟨m, s⟩ := s1
  obtain ⟨h0, ht, hv⟩ := hs
  dsimp only at h0 ht hv
  unfold Bindings.doOnSequenceH Bindings.doOnSequence
  dsimp only
  have h := parseSequence_rel hg b n str m
  generalize b.parseSequenceH grow n str m = x at h ⊢
  generalize b.parseSequence n str = y at h ⊢
  obtain ⟨m', r⟩ := x
  obtain ⟨h1, h2⟩ := h
  dsimp only at h1 h2
  have h01 := h0.trans h1
  obtain ⟨ht', hv'⟩ := ht.grows h1
  rw [hv] at hv'
  cases h2 with
  | panic => exact .error ⟨h01, rfl⟩
  | diverge => exact .ok ⟨⟨h01, ht', hv'⟩, rfl⟩
  | err => exact .ok ⟨⟨h01, ht', hv'⟩, rfl⟩
  | @ok q q' hq =>
    obtain ⟨hq, rfl⟩ := hq
    obtain ⟨k1, k2, k3⟩ := h01.seqs.append (zero := SliceRef.empty) (x := q) hg ht'.fits
    refine .ok ⟨⟨⟨h01.syms, k1, h01.rules⟩, ⟨k2, ?_, ?_⟩, ?_⟩, rfl⟩
    · dsimp only
      rw [k3]
      intro q2 h2
      rw [List.mem_append, List.mem_singleton] at h2
      rcases h2 with h2 | rfl
      · exact ht'.seqs q2 h2
      · exact hq.weaken h0.syms.next
    · dsimp only
      rw [k3, List.flatMap_append, List.nodup_append]
      refine ⟨ht'.nodup, by simpa using own_nodup q, ?_⟩
      intro a ha c hc hac
      subst hac
      obtain ⟨q2, hq2, ha⟩ := List.mem_flatMap.1 ha
      simp only [List.flatMap_cons, List.flatMap_nil, List.append_nil] at hc
      rw [h1.seqs.read ht.fits] at hq2
      have := (fits_own (ht.seqs q2 hq2) ha).2
      have := (fits_own hq hc).1
      omega
    · simp only [AstMem.substitution, Substitution.mk.injEq] at hv' ⊢
      rw [k3, List.map_append]
      exact congr (congrArg _ hv') rfl

include hg in
theorem parseSubstitution_rel (b : Bindings) (n : Node) (str : Str) (m0 : AstMem) :
    Out m0 (SubRel m0) (b.parseSubstitutionH grow n str m0) (b.parseSubstitution n str) := by
  unfold Bindings.parseSubstitutionH Bindings.parseSubstitution
  have h := lrTraverse_rel (b := b) (doOnSequence_rel hg b str m0) n b.expressionSequencesType (m0, SliceRef.empty) []
    ⟨.refl _, .empty _ _, rfl⟩
  generalize b.lrTraverseH n b.expressionSequencesType (b.doOnSequenceH grow str) (m0, SliceRef.empty) = x at h ⊢
  generalize b.lrTraverse n b.expressionSequencesType (b.doOnSequence str) [] = y at h ⊢
  cases h with
  | @error p q h => obtain ⟨m, p⟩ := p; obtain ⟨h1, rfl⟩ := h; exact ⟨h1, .panic⟩
  | @ok p q h =>
    obtain ⟨⟨m, s⟩, e⟩ := p
    obtain ⟨l, e'⟩ := q
    obtain ⟨⟨h1, h2⟩, rfl⟩ := h
    cases e with
    | none => exact ⟨h1, .ok h2⟩
    | some e => exact ⟨h1, .err⟩

include hg in
theorem doOnSubstitution_rel (b : Bindings) (str : Str) (m0 : AstMem) (n : Node) (s1 : AstMem × SliceRef)
    (s2 : Substitution) (hs : StRel m0 (SubRel m0) s1 s2) :
    ERel (PRel m0) (fun a b => StRel m0 (SubRel m0) a.1 b.1 ∧ a.2 = b.2)
      (b.doOnSubstitutionH grow str n s1) (b.doOnSubstitution str n s2) := by
  obtain ⟨m, s⟩ := s1
  obtain ⟨h0, ht, hv⟩ := hs
  dsimp only at h0 ht hv
  unfold Bindings.doOnSubstitutionH Bindings.doOnSubstitution
  dsimp only
  have h := parseSubstitution_rel hg b n str m
  generalize b.parseSubstitutionH grow n str m = x at h ⊢
  generalize b.parseSubstitution n str = y at h ⊢
  obtain ⟨m', r⟩ := x
  obtain ⟨h1, h2⟩ := h
  dsimp only at h1 h2
  have h01 := h0.trans h1
  obtain ⟨ht', hv'⟩ := ht.grows h1
  rw [hv] at hv'
  cases h2 with
  | panic => exact .error ⟨h01, rfl⟩
  | diverge => exact .ok ⟨⟨h01, ht', hv'⟩, rfl⟩
  | err => exact .ok ⟨⟨h01, ht', hv'⟩, rfl⟩
  | @ok q q' hq => exact .ok ⟨⟨h01, hq.1.weaken h0, hq.2⟩, rfl⟩

/-! ## Rules -/

def RuleRel (m0 m : AstMem) (r : HRule) (r' : Rule) : Prop := TailInv m0 m r.tail ∧ m.rule r = r'

include hg in
theorem parseRule_rel (b : Bindings) (n : Node) (str : Str) (m0 : AstMem) :
    Out m0 (RuleRel m0) (b.parseRuleH grow n str m0) (b.parseRule n str) := by
  unfold Bindings.parseRuleH Bindings.parseRule
  generalize b.lrTraverse n b.ruleHeadType (doOnHead str) [] = hd
  have hname : ∀ (m : AstMem) (f : Str → Err), m0.Grows m →
      Out m0 (RuleRel m0) (match nodeName n str with
        | .error p => (m, .panic p)
        | .ok t => (m, .err (f t)))
      (match nodeName n str with
        | .error p => .panic p
        | .ok t => .err (f t)) := by
    intro m f hm
    generalize nodeName n str = nn
    cases nn with
    | error p => exact ⟨hm, .panic⟩
    | ok t => exact ⟨hm, .err⟩
  cases hd with
  | error p => exact ⟨.refl _, .panic⟩
  | ok p =>
    obtain ⟨head, e⟩ := p
    cases e with
    | none => exact hname m0 .noRuleName (.refl _)
    | some e =>
      cases e with
      | searchComplete =>
        have h := lrTraverse_rel (b := b) (doOnSubstitution_rel hg b str m0) n b.ruleTailType (m0, SliceRef.empty) ⟨[]⟩
          ⟨.refl _, .empty _ _, rfl⟩
        generalize b.lrTraverseH n b.ruleTailType (b.doOnSubstitutionH grow str) (m0, SliceRef.empty) = x at h ⊢
        generalize b.lrTraverse n b.ruleTailType (b.doOnSubstitution str) ⟨[]⟩ = y at h ⊢
        cases h with
        | @error p q h => obtain ⟨m, p⟩ := p; obtain ⟨h1, rfl⟩ := h; exact ⟨h1, .panic⟩
        | @ok p q h =>
          obtain ⟨⟨m, s⟩, e⟩ := p
          obtain ⟨l, e'⟩ := q
          obtain ⟨⟨h1, h2, h3⟩, rfl⟩ := h
          dsimp only at h1 h2 h3
          subst h3
          cases e with
          | none => exact hname m .noSubstitution h1
          | some e =>
            cases e
            case searchComplete => exact ⟨h1, .ok ⟨h2, rfl⟩⟩
            all_goals exact ⟨h1, .err⟩
      | _ => exact hname m0 .noRuleName (.refl _)

/-! ## Grammars -/

/-- The slices of a grammar: above `m0`, and no two of the same kind in the same array. -/
structure GrammarInv (m0 m : AstMem) (s : SliceRef) : Prop where
  fits : m.rules.Fits m0.rules.next s
  tails : ∀ r ∈ m.rules.read s, m.seqs.Fits m0.seqs.next r.tail
  seqs : ∀ r ∈ m.rules.read s, ∀ q ∈ m.seqs.read r.tail, m.syms.Fits m0.syms.next q
  nodupSeqs : ((m.rules.read s).flatMap fun r => own r.tail).Nodup
  nodupSyms : ((m.rules.read s).flatMap fun r => (m.seqs.read r.tail).flatMap own).Nodup

theorem GrammarInv.tail {m0 m : AstMem} {s : SliceRef} (h : GrammarInv m0 m s) {r : HRule} (hr : r ∈ m.rules.read s) :
    TailInv m0 m r.tail := by
  refine ⟨h.tails r hr, h.seqs r hr, ?_⟩
  obtain ⟨l1, l2, e⟩ := List.append_of_mem hr
  have := h.nodupSyms
  rw [e, List.flatMap_append, List.flatMap_cons, List.nodup_append, List.nodup_append] at this
  exact this.2.1.1

theorem GrammarInv.grows {m0 m m' : AstMem} {s : SliceRef} (ht : GrammarInv m0 m s) (h : m.Grows m') :
    GrammarInv m0 m' s ∧ m'.grammar s = m.grammar s := by
  have hr := h.rules.read ht.fits
  have hrd : ∀ r ∈ m.rules.read s, m'.seqs.read r.tail = m.seqs.read r.tail := fun r h' => h.seqs.read (ht.tails r h')
  refine ⟨⟨h.rules.fits ht.fits, fun r h' => ?_, fun r h' q hq => ?_, by rw [hr]; exact ht.nodupSeqs, ?_⟩, ?_⟩
  · rw [hr] at h'; exact h.seqs.fits (ht.tails r h')
  · rw [hr] at h'; rw [hrd r h'] at hq; exact h.syms.fits (ht.seqs r h' q hq)
  · rw [hr]
    have := ht.nodupSyms
    rw [List.flatMap_def] at this ⊢
    rw [List.map_congr_left (fun r h' => by rw [hrd r h'])]
    exact this
  · simp only [AstMem.grammar, hr, Grammar.mk.injEq]
    exact List.map_congr_left fun r h' => by
      simp only [AstMem.rule, ((ht.tail h').grows h).2]

theorem GrammarInv.weaken {m0 m1 m : AstMem} {s : SliceRef} (ht : GrammarInv m1 m s) (h : m0.Grows m1) :
    GrammarInv m0 m s :=
  ⟨ht.fits.weaken h.rules.next, fun r hr => (ht.tails r hr).weaken h.seqs.next,
    fun r hr q hq => (ht.seqs r hr q hq).weaken h.syms.next, ht.nodupSeqs, ht.nodupSyms⟩

theorem GrammarInv.empty (m0 m : AstMem) : GrammarInv m0 m SliceRef.empty :=
  ⟨fits_empty _ _, by simp [Mem.read, SliceRef.empty], by simp [Mem.read, SliceRef.empty],
    by simp [Mem.read, SliceRef.empty], by simp [Mem.read, SliceRef.empty]⟩

def GraRel (m0 m : AstMem) (s : SliceRef) (q : Grammar) : Prop := GrammarInv m0 m s ∧ m.grammar s = q

include hg in
theorem doOnRule_rel (b : Bindings) (str : Str) (m0 : AstMem) (n : Node) (s1 : AstMem × SliceRef) (s2 : List Rule)
    (hs : StRel m0 (fun m s l => GraRel m0 m s ⟨l⟩) s1 s2) :
    ERel (PRel m0) (fun a b => StRel m0 (fun m s l => GraRel m0 m s ⟨l⟩) a.1 b.1 ∧ a.2 = b.2)
      (b.doOnRuleH grow str n s1) (b.doOnRule str n s2) := by
  obtain ⟨m, s⟩ := s1
  obtain ⟨h0, ht, hv⟩ := hs
  dsimp only at h0 ht hv
  unfold Bindings.doOnRuleH Bindings.doOnRule
  dsimp only
  have h := parseRule_rel hg b n str m
  generalize b.parseRuleH grow n str m = x at h ⊢
  generalize b.parseRule n str = y at h ⊢
  obtain ⟨m', r⟩ := x
  obtain ⟨h1, h2⟩ := h
  dsimp only at h1 h2
  have h01 := h0.trans h1
  obtain ⟨ht', hv'⟩ := ht.grows h1
  rw [hv] at hv'
  cases h2 with
  | panic => exact .error ⟨h01, rfl⟩
  | diverge => exact .ok ⟨⟨h01, ht', hv'⟩, rfl⟩
  | err => exact .ok ⟨⟨h01, ht', hv'⟩, rfl⟩
  | @ok q q' hq =>
    obtain ⟨hq, rfl⟩ := hq
    obtain ⟨k1, k2, k3⟩ := h01.rules.append (zero := ⟨[], SliceRef.empty⟩) (x := q) hg ht'.fits
    have hq0 := hq.weaken h0
    have hold := h1.rules.read ht.fits
    refine .ok ⟨⟨⟨h01.syms, h01.seqs, k1⟩, ⟨k2, ?_, ?_, ?_, ?_⟩, ?_⟩, rfl⟩
    · dsimp only
      rw [k3]
      intro r hr
      rw [List.mem_append, List.mem_singleton] at hr
      rcases hr with hr | rfl
      · exact ht'.tails r hr
      · exact hq0.fits
    · dsimp only
      rw [k3]
      intro r hr
      rw [List.mem_append, List.mem_singleton] at hr
      rcases hr with hr | rfl
      · exact ht'.seqs r hr
      · exact hq0.seqs
    · dsimp only
      rw [k3, List.flatMap_append, List.nodup_append]
      refine ⟨ht'.nodupSeqs, by simpa using own_nodup _, ?_⟩
      intro a ha c hc hac
      subst hac
      obtain ⟨r, hr, ha⟩ := List.mem_flatMap.1 ha
      simp only [List.flatMap_cons, List.flatMap_nil, List.append_nil] at hc
      rw [hold] at hr
      have := (fits_own (ht.tails r hr) ha).2
      have := (fits_own hq.fits hc).1
      omega
    · dsimp only
      rw [k3, List.flatMap_append, List.nodup_append]
      refine ⟨ht'.nodupSyms, by simpa using hq.nodup, ?_⟩
      intro a ha c hc hac
      subst hac
      obtain ⟨r, hr, ha⟩ := List.mem_flatMap.1 ha
      obtain ⟨q2, hq2, ha⟩ := List.mem_flatMap.1 ha
      simp only [List.flatMap_cons, List.flatMap_nil, List.append_nil] at hc
      obtain ⟨q3, hq3, hc⟩ := List.mem_flatMap.1 hc
      rw [hold] at hr
      rw [h1.seqs.read (ht.tails r hr)] at hq2
      have := (fits_own (ht.seqs r hr q2 hq2) ha).2
      have := (fits_own (hq.seqs q3 hq3) hc).1
      omega
    · simp only [AstMem.grammar, Grammar.mk.injEq] at hv' ⊢
      rw [k3, List.map_append]
      exact congr (congrArg _ hv') rfl

include hg in
theorem toASTBody_rel (b : Bindings) (n : Node) (str : Str) (m0 : AstMem) :
    Out m0 (GraRel m0) (b.toASTBodyH grow n str m0) (b.toASTBody n str) := by
  unfold Bindings.toASTBodyH Bindings.toASTBody
  have h := lrTraverse_rel (b := b) (doOnRule_rel hg b str m0) n b.ruleType (m0, SliceRef.empty) []
    ⟨.refl _, .empty _ _, rfl⟩
  generalize b.lrTraverseH n b.ruleType (b.doOnRuleH grow str) (m0, SliceRef.empty) = x at h ⊢
  generalize b.lrTraverse n b.ruleType (b.doOnRule str) [] = y at h ⊢
  cases h with
  | @error p q h => obtain ⟨m, p⟩ := p; obtain ⟨h1, rfl⟩ := h; exact ⟨h1, .panic⟩
  | @ok p q h =>
    obtain ⟨⟨m, s⟩, e⟩ := p
    obtain ⟨l, e'⟩ := q
    obtain ⟨⟨h1, h2⟩, rfl⟩ := h
    cases e with
    | none => exact ⟨h1, .ok h2⟩
    | some e => exact ⟨h1, .err⟩

include hg in
theorem toAST_rel (b : Bindings) (n : Node) (str : Str) (m0 : AstMem) :
    Out m0 (GraRel m0) (b.toASTH grow n str m0) (b.toAST n str) := toASTBody_rel hg _ n str m0

end FC
end LL1
