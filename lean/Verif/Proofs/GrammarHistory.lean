import Verif.Spec.GrammarHistory
import Verif.Props.ToAstHeap

/-!
# Grammars in memory behave as values: ownership
-/

namespace LL1
namespace FC
open Mem

/-- An array of one of the three kinds. -/
inductive Addr where
  | sym (a : Nat)
  | seq (a : Nat)
  | rule (a : Nat)
  deriving DecidableEq

namespace AstMem

def Alloc (m : AstMem) : Addr → Prop
  | .sym a => a < m.syms.next
  | .seq a => a < m.seqs.next
  | .rule a => a < m.rules.next

def SameAt (m m' : AstMem) : Addr → Prop
  | .sym a => m'.syms.arrays a = m.syms.arrays a
  | .seq a => m'.seqs.arrays a = m.seqs.arrays a
  | .rule a => m'.rules.arrays a = m.rules.arrays a

theorem SameAt.refl (m : AstMem) (a : Addr) : m.SameAt m a := by cases a <;> rfl

theorem SameAt.trans {m m' m'' : AstMem} {a : Addr} (h : m.SameAt m' a) (h' : m'.SameAt m'' a) : m.SameAt m'' a := by
  cases a <;> exact Eq.trans h' h

/-- A step of the program that owned the arrays `F` and now owns `F'`: it wrote only to `F` and to new arrays, and got only new
arrays. -/
structure Step (m m' : AstMem) (F F' : Addr → Prop) : Prop where
  alloc : ∀ a, m.Alloc a → m'.Alloc a
  same : ∀ a, m.Alloc a → ¬ F a → m.SameAt m' a
  fresh : ∀ a, F' a → F a ∨ ¬ m.Alloc a

theorem Step.refl (m : AstMem) (F : Addr → Prop) : Step m m F F := ⟨fun _ h => h, fun a _ _ => .refl m a, fun _ h => .inl h⟩

theorem Step.trans {m m' m'' : AstMem} {F F' F'' : Addr → Prop} (h : Step m m' F F') (h' : Step m' m'' F' F'') :
    Step m m'' F F'' where
  alloc a ha := h'.alloc a (h.alloc a ha)
  same a ha hf := (h.same a ha hf).trans (h'.same a (h.alloc a ha) fun hf' => by
    rcases h.fresh a hf' with h1 | h1
    · exact hf h1
    · exact h1 ha)
  fresh a ha := by
    rcases h'.fresh a ha with h1 | h1
    · exact h.fresh a h1
    · exact .inr fun h2 => h1 (h.alloc a h2)

theorem Step.mono {m m' : AstMem} {F F' G G' : Addr → Prop} (h : Step m m' F F') (h1 : ∀ a, F a → G a)
    (h2 : ∀ a, G' a → F' a ∨ G a) : Step m m' G G' where
  alloc := h.alloc
  same a ha hf := h.same a ha fun hf' => hf (h1 a hf')
  fresh a ha := by
    rcases h2 a ha with h3 | h3
    · rcases h.fresh a h3 with h4 | h4
      · exact .inl (h1 a h4)
      · exact .inr h4
    · exact .inl h3

end AstMem
open AstMem

section Lists
variable {R V : Type}

/-- Something in memory, seen through a reference: it owns arrays and has a value. -/
abbrev Pred (R V : Type) := AstMem → R → (Addr → Prop) → V → Prop

/-- It depends on its own arrays only, which are allocated. -/
structure Framed (P : Pred R V) : Prop where
  bound : ∀ m r F v, P m r F v → ∀ a, F a → m.Alloc a
  frame : ∀ m m' r F v, P m r F v → (∀ a, m.Alloc a → m'.Alloc a) → (∀ a, F a → m.SameAt m' a) → P m' r F v

/-- Some such things, no two of them with a common array. -/
inductive SepList (P : Pred R V) (m : AstMem) : List R → (Addr → Prop) → List V → Prop
  | nil : SepList P m [] (fun _ => False) []
  | cons {r : R} {rs : List R} {F F' : Addr → Prop} {v : V} {vs : List V} : P m r F v → SepList P m rs F' vs →
      (∀ a, F a → F' a → False) → SepList P m (r :: rs) (fun a => F a ∨ F' a) (v :: vs)

variable {P : Pred R V} {m : AstMem} {rs : List R} {F : Addr → Prop} {vs : List V}

theorem SepList.length (h : SepList P m rs F vs) : rs.length = vs.length := by
  induction h with
  | nil => rfl
  | cons _ _ _ ih => simp [ih]

theorem SepList.bound (hP : Framed P) (h : SepList P m rs F vs) : ∀ a, F a → m.Alloc a := by
  induction h with
  | nil => exact fun _ h => h.elim
  | cons h1 _ _ ih =>
    rintro a (ha | ha)
    · exact hP.bound _ _ _ _ h1 a ha
    · exact ih a ha

theorem SepList.frame (hP : Framed P) (h : SepList P m rs F vs) {m' : AstMem} (ha : ∀ a, m.Alloc a → m'.Alloc a)
    (hs : ∀ a, F a → m.SameAt m' a) : SepList P m' rs F vs := by
  induction h with
  | nil => exact .nil
  | cons h1 _ h3 ih =>
    exact .cons (hP.frame _ _ _ _ _ h1 ha fun a h => hs a (.inl h)) (ih fun a h => hs a (.inr h)) h3

/-- A step of the owner of other arrays does not touch the things. -/
theorem SepList.frameStep (hP : Framed P) (h : SepList P m rs F vs) {m' : AstMem} {G G' : Addr → Prop} (hs : Step m m' G G')
    (hd : ∀ a, F a → G a → False) : SepList P m' rs F vs ∧ ∀ a, F a → G' a → False := by
  refine ⟨h.frame hP hs.alloc fun a ha => hs.same a (h.bound hP a ha) (hd a ha), fun a ha hg => ?_⟩
  rcases hs.fresh a hg with h1 | h1
  · exact hd a ha h1
  · exact h1 (h.bound hP a ha)

theorem SepList.get (hP : Framed P) (h : SepList P m rs F vs) {i : Nat} {r : R} (hi : rs[i]? = some r) :
    ∃ Fi v, vs[i]? = some v ∧ P m r Fi v ∧ (∀ a, Fi a → F a) ∧
      ∀ m' r' Fi' v', Step m m' Fi Fi' → P m' r' Fi' v' →
        ∃ F', SepList P m' (rs.set i r') F' (vs.set i v') ∧ Step m m' F F' := by
  induction h generalizing i with
  | nil => simp at hi
  | @cons r0 rs F1 F2 v0 vs h1 h2 h3 ih =>
    cases i with
    | zero =>
      simp only [List.getElem?_cons_zero, Option.some.injEq] at hi
      subst hi
      refine ⟨F1, v0, rfl, h1, fun a h => .inl h, fun m' r' Fi' v' hs hp => ?_⟩
      obtain ⟨k1, k2⟩ := h2.frameStep hP hs fun a ha hb => h3 a hb ha
      exact ⟨_, .cons hp k1 fun a ha hb => k2 a hb ha, hs.mono (fun a h => .inl h) fun a h => h.elim .inl fun h => .inr (.inr h)⟩
    | succ i =>
      simp only [List.getElem?_cons_succ] at hi
      obtain ⟨Fi, v, k1, k2, k3, k4⟩ := ih hi
      refine ⟨Fi, v, k1, k2, fun a h => .inr (k3 a h), fun m' r' Fi' v' hs hp => ?_⟩
      obtain ⟨F', l1, l2⟩ := k4 m' r' Fi' v' hs hp
      refine ⟨_, .cons (hP.frame _ _ _ _ _ h1 hs.alloc fun a ha => ?_) l1 fun a ha hb => ?_,
        l2.mono (fun a h => .inr h) fun a h => h.elim (fun h => .inr (.inl h)) .inl⟩
      · exact hs.same a (hP.bound _ _ _ _ h1 a ha) fun hf => h3 a ha (k3 a hf)
      · rcases l2.fresh a hb with h4 | h4
        · exact h3 a ha h4
        · exact h4 (hP.bound _ _ _ _ h1 a ha)

theorem SepList.get_none (h : SepList P m rs F vs) {i : Nat} (hi : rs[i]? = none) : vs[i]? = none := by
  rw [List.getElem?_eq_none_iff] at hi ⊢
  rw [← h.length]; exact hi

theorem SepList.snoc (h : SepList P m rs F vs) {r : R} {G : Addr → Prop} {v : V} (hp : P m r G v)
    (hd : ∀ a, F a → G a → False) : ∃ F', SepList P m (rs ++ [r]) F' (vs ++ [v]) ∧ ∀ a, F' a ↔ F a ∨ G a := by
  induction h with
  | nil => exact ⟨_, .cons hp .nil (fun _ _ h => h), fun a => by simp⟩
  | @cons r0 rs F1 F2 v0 vs h1 h2 h3 ih =>
    obtain ⟨F', k1, k2⟩ := ih fun a ha hb => hd a (.inr ha) hb
    refine ⟨_, .cons h1 k1 fun a ha hb => ?_, fun a => by rw [k2, or_assoc]⟩
    rcases (k2 a).1 hb with h4 | h4
    · exact h3 a ha h4
    · exact hd a (.inl ha) h4

theorem SepList.take (h : SepList P m rs F vs) (n : Nat) : ∃ F', SepList P m (rs.take n) F' (vs.take n) ∧ ∀ a, F' a → F a := by
  induction h generalizing n with
  | nil => exact ⟨_, by simp only [List.take_nil]; exact .nil, fun _ h => h⟩
  | @cons r0 rs F1 F2 v0 vs h1 h2 h3 ih =>
    cases n with
    | zero => exact ⟨fun _ => False, by simp only [List.take_zero]; exact .nil, fun _ h => False.elim h⟩
    | succ n =>
      obtain ⟨F', k1, k2⟩ := ih n
      exact ⟨_, .cons h1 k1 fun a ha hb => h3 a ha (k2 a hb), fun a h => h.elim .inl fun h => .inr (k2 a h)⟩

end Lists

/-! ## Sequences, substitutions, rules, grammars -/

/-- A sequence in memory. -/
def SeqAt : Pred SliceRef Sequence := fun m q F v =>
  m.syms.Fits 0 q ∧ m.syms.read q = v.symbols ∧ ∀ a, F a ↔ ∃ n, a = .sym n ∧ n ∈ own q

/-- A substitution in memory. -/
def SubAt : Pred SliceRef Substitution := fun m t F v =>
  m.seqs.Fits 0 t ∧ ∃ F1, SepList SeqAt m (m.seqs.read t) F1 v.sequences ∧ ∀ a, F a ↔ (∃ n, a = .seq n ∧ n ∈ own t) ∨ F1 a

/-- A rule in memory. -/
def RuleAt : Pred HRule Rule := fun m r F v => r.head = v.head ∧ SubAt m r.tail F v.tail

/-- A grammar in memory. -/
def GramAt : Pred SliceRef Grammar := fun m s F v =>
  m.rules.Fits 0 s ∧ ∃ F1, SepList RuleAt m (m.rules.read s) F1 v.rules ∧ ∀ a, F a ↔ (∃ n, a = .rule n ∧ n ∈ own s) ∨ F1 a

theorem fits_frame {α : Type} {m m' : Mem α} {s : SliceRef} (h : m.Fits 0 s) (hn : ∀ a, a < m.next → a < m'.next)
    (hs : ∀ n ∈ own s, m'.arrays n = m.arrays n) : m'.Fits 0 s ∧ m'.read s = m.read s := by
  refine ⟨⟨h.len_le, fun hc => ?_⟩, read_congr fun hc => hs _ (mem_own.2 ⟨hc, rfl⟩)⟩
  obtain ⟨a1, a2, a3⟩ := h.alloc hc
  exact ⟨a1, hn _ a2, by rw [hs _ (mem_own.2 ⟨hc, rfl⟩)]; exact a3⟩

theorem seqAt_framed : Framed SeqAt where
  bound m r F v h a ha := by
    obtain ⟨n, rfl, hn⟩ := (h.2.2 a).1 ha
    exact (fits_own h.1 hn).2
  frame m m' r F v h ha hs := by
    obtain ⟨k1, k2⟩ := fits_frame h.1 (fun a => ha (.sym a)) fun n hn => hs (.sym n) ((h.2.2 _).2 ⟨n, rfl, hn⟩)
    exact ⟨k1, k2.trans h.2.1, h.2.2⟩

theorem subAt_framed : Framed SubAt where
  bound m r F v h a ha := by
    obtain ⟨h1, F1, h2, h3⟩ := h
    rcases (h3 a).1 ha with ⟨n, rfl, hn⟩ | h4
    · exact (fits_own h1 hn).2
    · exact h2.bound seqAt_framed a h4
  frame m m' r F v h ha hs := by
    obtain ⟨h1, F1, h2, h3⟩ := h
    obtain ⟨k1, k2⟩ := fits_frame h1 (fun a => ha (.seq a)) fun n hn => hs (.seq n) ((h3 _).2 (.inl ⟨n, rfl, hn⟩))
    exact ⟨k1, F1, by rw [k2]; exact h2.frame seqAt_framed ha fun a h => hs a ((h3 a).2 (.inr h)), h3⟩

theorem ruleAt_framed : Framed RuleAt where
  bound m r F v h := subAt_framed.bound _ _ _ _ h.2
  frame m m' r F v h ha hs := ⟨h.1, subAt_framed.frame _ _ _ _ _ h.2 ha hs⟩

theorem gramAt_framed : Framed GramAt where
  bound m r F v h a ha := by
    obtain ⟨h1, F1, h2, h3⟩ := h
    rcases (h3 a).1 ha with ⟨n, rfl, hn⟩ | h4
    · exact (fits_own h1 hn).2
    · exact h2.bound ruleAt_framed a h4
  frame m m' r F v h ha hs := by
    obtain ⟨h1, F1, h2, h3⟩ := h
    obtain ⟨k1, k2⟩ := fits_frame h1 (fun a => ha (.rule a)) fun n hn => hs (.rule n) ((h3 _).2 (.inl ⟨n, rfl, hn⟩))
    exact ⟨k1, F1, by rw [k2]; exact h2.frame ruleAt_framed ha fun a h => hs a ((h3 a).2 (.inr h)), h3⟩

theorem SepList.map_eq {R V : Type} {P : Pred R V} {f : R → V} {m : AstMem} {rs : List R} {F : Addr → Prop} {vs : List V}
    (h : SepList P m rs F vs) (hf : ∀ r F v, P m r F v → f r = v) : rs.map f = vs := by
  induction h with
  | nil => rfl
  | cons h1 _ _ ih => rw [List.map_cons, ih, hf _ _ _ h1]

/-- What is seen is the value. -/
theorem gramAt_grammar {m : AstMem} {s : SliceRef} {F : Addr → Prop} {g : Grammar} (h : GramAt m s F g) : m.grammar s = g := by
  obtain ⟨_, F1, h2, _⟩ := h
  have := h2.map_eq (f := m.rule) fun r F v hr => by
    obtain ⟨hh, _, F1, h2, _⟩ := hr
    have := h2.map_eq (f := m.sequence) fun q F v hq => by
      simp only [AstMem.sequence, hq.2.1]
    simp only [AstMem.rule, AstMem.substitution, this, hh]
  simp only [AstMem.grammar, this]

/-! ## Single steps: literals, `append`, assignments, cutting -/

section Slices
variable {α : Type} {m : Mem α} {s : SliceRef}

theorem literal_spec (m : Mem α) (l : List α) :
    (∀ a, a < m.next → a < (m.literal l).1.next) ∧ (∀ a, a < m.next → (m.literal l).1.arrays a = m.arrays a) ∧
    (m.literal l).1.Fits 0 (m.literal l).2 ∧ (m.literal l).1.read (m.literal l).2 = l ∧
    ∀ n ∈ own (m.literal l).2, ¬ n < m.next := by
  unfold Mem.literal
  split
  · next h =>
    refine ⟨fun _ h => h, fun _ _ => rfl, fits_empty _ _, by rw [h]; rfl, by simp [own, SliceRef.empty]⟩
  · next h =>
    have hl : l.length ≠ 0 := by simpa using h
    refine ⟨fun a ha => by simp only; omega, fun a ha => ?_, ⟨Nat.le_refl _, fun _ => ⟨Nat.zero_le _, by simp, by simp [Mem.write]⟩⟩, ?_, ?_⟩
    · simp only [Mem.write]; rw [if_neg (by omega)]
    · simp [Mem.read, Mem.write, hl]
    · intro n hn
      rw [mem_own] at hn
      simp only at hn
      omega

theorem store_spec (hf : m.Fits 0 s) (i : Nat) (x : α) (hi : i < (m.read s).length) :
    (m.store s i x).Fits 0 s ∧ (m.store s i x).read s = (m.read s).set i x ∧
    ∀ a, a ∉ own s → (m.store s i x).arrays a = m.arrays a := by
  refine ⟨⟨hf.len_le, fun hc => ?_⟩, store_self hi x, fun a ha => ?_⟩
  · obtain ⟨h1, h2, h3⟩ := hf.alloc hc
    exact ⟨h1, h2, by simp [Mem.store, Mem.write, h3]⟩
  · have hc := read_cap hi
    have : a ≠ s.arr := fun e => ha (mem_own.2 ⟨hc, e⟩)
    simp [Mem.store, Mem.write, this]

theorem app_spec {grow : Nat → Nat → Nat} (hg : Roomy grow) (zero : α) (hf : m.Fits 0 s) (x : α) :
    (∀ a, a < m.next → a < (m.append grow zero s x).1.next) ∧
    (m.append grow zero s x).1.Fits 0 (m.append grow zero s x).2 ∧
    (m.append grow zero s x).1.read (m.append grow zero s x).2 = m.read s ++ [x] ∧
    (∀ a, a < m.next → a ∉ own s → (m.append grow zero s x).1.arrays a = m.arrays a) ∧
    ∀ n ∈ own (m.append grow zero s x).2, n ∈ own s ∨ ¬ n < m.next := by
  have ha := append_spec hg zero hf (Nat.zero_le _) x
  refine ⟨fun a h => Nat.lt_of_lt_of_le h ha.next, ha.fits, ha.read, fun a h1 h2 => ha.others a h1 fun hc e => h2 (mem_own.2 ⟨hc, e⟩), ?_⟩
  intro n hn
  unfold Mem.append at hn
  split at hn
  · next h => left; rw [mem_own] at hn ⊢; exact ⟨by omega, hn.2⟩
  · next h => right; rw [mem_own] at hn; simp only at hn; omega

theorem trunc_spec (hf : m.Fits 0 s) {n : Nat} (hn : n < s.len) :
    m.Fits 0 { s with len := n } ∧ m.read { s with len := n } = (m.read s).take n ∧ own { s with len := n } = own s := by
  refine ⟨⟨by have := hf.len_le; simp only; omega, hf.alloc⟩, ?_, rfl⟩
  unfold Mem.read
  split
  · simp
  · rw [List.take_take, Nat.min_eq_left (by omega)]

end Slices

theorem SepList.imp {R V : Type} {P : Pred R V} {m m' : AstMem} {rs : List R} {F : Addr → Prop} {vs : List V}
    (h : SepList P m rs F vs) (hi : ∀ r F v, P m r F v → P m' r F v) : SepList P m' rs F vs := by
  induction h with
  | nil => exact .nil
  | cons h1 _ h3 ih => exact .cons (hi _ _ _ h1) ih h3

theorem seqAt_syms {m m' : AstMem} (h : m'.syms = m.syms) {q : SliceRef} {F : Addr → Prop} {v : Sequence} (hs : SeqAt m q F v) :
    SeqAt m' q F v := by
  unfold SeqAt at hs ⊢
  rw [h]; exact hs

theorem ruleAt_rules {m m' : AstMem} (h : m'.syms = m.syms) (h' : m'.seqs = m.seqs) {r : HRule} {F : Addr → Prop} {v : Rule}
    (hs : RuleAt m r F v) : RuleAt m' r F v := by
  obtain ⟨h0, h1, F1, h2, h3⟩ := hs
  exact ⟨h0, by rw [h']; exact h1, F1, by rw [h']; exact h2.imp fun _ _ _ => seqAt_syms h, h3⟩

/-- Writing a slice of sequences after a step that left these alone. -/
theorem AstMem.Step.withSeqs {m m1 : AstMem} {F1 F1' : Addr → Prop} (h : Step m m1 F1 F1') {s2 : Mem SliceRef}
    {t t' : SliceRef} (h1 : ∀ a, a < m.seqs.next → a < s2.next)
    (h2 : ∀ a, a < m.seqs.next → a ∉ own t → s2.arrays a = m.seqs.arrays a) (h3 : ∀ n ∈ own t', n ∈ own t ∨ ¬ n < m.seqs.next) :
    Step m { m1 with seqs := s2 } (fun a => (∃ n, a = .seq n ∧ n ∈ own t) ∨ F1 a) (fun a => (∃ n, a = .seq n ∧ n ∈ own t') ∨ F1' a) where
  alloc a ha := by
    cases a with
    | seq a => exact h1 a ha
    | sym a => exact h.alloc (.sym a) ha
    | rule a => exact h.alloc (.rule a) ha
  same a ha hf := by
    cases a with
    | seq a => exact h2 a ha fun hn => hf (.inl ⟨a, rfl, hn⟩)
    | sym a => exact h.same (.sym a) ha fun h => hf (.inr h)
    | rule a => exact h.same (.rule a) ha fun h => hf (.inr h)
  fresh a ha := by
    rcases ha with ⟨n, rfl, hn⟩ | ha
    · rcases h3 n hn with h4 | h4
      · exact .inl (.inl ⟨n, rfl, h4⟩)
      · exact .inr h4
    · rcases h.fresh a ha with h4 | h4
      · exact .inl (.inr h4)
      · exact .inr h4

/-- Writing a slice of rules after a step that left these alone. -/
theorem AstMem.Step.withRules {m m1 : AstMem} {F1 F1' : Addr → Prop} (h : Step m m1 F1 F1') {s2 : Mem HRule}
    {t t' : SliceRef} (h1 : ∀ a, a < m.rules.next → a < s2.next)
    (h2 : ∀ a, a < m.rules.next → a ∉ own t → s2.arrays a = m.rules.arrays a) (h3 : ∀ n ∈ own t', n ∈ own t ∨ ¬ n < m.rules.next) :
    Step m { m1 with rules := s2 } (fun a => (∃ n, a = .rule n ∧ n ∈ own t) ∨ F1 a) (fun a => (∃ n, a = .rule n ∧ n ∈ own t') ∨ F1' a) where
  alloc a ha := by
    cases a with
    | rule a => exact h1 a ha
    | sym a => exact h.alloc (.sym a) ha
    | seq a => exact h.alloc (.seq a) ha
  same a ha hf := by
    cases a with
    | rule a => exact h2 a ha fun hn => hf (.inl ⟨a, rfl, hn⟩)
    | sym a => exact h.same (.sym a) ha fun h => hf (.inr h)
    | seq a => exact h.same (.seq a) ha fun h => hf (.inr h)
  fresh a ha := by
    rcases ha with ⟨n, rfl, hn⟩ | ha
    · rcases h3 n hn with h4 | h4
      · exact .inl (.inl ⟨n, rfl, h4⟩)
      · exact .inr h4
    · rcases h.fresh a ha with h4 | h4
      · exact .inl (.inr h4)
      · exact .inr h4

/-- Writing a slice of symbols. -/
theorem AstMem.Step.syms {m : AstMem} {s2 : Mem Symbol} {t t' : SliceRef} (h1 : ∀ a, a < m.syms.next → a < s2.next)
    (h2 : ∀ a, a < m.syms.next → a ∉ own t → s2.arrays a = m.syms.arrays a) (h3 : ∀ n ∈ own t', n ∈ own t ∨ ¬ n < m.syms.next) :
    Step m { m with syms := s2 } (fun a => ∃ n, a = .sym n ∧ n ∈ own t) (fun a => ∃ n, a = .sym n ∧ n ∈ own t') where
  alloc a ha := by
    cases a with
    | sym a => exact h1 a ha
    | rule a => exact ha
    | seq a => exact ha
  same a ha hf := by
    cases a with
    | sym a => exact h2 a ha fun hn => hf ⟨a, rfl, hn⟩
    | rule a => rfl
    | seq a => rfl
  fresh a ha := by
    obtain ⟨n, rfl, hn⟩ := ha
    rcases h3 n hn with h4 | h4
    · exact .inl ⟨n, rfl, h4⟩
    · exact .inr h4

theorem own_empty : own SliceRef.empty = [] := rfl

/-! ## Literals -/

abbrev NoAddr : Addr → Prop := fun _ => False

theorem sequenceLit_spec (m : AstMem) (q : Sequence) : ∃ F, Step m (m.sequenceLit q).1 NoAddr F ∧
    SeqAt (m.sequenceLit q).1 (m.sequenceLit q).2 F q ∧ (m.sequenceLit q).1.seqs = m.seqs ∧ (m.sequenceLit q).1.rules = m.rules := by
  obtain ⟨h1, h2, h3, h4, h5⟩ := literal_spec m.syms q.symbols
  refine ⟨_, (Step.syms (t := .empty) (t' := (m.syms.literal q.symbols).2) h1 (fun a ha _ => h2 a ha) fun n hn => .inr (h5 n hn)).mono
    (by simp [own_empty]) (fun a h => .inl h), ⟨h3, h4, fun _ => .rfl⟩, rfl, rfl⟩

theorem AstMem.Step.lits {m m1 m2 : AstMem} {F F' : Addr → Prop} (h : Step m m1 NoAddr F) (hF : ∀ a, F a → m1.Alloc a)
    (h' : Step m1 m2 NoAddr F') : Step m m2 NoAddr (fun a => F a ∨ F' a) ∧ (∀ a, F a → m1.SameAt m2 a) ∧ ∀ a, F a → F' a → False := by
  refine ⟨h.trans (h'.mono (fun a h => h.elim) fun a h => h.elim .inr .inl), fun a ha => h'.same a (hF a ha) fun h => h, fun a ha hb => ?_⟩
  rcases h'.fresh a hb with h | h
  · exact h
  · exact h (hF a ha)

theorem sequencesLit_spec (m : AstMem) (qs : List Sequence) : ∃ F, Step m (m.sequencesLit qs).1 NoAddr F ∧
    SepList SeqAt (m.sequencesLit qs).1 (m.sequencesLit qs).2 F qs ∧ (m.sequencesLit qs).1.seqs = m.seqs ∧
    (m.sequencesLit qs).1.rules = m.rules := by
  induction qs generalizing m with
  | nil => exact ⟨_, .refl _ _, .nil, rfl, rfl⟩
  | cons q qs ih =>
    obtain ⟨F, h1, h2, h3, h4⟩ := sequenceLit_spec m q
    obtain ⟨F', k1, k2, k3, k4⟩ := ih (m.sequenceLit q).1
    obtain ⟨l1, l2, l3⟩ := Step.lits h1 (seqAt_framed.bound _ _ _ _ h2) k1
    exact ⟨_, l1, .cons (seqAt_framed.frame _ _ _ _ _ h2 k1.alloc l2) k2 l3, k3.trans h3, k4.trans h4⟩

theorem substitutionLit_spec (m : AstMem) (t : Substitution) : ∃ F, Step m (m.substitutionLit t).1 NoAddr F ∧
    SubAt (m.substitutionLit t).1 (m.substitutionLit t).2 F t ∧ (m.substitutionLit t).1.rules = m.rules := by
  obtain ⟨F, h1, h2, h3, h4⟩ := sequencesLit_spec m t.sequences
  obtain ⟨k1, k2, k3, k4, k5⟩ := literal_spec (m.sequencesLit t.sequences).1.seqs (m.sequencesLit t.sequences).2
  refine ⟨_, (h1.withSeqs (s2 := ((m.sequencesLit t.sequences).1.seqs.literal (m.sequencesLit t.sequences).2).1) (t := .empty)
    (t' := (m.substitutionLit t).2) (by rw [← h3]; exact k1) (fun a ha _ => by rw [← h3] at ha ⊢; exact k2 a ha)
    fun n hn => .inr (by rw [← h3]; exact k5 n hn)).mono (by simp [own_empty]) (fun a h => .inl h), ⟨k3, F, ?_, fun _ => .rfl⟩, h4⟩
  show SepList SeqAt _ (((m.sequencesLit t.sequences).1.seqs.literal (m.sequencesLit t.sequences).2).1.read _) F _
  rw [show ((m.sequencesLit t.sequences).1.seqs.literal (m.sequencesLit t.sequences).2).1.read (m.substitutionLit t).2 = _ from k4]
  exact h2.imp fun _ _ _ => seqAt_syms rfl

theorem ruleLit_spec (m : AstMem) (r : Rule) : ∃ F, Step m (m.ruleLit r).1 NoAddr F ∧
    RuleAt (m.ruleLit r).1 (m.ruleLit r).2 F r ∧ (m.ruleLit r).1.rules = m.rules := by
  obtain ⟨F, h1, h2, h3⟩ := substitutionLit_spec m r.tail
  exact ⟨F, h1, ⟨rfl, h2⟩, h3⟩

theorem rulesLit_spec (m : AstMem) (rs : List Rule) : ∃ F, Step m (m.rulesLit rs).1 NoAddr F ∧
    SepList RuleAt (m.rulesLit rs).1 (m.rulesLit rs).2 F rs ∧ (m.rulesLit rs).1.rules = m.rules := by
  induction rs generalizing m with
  | nil => exact ⟨_, .refl _ _, .nil, rfl⟩
  | cons r rs ih =>
    obtain ⟨F, h1, h2, h3⟩ := ruleLit_spec m r
    obtain ⟨F', k1, k2, k3⟩ := ih (m.ruleLit r).1
    obtain ⟨l1, l2, l3⟩ := Step.lits h1 (ruleAt_framed.bound _ _ _ _ h2) k1
    exact ⟨_, l1, .cons (ruleAt_framed.frame _ _ _ _ _ h2 k1.alloc l2) k2 l3, k3.trans h3⟩

theorem grammarLit_spec (m : AstMem) (g : Grammar) : ∃ F, Step m (m.grammarLit g).1 NoAddr F ∧
    GramAt (m.grammarLit g).1 (m.grammarLit g).2 F g := by
  obtain ⟨F, h1, h2, h3⟩ := rulesLit_spec m g.rules
  obtain ⟨k1, k2, k3, k4, k5⟩ := literal_spec (m.rulesLit g.rules).1.rules (m.rulesLit g.rules).2
  refine ⟨_, (h1.withRules (s2 := ((m.rulesLit g.rules).1.rules.literal (m.rulesLit g.rules).2).1) (t := .empty)
    (t' := (m.grammarLit g).2) (by rw [← h3]; exact k1) (fun a ha _ => by rw [← h3] at ha ⊢; exact k2 a ha)
    fun n hn => .inr (by rw [← h3]; exact k5 n hn)).mono (by simp [own_empty]) (fun a h => .inl h), ⟨k3, F, ?_, fun _ => .rfl⟩⟩
  show SepList RuleAt _ (((m.rulesLit g.rules).1.rules.literal (m.rulesLit g.rules).2).1.read _) F _
  rw [show ((m.rulesLit g.rules).1.rules.literal (m.rulesLit g.rules).2).1.read (m.grammarLit g).2 = _ from k4]
  exact h2.imp fun _ _ _ h => ruleAt_rules (m := (m.rulesLit g.rules).1) (m' := (m.grammarLit g).1) rfl rfl h

/-! ## Edits -/

theorem modify_of_get {α : Type} {l : List α} {i : Nat} {x : α} (f : α → α) (h : l[i]? = some x) : l.modify i f = l.set i (f x) := by
  refine List.ext_getElem? fun j => ?_
  rw [List.getElem?_modify, List.getElem?_set]
  have hlt := (List.getElem?_eq_some_iff.1 h).1
  by_cases hj : i = j
  · subst hj; rw [h]; simp [hlt]
  · simp [hj]

section
variable {grow : Nat → Nat → Nat} (hg : Roomy grow)
include hg

theorem SeqEdit.sound (e : SeqEdit) {m : AstMem} {q : SliceRef} {F : Addr → Prop} {v : Sequence} (h : SeqAt m q F v) :
    ∃ F', Step m (e.onMemory grow m q).1 F F' ∧ SeqAt (e.onMemory grow m q).1 (e.onMemory grow m q).2 F' (e.onValue v) ∧
      (e.onMemory grow m q).1.seqs = m.seqs ∧ (e.onMemory grow m q).1.rules = m.rules := by
  obtain ⟨h1, h2, h3⟩ := h
  cases e with
  | set l y =>
    unfold SeqEdit.onMemory SeqEdit.onValue
    have hlen := read_length h1
    by_cases hl : l < q.len
    · simp only [if_pos hl]
      obtain ⟨k1, k2, k3⟩ := store_spec h1 l y (by omega)
      exact ⟨_, (Step.syms (t := q) (t' := q) (s2 := m.syms.store q l y) (fun _ h => h) (fun a _ h => k3 a h) fun n hn => .inl hn).mono
        (fun a h => (h3 a).2 h) fun a h => .inl h, ⟨k1, by rw [k2, h2], fun _ => .rfl⟩, trivial, trivial⟩
    · simp only [if_neg hl]
      refine ⟨F, .refl _ _, ⟨h1, ?_, h3⟩, trivial, trivial⟩
      rw [List.set_eq_of_length_le (by rw [← h2]; omega), h2]
  | append y =>
    unfold SeqEdit.onMemory SeqEdit.onValue
    obtain ⟨k1, k2, k3, k4, k5⟩ := app_spec hg Symbol.nothing h1 y
    exact ⟨_, (Step.syms (t := q) (t' := (m.syms.append grow .nothing q y).2) k1 k4 k5).mono
        (fun a h => (h3 a).2 h) fun a h => .inl h, ⟨k2, by rw [k3, h2], fun _ => .rfl⟩, rfl, rfl⟩
  | truncate n =>
    unfold SeqEdit.onMemory SeqEdit.onValue
    have hlen := read_length h1
    by_cases hl : n < q.len
    · simp only [if_pos hl]
      obtain ⟨k1, k2, k3⟩ := trunc_spec h1 hl
      exact ⟨F, .refl _ _, ⟨k1, by rw [k2, h2], fun a => by rw [k3]; exact h3 a⟩, trivial, trivial⟩
    · simp only [if_neg hl]
      refine ⟨F, .refl _ _, ⟨h1, ?_, h3⟩, trivial, trivial⟩
      rw [List.take_of_length_le (by rw [← h2]; omega), h2]
  | whole q' =>
    obtain ⟨F', k1, k2, k3⟩ := sequenceLit_spec m q'
    exact ⟨F', k1.mono (fun a h => h.elim) fun a h => .inl h, k2, k3⟩

theorem SubEdit.sound (e : SubEdit) {m : AstMem} {t : SliceRef} {F : Addr → Prop} {v : Substitution} (h : SubAt m t F v) :
    ∃ F', Step m (e.onMemory grow m t).1 F F' ∧ SubAt (e.onMemory grow m t).1 (e.onMemory grow m t).2 F' (e.onValue v) ∧
      (e.onMemory grow m t).1.rules = m.rules := by
  have h0 := h
  obtain ⟨h1, F1, h2, h3⟩ := h
  have hlen := read_length h1
  cases e with
  | «at» j e =>
    cases hj : (m.seqs.read t)[j]? with
    | none =>
      have he : SubEdit.onMemory grow (.at j e) m t = (m, t) := by simp only [SubEdit.onMemory, hj]
      rw [he]
      unfold SubEdit.onValue
      refine ⟨F, .refl _ _, ?_, rfl⟩
      dsimp only
      have := h2.get_none hj
      rw [List.modify_eq_self (by simpa using this)]
      exact h0
    | some q =>
      obtain ⟨Fi, w, k1, k2, k3, k4⟩ := h2.get seqAt_framed hj
      obtain ⟨Fi', l1, l2, l3, l4⟩ := e.sound hg k2
      have he : SubEdit.onMemory grow (.at j e) m t =
          ({ (e.onMemory grow m q).1 with seqs := (e.onMemory grow m q).1.seqs.store t j (e.onMemory grow m q).2 }, t) := by
        simp only [SubEdit.onMemory, hj]
      rw [he]
      unfold SubEdit.onValue
      dsimp only
      generalize e.onMemory grow m q = r at l1 l2 l3 l4 ⊢
      obtain ⟨F1', n1, n2⟩ := k4 _ _ _ _ l1 l2
      have hlt := (List.getElem?_eq_some_iff.1 hj).1
      obtain ⟨s1, s2, s3⟩ := store_spec (m := r.1.seqs) (s := t) (by rw [l3]; exact h1) j r.2 (by rw [l3]; exact hlt)
      refine ⟨_, (n2.withSeqs (s2 := r.1.seqs.store t j r.2) (t := t) (t' := t) (fun a ha => by rw [← l3] at ha; exact ha)
        (fun a _ ha => by rw [s3 a ha, l3]) fun n hn => .inl hn).mono (fun a h => (h3 a).2 h) fun a h => .inl h,
        ⟨s1, F1', ?_, fun _ => .rfl⟩, l4⟩
      rw [s2, l3, modify_of_get _ k1]
      exact n1.imp fun _ _ _ => seqAt_syms rfl
  | append q =>
    unfold SubEdit.onMemory SubEdit.onValue
    obtain ⟨Fq, l1, l2, l3, l4⟩ := sequenceLit_spec m q
    dsimp only
    generalize m.sequenceLit q = r at l1 l2 l3 l4 ⊢
    obtain ⟨n1, n2⟩ := h2.frameStep seqAt_framed l1 fun _ _ h => h
    obtain ⟨F', n3, n4⟩ := n1.snoc l2 n2
    obtain ⟨k1, k2, k3, k4, k5⟩ := app_spec (m := r.1.seqs) (s := t) hg SliceRef.empty (by rw [l3]; exact h1) r.2
    have st : Step m r.1 F1 F' := l1.mono (fun _ h => h.elim) fun a h => by
      rcases (n4 a).1 h with h | h
      · exact .inr h
      · exact .inl h
    rw [l3] at k1 k4 k5
    refine ⟨_, (st.withSeqs (t := t) (by rw [l3]; exact k1) (by rw [l3]; exact k4) (by rw [l3]; exact k5)).mono (fun a h => (h3 a).2 h) fun a h => .inl h,
        ⟨k2, F', ?_, fun _ => .rfl⟩, l4⟩
    rw [k3, l3]
    exact n3.imp fun _ _ _ => seqAt_syms rfl
  | truncate n =>
    unfold SubEdit.onMemory SubEdit.onValue
    by_cases hl : n < t.len
    · simp only [if_pos hl]
      obtain ⟨k1, k2, k3⟩ := trunc_spec h1 hl
      obtain ⟨F', n1, n2⟩ := h2.take n
      refine ⟨_, (Step.refl m F).mono (fun _ h => h) fun a h => .inl ?_, ⟨k1, F', by rw [k2]; exact n1, fun _ => .rfl⟩, trivial⟩
      rw [k3] at h
      exact (h3 a).2 (h.elim .inl fun h => .inr (n2 a h))
    · simp only [if_neg hl]
      refine ⟨F, .refl _ _, ?_, trivial⟩
      rw [List.take_of_length_le (by rw [← h2.length]; omega)]
      exact h0
  | whole q' =>
    obtain ⟨F', k1, k2, k3⟩ := substitutionLit_spec m q'
    exact ⟨F', k1.mono (fun a h => h.elim) fun a h => .inl h, k2, k3⟩

theorem RuleEdit.sound (e : RuleEdit) {m : AstMem} {r : HRule} {F : Addr → Prop} {v : Rule} (h : RuleAt m r F v) :
    ∃ F', Step m (e.onMemory grow m r).1 F F' ∧ RuleAt (e.onMemory grow m r).1 (e.onMemory grow m r).2 F' (e.onValue v) ∧
      (e.onMemory grow m r).1.rules = m.rules := by
  cases e with
  | head name => exact ⟨F, .refl _ _, ⟨rfl, h.2⟩, rfl⟩
  | tail e =>
    obtain ⟨F', k1, k2, k3⟩ := e.sound hg h.2
    exact ⟨F', k1, ⟨h.1, k2⟩, k3⟩
  | whole q' =>
    obtain ⟨F', k1, k2, k3⟩ := ruleLit_spec m q'
    exact ⟨F', k1.mono (fun a h => h.elim) fun a h => .inl h, k2, k3⟩

theorem GrammarEdit.sound (e : GrammarEdit) {m : AstMem} {t : SliceRef} {F : Addr → Prop} {v : Grammar} (h : GramAt m t F v) :
    ∃ F', Step m (e.onMemory grow m t).1 F F' ∧ GramAt (e.onMemory grow m t).1 (e.onMemory grow m t).2 F' (e.onValue v) := by
  have h0 := h
  obtain ⟨h1, F1, h2, h3⟩ := h
  have hlen := read_length h1
  cases e with
  | «at» j e =>
    cases hj : (m.rules.read t)[j]? with
    | none =>
      have he : GrammarEdit.onMemory grow (.at j e) m t = (m, t) := by simp only [GrammarEdit.onMemory, hj]
      rw [he]
      unfold GrammarEdit.onValue
      refine ⟨F, .refl _ _, ?_⟩
      dsimp only
      have := h2.get_none hj
      rw [List.modify_eq_self (by simpa using this)]
      exact h0
    | some q =>
      obtain ⟨Fi, w, k1, k2, k3, k4⟩ := h2.get ruleAt_framed hj
      obtain ⟨Fi', l1, l2, l3⟩ := e.sound hg k2
      have he : GrammarEdit.onMemory grow (.at j e) m t =
          ({ (e.onMemory grow m q).1 with rules := (e.onMemory grow m q).1.rules.store t j (e.onMemory grow m q).2 }, t) := by
        simp only [GrammarEdit.onMemory, hj]
      rw [he]
      unfold GrammarEdit.onValue
      dsimp only
      generalize e.onMemory grow m q = r at l1 l2 l3 ⊢
      obtain ⟨F1', n1, n2⟩ := k4 _ _ _ _ l1 l2
      have hlt := (List.getElem?_eq_some_iff.1 hj).1
      obtain ⟨s1, s2, s3⟩ := store_spec (m := r.1.rules) (s := t) (by rw [l3]; exact h1) j r.2 (by rw [l3]; exact hlt)
      refine ⟨_, (n2.withRules (s2 := r.1.rules.store t j r.2) (t := t) (t' := t) (fun a ha => by rw [← l3] at ha; exact ha)
        (fun a _ ha => by rw [s3 a ha, l3]) fun n hn => .inl hn).mono (fun a h => (h3 a).2 h) fun a h => .inl h,
        ⟨s1, F1', ?_, fun _ => .rfl⟩⟩
      rw [s2, l3, modify_of_get _ k1]
      exact n1.imp fun _ _ _ h => ruleAt_rules (m := r.1) (by rfl) (by rfl) h
  | append q =>
    unfold GrammarEdit.onMemory GrammarEdit.onValue
    obtain ⟨Fq, l1, l2, l3⟩ := ruleLit_spec m q
    dsimp only
    generalize m.ruleLit q = r at l1 l2 l3 ⊢
    obtain ⟨n1, n2⟩ := h2.frameStep ruleAt_framed l1 fun _ _ h => h
    obtain ⟨F', n3, n4⟩ := n1.snoc l2 n2
    obtain ⟨k1, k2, k3, k4, k5⟩ := app_spec (m := r.1.rules) (s := t) hg ⟨[], SliceRef.empty⟩ (by rw [l3]; exact h1) r.2
    have st : Step m r.1 F1 F' := l1.mono (fun _ h => h.elim) fun a h => by
      rcases (n4 a).1 h with h | h
      · exact .inr h
      · exact .inl h
    rw [l3] at k1 k4 k5
    refine ⟨_, (st.withRules (t := t) (by rw [l3]; exact k1) (by rw [l3]; exact k4) (by rw [l3]; exact k5)).mono (fun a h => (h3 a).2 h) fun a h => .inl h,
        ⟨k2, F', ?_, fun _ => .rfl⟩⟩
    rw [k3, l3]
    exact n3.imp fun _ _ _ h => ruleAt_rules (m := r.1) (by rfl) (by rfl) h
  | truncate n =>
    unfold GrammarEdit.onMemory GrammarEdit.onValue
    by_cases hl : n < t.len
    · simp only [if_pos hl]
      obtain ⟨k1, k2, k3⟩ := trunc_spec h1 hl
      obtain ⟨F', n1, n2⟩ := h2.take n
      refine ⟨_, (Step.refl m F).mono (fun _ h => h) fun a h => .inl ?_, ⟨k1, F', by rw [k2]; exact n1, fun _ => .rfl⟩⟩
      rw [k3] at h
      exact (h3 a).2 (h.elim .inl fun h => .inr (n2 a h))
    · simp only [if_neg hl]
      refine ⟨F, .refl _ _, ?_⟩
      rw [List.take_of_length_le (by rw [← h2.length]; omega)]
      exact h0

end

end FC
end LL1
