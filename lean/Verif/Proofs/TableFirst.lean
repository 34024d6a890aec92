import Verif.Spec.Acceptance
import Verif.Model.TableGen
import Verif.Proofs.ByteSet

/-! # FIRST sets computed by the table generator -/

namespace LL1
namespace TG

/-! ## `enumerate` -/

theorem get_enumerateFrom (ss : List Str) : ∀ (k : Nat) (m : GoMap Str Nat) (n : Str) (i : Nat),
    GoMap.get (enumerateFrom k ss m) n = some i ↔
      (∃ j, i = k + j ∧ ss[j]? = some n ∧ ∀ j', ss[j']? = some n → j' ≤ j) ∨
      (n ∉ ss ∧ GoMap.get m n = some i) := by
  induction ss with
  | nil => intro k m n i; simp [enumerateFrom]
  | cons s ss ih =>
    intro k m n i
    rw [enumerateFrom, ih]
    constructor
    · rintro (⟨j, hi, hj, hmax⟩ | ⟨hn, hg⟩)
      · left
        refine ⟨j + 1, by omega, by simpa using hj, ?_⟩
        intro j' hj'
        cases j' with
        | zero => omega
        | succ j' => have := hmax j' (by simpa using hj'); omega
      · rw [GoMap.get_set] at hg
        by_cases h : n = s
        · subst h
          simp only [if_true, Option.some.injEq] at hg
          left
          refine ⟨0, by omega, by simp, ?_⟩
          intro j' hj'
          cases j' with
          | zero => omega
          | succ j' =>
            exfalso; apply hn
            exact List.mem_of_getElem? (by simpa using hj')
        · rw [if_neg h] at hg
          right
          exact ⟨by simp [h, hn], hg⟩
    · rintro (⟨j, hi, hj, hmax⟩ | ⟨hn, hg⟩)
      · cases j with
        | succ j =>
          left
          refine ⟨j, by omega, by simpa using hj, ?_⟩
          intro j' hj'
          have := hmax (j' + 1) (by simpa using hj'); omega
        | zero =>
          right
          have hs : s = n := by simpa using hj
          subst hs
          refine ⟨?_, ?_⟩
          · intro hmem
            obtain ⟨j', hj'⟩ := List.getElem?_of_mem hmem
            have := hmax (j' + 1) (by simpa using hj'); omega
          · rw [GoMap.get_set]; simp [hi]
      · right
        simp only [List.mem_cons, not_or] at hn
        refine ⟨hn.2, ?_⟩
        rw [GoMap.get_set, if_neg hn.1]; exact hg

theorem head_iff (g : Grammar) (i : Nat) (name : Str) :
    (collectRuleHeads g)[i]? = some name ↔ g.Head i name := by
  simp [collectRuleHeads, Grammar.Head]

theorem get_ruleMap (g : Grammar) (name : Str) (i : Nat) :
    (newGen g).ruleMap.get name = some i ↔ g.Refers name i := by
  simp only [newGen, enumerate, get_enumerateFrom, GoMap.get_nil, reduceCtorEq, and_false, or_false,
    head_iff, Nat.zero_add, Grammar.Refers]
  constructor
  · rintro ⟨j, rfl, h⟩; exact h
  · intro h; exact ⟨i, rfl, h⟩

theorem refers_of_head {g : Grammar} {i : Nat} {name : Str} (h : g.Head i name) :
    ∃ j, g.Refers name j := by
  suffices H : ∀ n, ∀ i, g.rules.length - i ≤ n → g.Head i name → ∃ j, g.Refers name j from
    H _ i (Nat.le_refl _) h
  intro n
  induction n with
  | zero =>
    intro i hi ⟨r, hr, _⟩
    have := (List.getElem?_eq_some_iff.1 hr).1; omega
  | succ n ih =>
    intro i hi h
    by_cases hm : ∃ k, g.Head k name ∧ i < k
    · obtain ⟨k, hk, hik⟩ := hm
      have : i < g.rules.length := by
        obtain ⟨r, hr, _⟩ := h
        exact (List.getElem?_eq_some_iff.1 hr).1
      exact ih k (by omega) hk
    · refine ⟨i, h, ?_⟩
      intro k hk
      have : ¬ (g.Head k name ∧ i < k) := fun h' => hm ⟨k, h'⟩
      have : ¬ i < k := fun h' => this ⟨hk, h'⟩
      omega

theorem get_ruleMap_none (g : Grammar) (name : Str) :
    (newGen g).ruleMap.get name = none ↔ ∀ i, ¬ g.Head i name := by
  constructor
  · intro h i hi
    obtain ⟨j, hj⟩ := refers_of_head hi
    rw [← get_ruleMap] at hj
    simp [h] at hj
  · intro h
    cases hg : (newGen g).ruleMap.get name with
    | none => rfl
    | some i => exact absurd ((get_ruleMap g name i).1 hg).1 (h i)

theorem _root_.LL1.Grammar.Refers.lt {g : Grammar} {name : Str} {i : Nat} (h : g.Refers name i) : i < g.rules.length := by
  obtain ⟨⟨r, hr, _⟩, _⟩ := h
  exact (List.getElem?_eq_some_iff.1 hr).1

theorem _root_.LL1.Grammar.Alt.lt {g : Grammar} {i : Nat} {alt : Sequence} (h : g.Alt i alt) : i < g.rules.length := by
  obtain ⟨r, hr, _⟩ := h
  exact (List.getElem?_eq_some_iff.1 hr).1

theorem _root_.LL1.Grammar.Refers.det {g : Grammar} {name : Str} {i j : Nat} (h : g.Refers name i) (h' : g.Refers name j) :
    i = j := by
  have := h.2 j h'.1; have := h'.2 i h.1; omega

@[simp] theorem newGen_g (g : Grammar) : (newGen g).g = g := rfl
@[simp] theorem newGen_ruleCount (g : Grammar) : (newGen g).ruleCount = g.rules.length := by
  simp [newGen, collectRuleHeads]

/-! ## Membership in a slice of sets -/

/-- `sets[i]` exists and contains `b`. -/
def Has (sets : List ByteSet) (i : Nat) (b : UInt8) : Prop :=
  ∃ s, sets[i]? = some s ∧ s.contains b = true

theorem idx_ok {α : Type} {xs : List α} {i : Nat} {a : α} : idx xs i = .ok a ↔ xs[i]? = some a := by
  unfold idx; cases xs[i]? <;> simp

theorem idx_lt {α : Type} {xs : List α} {i : Nat} (h : i < xs.length) :
    ∃ a, idx xs i = .ok a ∧ xs[i]? = some a := by
  refine ⟨xs[i], ?_, List.getElem?_eq_getElem h⟩
  rw [idx_ok]; exact List.getElem?_eq_getElem h

theorem idx_ne_diverge {α : Type} (xs : List α) (i : Nat) : idx xs i ≠ .diverge := by
  unfold idx; cases xs[i]? <;> simp

theorem setIdx_ok {α : Type} {xs ys : List α} {i : Nat} {a : α} :
    setIdx xs i a = .ok ys ↔ i < xs.length ∧ ys = xs.set i a := by
  unfold setIdx; split
  · rename_i h; simp [h, eq_comm]
  · rename_i h; simp [h]

theorem setIdx_ne_diverge {α : Type} (xs : List α) (i : Nat) (a : α) : setIdx xs i a ≠ .diverge := by
  unfold setIdx; split <;> simp

/-! ## `sequenceFirsts`, relative to the sets computed so far -/

/-- The bytes the loop collects. -/
def FirstC (g : Grammar) (firsts : List ByteSet) : List Symbol → UInt8 → Prop
  | [], _ => False
  | .terminal t :: _, b => t.head? = some b
  | .nothing :: _, _ => False
  | .nonTerminal name :: rest, b =>
    ∃ i, g.Refers name i ∧ (Has firsts i b ∨ Has firsts i 0 ∧ FirstC g firsts rest b)

/-- The loop considers the sequence nullable. -/
def NullC (g : Grammar) (firsts : List ByteSet) : List Symbol → Prop
  | [] => True
  | .terminal t :: _ => t.head? = some 0
  | .nothing :: _ => True
  | .nonTerminal name :: rest => ∃ i, g.Refers name i ∧ Has firsts i 0 ∧ NullC g firsts rest

/-- What a successful run has seen: everything read before the first non-nullable symbol is
harmless. -/
def ReadOk (g : Grammar) (firsts : List ByteSet) : List Symbol → Prop
  | [] => True
  | .terminal t :: _ => t ≠ []
  | .nothing :: rest => rest = []
  | .nonTerminal name :: rest => ∃ i, g.Refers name i ∧ (Has firsts i 0 → ReadOk g firsts rest)

theorem seqLoop_ok {g : Grammar} {firsts : List ByteSet} {n : Nat} :
    ∀ (syms : List Symbol) (res S : ByteSet) (flag : Bool),
      sequenceFirstsLoop (newGen g) firsts n syms res flag = .ok S →
      (∀ b, b ≠ 0 → (S.contains b = true ↔ res.contains b = true ∨ FirstC g firsts syms b)) ∧
      (S.contains 0 = true ↔ res.contains 0 = true ∨ (syms = [] → flag = true) ∧ NullC g firsts syms) := by
  intro syms
  induction syms with
  | nil =>
    intro res S flag h
    simp only [sequenceFirstsLoop, Res.ok.injEq] at h
    subst h
    refine ⟨?_, ?_⟩
    · intro b hb
      cases flag <;> simp [ByteSet.contains_add, FirstC, EOS, hb]
    · cases flag <;> simp [ByteSet.contains_add, EOS, NullC]
  | cons x rest ih =>
    intro res S flag h
    cases x with
    | terminal t =>
      cases t with
      | nil => simp [sequenceFirstsLoop, terminalFirsts] at h
      | cons c t =>
        simp only [sequenceFirstsLoop, terminalFirsts, Res.ok_bind, Res.pure_eq, Res.ok.injEq] at h
        subst h
        refine ⟨?_, ?_⟩
        · intro b _
          simp only [ByteSet.contains_union, ByteSet.contains_new, FirstC, List.head?_cons,
            Option.some.injEq, Bool.or_eq_true, List.contains_iff_mem, List.mem_singleton]
          rw [@eq_comm _ b c]
        · simp only [ByteSet.contains_union, ByteSet.contains_new, NullC, List.head?_cons, Option.some.injEq,
            Bool.or_eq_true, List.contains_iff_mem, List.mem_singleton, reduceCtorEq, false_implies, true_and]
          rw [@eq_comm _ (0 : UInt8) c]
    | nothing =>
      simp only [sequenceFirstsLoop] at h
      split at h
      · simp at h
      · rename_i hn
        simp only [Res.ok.injEq] at h
        subst h
        refine ⟨?_, ?_⟩
        · intro b hb; simp [ByteSet.contains_add, FirstC, EOS, hb]
        · simp [ByteSet.contains_add, EOS, NullC]
    | nonTerminal name =>
      simp only [sequenceFirstsLoop] at h
      cases hg : (newGen g).ruleMap.get name with
      | none => simp [hg] at h
      | some i =>
        have href := (get_ruleMap g name i).1 hg
        simp only [hg] at h
        rw [Res.bind_eq_ok] at h
        obtain ⟨F, hF, h⟩ := h
        rw [idx_ok] at hF
        have hHas : ∀ b, Has firsts i b ↔ F.contains b = true := by
          intro b; simp [Has, hF]
        by_cases h0 : F.contains EOS = true
        · simp only [h0, Bool.not_true, Bool.false_eq_true, if_false] at h
          obtain ⟨ih1, ih2⟩ := ih (res.union (F.remove EOS)) S true h
          have hNone : Has firsts i 0 := (hHas 0).2 h0
          refine ⟨?_, ?_⟩
          · intro b hb
            rw [ih1 b hb]
            simp only [ByteSet.contains_union, ByteSet.contains_remove, FirstC, EOS]
            constructor
            · rintro (h1 | h1)
              · simp only [Bool.or_eq_true, Bool.and_eq_true] at h1
                rcases h1 with h1 | h1
                · exact .inl h1
                · exact .inr ⟨i, href, .inl ((hHas b).2 (by simpa [hb] using h1))⟩
              · exact .inr ⟨i, href, .inr ⟨hNone, h1⟩⟩
            · rintro (h1 | ⟨j, hj, h1⟩)
              · left; simp [h1]
              · have := Grammar.Refers.det href hj; subst this
                rcases h1 with h1 | ⟨_, h1⟩
                · left; simp [(hHas b).1 h1, hb]
                · exact .inr h1
          · rw [ih2]
            simp only [ByteSet.contains_union, ByteSet.contains_remove, EOS, NullC]
            constructor
            · rintro (h1 | ⟨_, h1⟩)
              · left; simpa using h1
              · right; exact ⟨by simp, i, href, hNone, h1⟩
            · rintro (h1 | ⟨_, j, hj, _, h1⟩)
              · left; simp [h1]
              · right; exact ⟨by simp, h1⟩
        · have h0' : F.contains EOS = false := by simpa using h0
          simp only [h0', Bool.not_false, if_true, Res.ok.injEq] at h
          subst h
          have hNone : ¬ Has firsts i 0 := fun hh => h0 ((hHas 0).1 hh)
          refine ⟨?_, ?_⟩
          · intro b hb
            simp only [ByteSet.contains_union, ByteSet.contains_remove, FirstC, EOS]
            constructor
            · intro h1
              simp only [Bool.or_eq_true] at h1
              rcases h1 with h1 | h1
              · exact .inl h1
              · exact .inr ⟨i, href, .inl ((hHas b).2 (by simpa [hb] using h1))⟩
            · rintro (h1 | ⟨j, hj, h1⟩)
              · simp [h1]
              · have := Grammar.Refers.det href hj; subst this
                rcases h1 with h1 | ⟨h1, _⟩
                · simp [(hHas b).1 h1, hb]
                · exact absurd h1 hNone
          · simp only [ByteSet.contains_union, ByteSet.contains_remove, EOS, NullC]
            constructor
            · intro h1; left; simpa using h1
            · rintro (h1 | ⟨_, j, hj, h1, _⟩)
              · simp [h1]
              · have := Grammar.Refers.det href hj; subst this; exact absurd h1 hNone

theorem seqLoop_readOk {g : Grammar} {firsts : List ByteSet} {n : Nat} :
    ∀ (syms : List Symbol) (res S : ByteSet) (flag : Bool), (n ≤ 1 → syms.length ≤ n) →
      sequenceFirstsLoop (newGen g) firsts n syms res flag = .ok S → ReadOk g firsts syms := by
  intro syms
  induction syms with
  | nil => intros; simp [ReadOk]
  | cons x rest ih =>
    intro res S flag hlen h
    cases x with
    | terminal t =>
      cases t with
      | nil => simp [sequenceFirstsLoop, terminalFirsts] at h
      | cons c t => simp [ReadOk]
    | nothing =>
      simp only [sequenceFirstsLoop] at h
      split at h
      · simp at h
      · have := hlen (by omega)
        simp only [List.length_cons] at this
        exact List.eq_nil_of_length_eq_zero (by omega)
    | nonTerminal name =>
      simp only [sequenceFirstsLoop] at h
      cases hg : (newGen g).ruleMap.get name with
      | none => simp [hg] at h
      | some i =>
        simp only [hg] at h
        rw [Res.bind_eq_ok] at h
        obtain ⟨F, hF, h⟩ := h
        rw [idx_ok] at hF
        refine ⟨i, (get_ruleMap g name i).1 hg, fun hh => ?_⟩
        have h0 : F.contains EOS = true := by
          obtain ⟨s, hs, hs'⟩ := hh
          rw [hF] at hs; cases hs; exact hs'
        simp only [h0, Bool.not_true, Bool.false_eq_true, if_false] at h
        exact ih _ _ _ (fun hn => by have := hlen hn; simp at this; omega) h

/-- Everything the loop reads is harmless; `n` is the length of the whole sequence. -/
def ReadFine (g : Grammar) (firsts : List ByteSet) (n : Nat) : List Symbol → Prop
  | [] => True
  | .terminal t :: _ => t ≠ []
  | .nothing :: _ => n ≤ 1
  | .nonTerminal name :: rest => ∃ i, g.Refers name i ∧ (Has firsts i 0 → ReadFine g firsts n rest)

/-- The loop succeeds as soon as everything it reads is harmless. -/
theorem seqLoop_total {g : Grammar} {firsts : List ByteSet} {n : Nat}
    (hlen : firsts.length = g.rules.length) :
    ∀ (syms : List Symbol) (res : ByteSet) (flag : Bool), ReadFine g firsts n syms →
      ∃ S, sequenceFirstsLoop (newGen g) firsts n syms res flag = .ok S := by
  intro syms
  induction syms with
  | nil => intros; exact ⟨_, rfl⟩
  | cons x rest ih =>
    intro res flag hr
    cases x with
    | terminal t =>
      cases t with
      | nil => simp [ReadFine] at hr
      | cons c t => exact ⟨_, rfl⟩
    | nothing =>
      have : n ≤ 1 := hr
      refine ⟨res.add EOS, ?_⟩
      simp only [sequenceFirstsLoop]
      rw [if_neg (by omega)]
    | nonTerminal name =>
      obtain ⟨i, href, hr⟩ := hr
      obtain ⟨F, hF, hF'⟩ := idx_lt (xs := firsts) (i := i) (by rw [hlen]; exact href.lt)
      simp only [sequenceFirstsLoop, (get_ruleMap g name i).2 href, hF, Res.ok_bind]
      by_cases h0 : F.contains EOS = true
      · simp only [h0, Bool.not_true, Bool.false_eq_true, if_false]
        exact ih _ _ (hr ⟨F, hF', h0⟩)
      · simp only [h0, Bool.not_false, if_true]
        exact ⟨_, rfl⟩

/-- And only then. -/
theorem seqLoop_fine {g : Grammar} {firsts : List ByteSet} {n : Nat} :
    ∀ (syms : List Symbol) (res S : ByteSet) (flag : Bool),
      sequenceFirstsLoop (newGen g) firsts n syms res flag = .ok S → ReadFine g firsts n syms := by
  intro syms
  induction syms with
  | nil => intros; trivial
  | cons x rest ih =>
    intro res S flag h
    cases x with
    | terminal t =>
      cases t with
      | nil => simp [sequenceFirstsLoop, terminalFirsts] at h
      | cons c t => simp [ReadFine]
    | nothing =>
      simp only [sequenceFirstsLoop] at h
      split at h
      · simp at h
      · simp only [ReadFine]; omega
    | nonTerminal name =>
      simp only [sequenceFirstsLoop] at h
      cases hg : (newGen g).ruleMap.get name with
      | none => simp [hg] at h
      | some i =>
        simp only [hg] at h
        rw [Res.bind_eq_ok] at h
        obtain ⟨F, hF, h⟩ := h
        rw [idx_ok] at hF
        refine ⟨i, (get_ruleMap g name i).1 hg, fun hh => ?_⟩
        have h0 : F.contains EOS = true := by
          obtain ⟨s, hs, hs'⟩ := hh
          rw [hF] at hs; cases hs; exact hs'
        simp only [h0, Bool.not_true, Bool.false_eq_true, if_false] at h
        exact ih _ _ _ h

theorem seqLoop_ne_diverge {tg : Gen} {firsts : List ByteSet} {n : Nat} :
    ∀ (syms : List Symbol) (res : ByteSet) (flag : Bool),
      sequenceFirstsLoop tg firsts n syms res flag ≠ .diverge := by
  intro syms
  induction syms with
  | nil => intros; simp [sequenceFirstsLoop]
  | cons x rest ih =>
    intro res flag
    cases x with
    | terminal t => cases t <;> simp [sequenceFirstsLoop, terminalFirsts]
    | nothing => simp only [sequenceFirstsLoop]; split <;> simp
    | nonTerminal name =>
      simp only [sequenceFirstsLoop]
      split
      · simp
      · rw [ne_eq, Res.bind_eq_diverge]
        rintro (h | ⟨a, _, h⟩)
        · exact idx_ne_diverge _ _ h
        · split at h
          · simp at h
          · exact ih _ _ h

/-- Outcome of a successful `sequenceFirsts`. -/
theorem sequenceFirsts_ok {g : Grammar} {firsts : List ByteSet} {alt : Sequence} {S : ByteSet}
    (h : sequenceFirsts (newGen g) firsts alt = .ok S) :
    (∀ b, b ≠ 0 → (S.contains b = true ↔ FirstC g firsts alt.symbols b)) ∧
    (S.contains 0 = true ↔ NullC g firsts alt.symbols) ∧
    ReadOk g firsts alt.symbols := by
  obtain ⟨h1, h2⟩ := seqLoop_ok alt.symbols _ S true h
  refine ⟨?_, ?_, seqLoop_readOk _ _ _ _ (fun _ => Nat.le_refl _) h⟩
  · intro b hb; rw [h1 b hb]; simp [ByteSet.contains_new]
  · rw [h2]; simp [ByteSet.contains_new]

end TG
end LL1
