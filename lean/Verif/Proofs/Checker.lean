import Verif.Proofs.GrammarFacts

/-!
# A checked certificate for the textbook LL(1) condition

`ll1Check g c = true` (evaluated by the kernel) implies `IsLL1 g`: the certificate `c` holds upper
bounds for nullability, FIRST and FOLLOW of every rule.  Only used for concrete grammars.
Bit `b` of a mask stands for byte `b`; bit 0 of a FOLLOW mask for the end of input.
-/

namespace LL1

/-- Upper bounds: nullable rules (mask over rule numbers), FIRST and FOLLOW masks. -/
structure Cert where
  null : List Bool
  first : List Nat
  follow : List Nat

namespace Cert

def isNull (c : Cert) (i : Nat) : Bool := c.null.getD i true
def firstOf (c : Cert) (i : Nat) : Nat := c.first.getD i 0
def followOf (c : Cert) (i : Nat) : Nat := c.follow.getD i 0

end Cert

/-- The rule a name refers to. -/
def lookup (g : Grammar) (name : Str) : Option Nat := (TG.newGen g).ruleMap.get name

/-- Upper bound for nullability of a sequence. -/
def seqNull (g : Grammar) (c : Cert) : List Symbol → Bool
  | [] => true
  | .terminal t :: rest => t.isEmpty && seqNull g c rest
  | .nothing :: rest => seqNull g c rest
  | .nonTerminal n :: rest =>
    match lookup g n with
    | none => false
    | some i => c.isNull i && seqNull g c rest

/-- Upper bound for FIRST of a sequence. -/
def seqFirst (g : Grammar) (c : Cert) : List Symbol → Nat
  | [] => 0
  | .terminal [] :: rest => seqFirst g c rest
  | .terminal (b :: _) :: _ => 2 ^ b.toNat
  | .nothing :: rest => seqFirst g c rest
  | .nonTerminal n :: rest =>
    match lookup g n with
    | none => 0
    | some i => if c.isNull i then c.firstOf i ||| seqFirst g c rest else c.firstOf i

def sub (a b : Nat) : Bool := a &&& b == a
def disj (a b : Nat) : Bool := a &&& b == 0

/-- The FOLLOW part for one alternative of rule `j`. -/
def followOk (g : Grammar) (c : Cert) (j : Nat) : List Symbol → Bool
  | [] => true
  | .nonTerminal n :: rest =>
    (match lookup g n with
     | none => true
     | some i => sub (seqFirst g c rest) (c.followOf i) &&
        (!seqNull g c rest || sub (c.followOf j) (c.followOf i))) && followOk g c j rest
  | _ :: rest => followOk g c j rest

/-- No two alternatives share a byte. -/
def altsDisjoint (g : Grammar) (c : Cert) : List Sequence → Nat → Bool
  | [], _ => true
  | a :: as, seen => disj (seqFirst g c a.symbols) seen &&
      altsDisjoint g c as (seen ||| seqFirst g c a.symbols)

/-- At most one nullable alternative. -/
def altsOneNull (g : Grammar) (c : Cert) : List Sequence → Bool → Bool
  | [], _ => true
  | a :: as, seen => !(seen && seqNull g c a.symbols) && altsOneNull g c as (seen || seqNull g c a.symbols)

def ruleCheck (g : Grammar) (c : Cert) (i : Nat) (r : Rule) : Bool :=
  r.tail.sequences.all (fun a =>
    (!seqNull g c a.symbols || c.isNull i) && sub (seqFirst g c a.symbols) (c.firstOf i) &&
    followOk g c i a.symbols) &&
  altsDisjoint g c r.tail.sequences 0 &&
  altsOneNull g c r.tail.sequences false &&
  (!c.isNull i || disj (c.firstOf i) (c.followOf i))

def rulesCheck (g : Grammar) (c : Cert) : Nat → List Rule → Bool
  | _, [] => true
  | i, r :: rs => ruleCheck g c i r && rulesCheck g c (i + 1) rs

def ll1Check (g : Grammar) (c : Cert) : Bool :=
  (c.followOf 0).testBit 0 && rulesCheck g c 0 g.rules

/-! ## Computing a certificate -/

def Cert.step (g : Grammar) (c : Cert) : Cert where
  null := g.rules.map fun r => r.tail.sequences.any fun a => seqNull g c a.symbols
  first := g.rules.map fun r => r.tail.sequences.foldl (fun m a => m ||| seqFirst g c a.symbols) 0
  follow := c.follow

def followContrib (g : Grammar) (c : Cert) (i j : Nat) : List Symbol → Nat
  | [] => 0
  | .nonTerminal n :: rest =>
    (if lookup g n = some i then
      seqFirst g c rest ||| (if seqNull g c rest then c.followOf j else 0) else 0) |||
    followContrib g c i j rest
  | _ :: rest => followContrib g c i j rest

def Cert.stepF (g : Grammar) (c : Cert) : Cert where
  null := c.null
  first := c.first
  follow := (List.range g.rules.length).map fun i => (if i = 0 then 1 else 0) |||
    (g.rules.zipIdx.foldl (fun m (r, j) =>
      r.tail.sequences.foldl (fun m a => m ||| followContrib g c i j a.symbols) m) 0)

/-- Iterate the closure rules `n` times from nothing. -/
def Cert.compute (g : Grammar) (n : Nat) : Cert :=
  let z : Cert := ⟨g.rules.map fun _ => false, g.rules.map fun _ => 0, g.rules.map fun _ => 0⟩
  let c := n.repeat (Cert.step g) z
  n.repeat (Cert.stepF g) c

/-! ## Correctness of the check -/

theorem sub_testBit {a b : Nat} (h : sub a b = true) (k : Nat) (hk : a.testBit k = true) :
    b.testBit k = true := by
  unfold sub at h
  rw [beq_iff_eq] at h
  rw [← h, Nat.testBit_and, Bool.and_eq_true] at hk
  exact hk.2

theorem disj_testBit {a b : Nat} (h : disj a b = true) (k : Nat) (hk : a.testBit k = true) :
    b.testBit k = false := by
  unfold disj at h
  rw [beq_iff_eq] at h
  have := congrArg (fun n => n.testBit k) h
  simp only [Nat.testBit_and, hk, Bool.true_and, Nat.zero_testBit] at this
  exact this

theorem lookup_refers {g : Grammar} {n : Str} {i : Nat} : lookup g n = some i ↔ g.Refers n i :=
  TG.get_ruleMap g n i

theorem rulesCheck_get {g : Grammar} {c : Cert} : ∀ (rs : List Rule) (k i : Nat) (r : Rule),
    rulesCheck g c k rs = true → rs[i]? = some r → ruleCheck g c (k + i) r = true := by
  intro rs
  induction rs with
  | nil => intro k i r _ h; simp at h
  | cons r' rs ih =>
    intro k i r h hi
    simp only [rulesCheck, Bool.and_eq_true] at h
    cases i with
    | zero => simp at hi; subst hi; exact h.1
    | succ i =>
      have := ih (k + 1) i r h.2 (by simpa using hi)
      rwa [show k + 1 + i = k + (i + 1) by omega] at this

section
variable {g : Grammar} {c : Cert} (hc : ll1Check g c = true)
include hc

theorem ll1Check_rule {i : Nat} {r : Rule} (hr : g.rules[i]? = some r) : ruleCheck g c i r = true := by
  simp only [ll1Check, Bool.and_eq_true] at hc
  have := rulesCheck_get _ 0 i r hc.2 hr
  rwa [Nat.zero_add] at this

theorem ll1Check_alt {i : Nat} {a : Sequence} (ha : g.Alt i a) :
    (seqNull g c a.symbols = true → c.isNull i = true) ∧
    sub (seqFirst g c a.symbols) (c.firstOf i) = true ∧ followOk g c i a.symbols = true := by
  obtain ⟨r, hr, ha⟩ := ha
  have := ll1Check_rule hc hr
  simp only [ruleCheck, Bool.and_eq_true, List.all_eq_true, Bool.or_eq_true, Bool.not_eq_true'] at this
  obtain ⟨⟨h1, h2⟩, h3⟩ := this.1.1.1 a ha
  refine ⟨fun h => ?_, h2, h3⟩
  rcases h1 with h1 | h1
  · rw [h] at h1; simp at h1
  · exact h1

theorem seqNull_of {syms : List Symbol} (h : Nullable g syms) : seqNull g c syms = true := by
  induction h with
  | nil => rfl
  | nothing _ ih => simpa [seqNull] using ih
  | emptyTerminal _ ih => simpa [seqNull] using ih
  | nonTerminal hr ha _ _ ih1 ih2 =>
    simp only [seqNull, lookup_refers.2 hr, Bool.and_eq_true]
    exact ⟨(ll1Check_alt hc ha).1 ih1, ih2⟩

theorem seqFirst_of {syms : List Symbol} {b : UInt8} (h : First g syms b) :
    (seqFirst g c syms).testBit b.toNat = true := by
  induction h with
  | terminal => simp [seqFirst]
  | @head name i alt rest b hr ha _ ih =>
    have h1 := sub_testBit (ll1Check_alt hc ha).2.1 _ ih
    simp only [seqFirst, lookup_refers.2 hr]
    split
    · rw [Nat.testBit_or, h1]; rfl
    · exact h1
  | @skip x rest b hn _ ih =>
    cases hn with
    | nothing => simpa [seqFirst] using ih
    | emptyTerminal => simpa [seqFirst] using ih
    | nonTerminal hr ha h1 _ =>
      have h2 := (ll1Check_alt hc ha).1 (seqNull_of hc h1)
      simp only [seqFirst, lookup_refers.2 hr, h2, if_true, Nat.testBit_or, ih, Bool.or_true]

omit hc in
theorem followOk_at {j : Nat} : ∀ (syms pre post : List Symbol) (name : Str), followOk g c j syms = true →
    syms = pre ++ .nonTerminal name :: post → ∀ i, g.Refers name i →
    sub (seqFirst g c post) (c.followOf i) = true ∧
    (seqNull g c post = true → sub (c.followOf j) (c.followOf i) = true) := by
  intro syms
  induction syms with
  | nil => intro pre post name _ h; simp at h
  | cons x rest ih =>
    intro pre post name h hs i hr
    cases pre with
    | nil =>
      simp only [List.nil_append, List.cons.injEq] at hs
      obtain ⟨rfl, rfl⟩ := hs
      simp only [followOk, lookup_refers.2 hr, Bool.and_eq_true, Bool.or_eq_true, Bool.not_eq_true'] at h
      refine ⟨h.1.1, fun hn => ?_⟩
      rcases h.1.2 with h' | h'
      · rw [hn] at h'; simp at h'
      · exact h'
    | cons y pre =>
      simp only [List.cons_append, List.cons.injEq] at hs
      obtain ⟨rfl, rfl⟩ := hs
      refine ih pre post name ?_ rfl i hr
      cases x with
      | terminal t => exact h
      | nothing => exact h
      | nonTerminal n =>
        simp only [followOk, Bool.and_eq_true] at h
        exact h.2

theorem followOf_of {i : Nat} {b : UInt8} (h : Follow g i b) : (c.followOf i).testBit b.toNat = true := by
  induction h with
  | start =>
    simp only [ll1Check, Bool.and_eq_true] at hc
    exact hc.1
  | @first j i alt pre post name b ha hs hr hf =>
    exact sub_testBit (followOk_at _ _ _ _ (ll1Check_alt hc ha).2.2 hs i hr).1 _ (seqFirst_of hc hf)
  | @last j i alt pre post name b ha hs hr hn _ ih =>
    exact sub_testBit ((followOk_at _ _ _ _ (ll1Check_alt hc ha).2.2 hs i hr).2 (seqNull_of hc hn)) _ ih

theorem altsDisjoint_at : ∀ (as : List Sequence) (seen : Nat), altsDisjoint g c as seen = true →
    (∀ (k : Nat) (a : Sequence) (b : UInt8), as[k]? = some a → First g a.symbols b → seen.testBit b.toNat = false) ∧
    (∀ (k l : Nat) (a d : Sequence) (b : UInt8), as[k]? = some a → as[l]? = some d → First g a.symbols b → First g d.symbols b →
      k = l) := by
  intro as
  induction as with
  | nil => intro seen _; exact ⟨by simp, by simp⟩
  | cons a as ih =>
    intro seen h
    simp only [altsDisjoint, Bool.and_eq_true] at h
    obtain ⟨h1, h2⟩ := ih _ h.2
    have hh : ∀ b, First g a.symbols b → seen.testBit b.toNat = false :=
      fun b hb => disj_testBit h.1 _ (seqFirst_of hc hb)
    have hx : ∀ (k : Nat) (d : Sequence) (b : UInt8), as[k]? = some d → First g d.symbols b → First g a.symbols b → False := by
      intro k d b hk hd ha
      have := h1 k d b hk hd
      rw [Nat.testBit_or, seqFirst_of hc ha] at this
      simp at this
    refine ⟨?_, ?_⟩
    · intro k d b hk hf
      cases k with
      | zero => simp at hk; subst hk; exact hh b hf
      | succ k =>
        have := h1 k d b (by simpa using hk) hf
        rw [Nat.testBit_or, Bool.or_eq_false_iff] at this
        exact this.1
    · intro k l d e b hk hl hf hf'
      cases k with
      | zero =>
        simp at hk; subst hk
        cases l with
        | zero => rfl
        | succ l => exact (hx l e b (by simpa using hl) hf' hf).elim
      | succ k =>
        cases l with
        | zero => simp at hl; subst hl; exact (hx k d b (by simpa using hk) hf hf').elim
        | succ l => rw [h2 k l d e b (by simpa using hk) (by simpa using hl) hf hf']

theorem altsOneNull_at : ∀ (as : List Sequence) (seen : Bool), altsOneNull g c as seen = true →
    (∀ (k : Nat) (a : Sequence), as[k]? = some a → Nullable g a.symbols → seen = false) ∧
    (∀ (k l : Nat) (a d : Sequence), as[k]? = some a → as[l]? = some d → Nullable g a.symbols → Nullable g d.symbols →
      k = l) := by
  intro as
  induction as with
  | nil => intro seen _; exact ⟨by simp, by simp⟩
  | cons a as ih =>
    intro seen h
    simp only [altsOneNull, Bool.and_eq_true, Bool.not_eq_true', Bool.and_eq_false_iff] at h
    obtain ⟨h1, h2⟩ := ih _ h.2
    have hx : ∀ (k : Nat) (d : Sequence), as[k]? = some d → Nullable g d.symbols → Nullable g a.symbols → False := by
      intro k d hk hd ha
      have := h1 k d hk hd
      rw [seqNull_of hc ha] at this
      simp at this
    refine ⟨?_, ?_⟩
    · intro k d hk hf
      cases k with
      | zero =>
        simp at hk; subst hk
        rcases h.1 with h | h
        · exact h
        · rw [seqNull_of hc hf] at h; simp at h
      | succ k =>
        have := h1 k d (by simpa using hk) hf
        rw [Bool.or_eq_false_iff] at this
        exact this.1
    · intro k l d e hk hl hf hf'
      cases k with
      | zero =>
        simp at hk; subst hk
        cases l with
        | zero => rfl
        | succ l => exact (hx l e (by simpa using hl) hf' hf).elim
      | succ k =>
        cases l with
        | zero => simp at hl; subst hl; exact (hx k d (by simpa using hk) hf hf').elim
        | succ l => rw [h2 k l d e (by simpa using hk) (by simpa using hl) hf hf']

/-- A checked certificate proves the textbook LL(1) condition. -/
theorem isLL1_of_check : IsLL1 g := by
  refine ⟨?_, ?_, ?_⟩
  · intro i r k l a d b hr hk hl hf hf'
    have := ll1Check_rule hc hr
    simp only [ruleCheck, Bool.and_eq_true] at this
    exact (altsDisjoint_at hc _ _ this.1.1.2).2 k l a d b hk hl hf hf'
  · intro i r k l a d hr hk hl hf hf'
    have := ll1Check_rule hc hr
    simp only [ruleCheck, Bool.and_eq_true] at this
    exact (altsOneNull_at hc _ _ this.1.2).2 k l a d hk hl hf hf'
  · rintro i b ⟨a, ha, hn⟩ ⟨d, hd, hf⟩ hw
    obtain ⟨r, hr, ha'⟩ := id ha
    have := ll1Check_rule hc hr
    simp only [ruleCheck, Bool.and_eq_true, Bool.or_eq_true, Bool.not_eq_true'] at this
    rcases this.2 with h | h
    · rw [(ll1Check_alt hc ha).1 (seqNull_of hc hn)] at h; simp at h
    · have h1 := sub_testBit (ll1Check_alt hc hd).2.1 _ (seqFirst_of hc hf)
      have := followOf_of hc hw
      rw [disj_testBit h _ h1] at this
      simp at this

end

end LL1
