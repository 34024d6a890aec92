import Verif.Proofs.JsonGrammar
import Verif.Proofs.ByteSet
import Verif.Spec.Json

/-!
# White space, strings and numbers of the JSON grammar
-/

namespace LL1
namespace JsonLex
open Golden

abbrev J (ys : List Symbol) (w : Str) : Prop := Gen jsonGrammar ys w
abbrev R (i : Nat) (w : Str) : Prop := GenRule jsonGrammar i w

/-- The alternatives of rule `i`. -/
def altsOf (i : Nat) : List Sequence :=
  match jsonGrammar.rules[i]? with
  | some r => r.tail.sequences
  | none => []

theorem alt_iff {i : Nat} {alt : Sequence} : jsonGrammar.Alt i alt ↔ alt ∈ altsOf i := by
  unfold Grammar.Alt altsOf
  cases jsonGrammar.rules[i]? with
  | none => simp
  | some r => simp

theorem j_nil {w : Str} (h : J [] w) : w = [] := by cases h; rfl
theorem j_term {t : Str} {rest : List Symbol} {w : Str} (h : J (.terminal t :: rest) w) :
    ∃ v, w = t ++ v ∧ J rest v := by cases h; exact ⟨_, rfl, by assumption⟩
theorem j_nothing {w : Str} (h : J [.nothing] w) : w = [] := by
  cases h with
  | nothing h => exact j_nil h
theorem j_word {t : Str} {w : Str} (h : J [.terminal t] w) : w = t := by
  obtain ⟨v, rfl, hv⟩ := j_term h
  rw [j_nil hv, List.append_nil]

/-- `name` is the head of rule `i`. -/
def isHead (i : Nat) (name : Str) : Bool :=
  match jsonGrammar.rules[i]? with
  | some r => decide (r.head = name)
  | none => false

theorem head_of {i : Nat} {name : Str} (h : isHead i name = true) : jsonGrammar.Head i name := by
  unfold isHead at h
  split at h
  · rename_i r hr; exact ⟨r, hr, of_decide_eq_true h⟩
  · cases h

theorem refers_of {i : Nat} {name : Str} (h : isHead i name = true) : jsonGrammar.Refers name i :=
  refers_of_distinct json_heads (head_of h)

theorem j_nt (i : Nat) {name : Str} (hi : isHead i name = true) {rest : List Symbol} {w : Str}
    (h : J (.nonTerminal name :: rest) w) : ∃ u v, w = u ++ v ∧ R i u ∧ J rest v := by
  cases h with
  | @nonTerminal _ j alt _ u v href halt hu hv =>
    have : j = i := json_heads j i _ href.1 (head_of hi)
    subst this
    exact ⟨u, v, rfl, ⟨alt, halt, hu⟩, hv⟩

theorem j_one (i : Nat) {name : Str} (hi : isHead i name = true) {w : Str}
    (h : J [.nonTerminal name] w) : R i w := by
  obtain ⟨u, v, rfl, h1, h2⟩ := j_nt i hi h
  rw [j_nil h2, List.append_nil]
  exact h1

theorem r_alt (i : Nat) {w : Str} (h : R i w) : ∃ alt ∈ altsOf i, J alt.symbols w := by
  obtain ⟨alt, ha, hw⟩ := h
  exact ⟨alt, alt_iff.1 ha, hw⟩

/-! ### building derivations -/

theorem mk_alt (i : Nat) (alt : Sequence) (ha : alt ∈ altsOf i) {w : Str} (h : J alt.symbols w) : R i w :=
  ⟨alt, alt_iff.2 ha, h⟩

theorem mk_nt (i : Nat) {name : Str} (hi : isHead i name = true) {rest : List Symbol} {u v : Str}
    (h : R i u) (hv : J rest v) : J (.nonTerminal name :: rest) (u ++ v) := by
  obtain ⟨alt, ha, hu⟩ := h
  exact .nonTerminal (refers_of hi) ha hu hv

theorem mk_one (i : Nat) {name : Str} (hi : isHead i name = true) {u : Str} (h : R i u) :
    J [.nonTerminal name] u := by
  have := mk_nt i hi h .nil
  rwa [List.append_nil] at this

theorem mk_term {t : Str} {rest : List Symbol} {w : Str} (h : J rest w) : J (.terminal t :: rest) (t ++ w) :=
  .terminal h

theorem mk_word {t : Str} : J [.terminal t] t := by
  have := mk_term (t := t) .nil
  rwa [List.append_nil] at this

theorem mk_nothing : J [.nothing] [] := .nothing .nil

/-! ## Bytes -/

/-- All alternatives are single bytes satisfying `p`. -/
def allBytes (p : UInt8 → Bool) (ss : List Sequence) : Bool :=
  ss.all fun s => match s.symbols with | [.terminal [c]] => p c | _ => false

theorem bytes_rule (i : Nat) (p : UInt8 → Bool) (hp : allBytes p (altsOf i) = true) {w : Str} (h : R i w) :
    ∃ c, w = [c] ∧ p c = true := by
  obtain ⟨alt, ha, hw⟩ := r_alt i h
  have := List.all_eq_true.1 hp alt ha
  split at this
  · rename_i c heq
    rw [heq] at hw
    exact ⟨c, j_word hw, this⟩
  · cases this

theorem mk_byte (i : Nat) {c : UInt8} (h : (⟨[.terminal [c]]⟩ : Sequence) ∈ altsOf i) : R i [c] :=
  mk_alt i _ h mk_word

/-- A digit other than `0`. -/
def OneNine (c : UInt8) : Prop := IsDigit c ∧ c ≠ 48
instance (c : UInt8) : Decidable (OneNine c) := inferInstanceAs (Decidable (_ ∧ _))

theorem oneNine {w : Str} : R 27 w ↔ ∃ c, w = [c] ∧ OneNine c := by
  constructor
  · intro h
    obtain ⟨c, rfl, hc⟩ := bytes_rule 27 (fun c => decide (OneNine c)) (by decide +kernel) h
    exact ⟨c, rfl, of_decide_eq_true hc⟩
  · rintro ⟨c, rfl, hc⟩
    exact mk_byte 27 (forall_byte (p := fun c => OneNine c → (⟨[.terminal [c]]⟩ : Sequence) ∈ altsOf 27)
      (by decide +kernel) c hc)

theorem digit {w : Str} : R 26 w ↔ ∃ c, w = [c] ∧ IsDigit c := by
  constructor
  · intro h
    obtain ⟨alt, ha, h⟩ := r_alt 26 h
    have ha : alt ∈ [⟨[.terminal b!"0"]⟩, (⟨[.nonTerminal b!"one-nine"]⟩ : Sequence)] := ha
    simp only [List.mem_cons, List.not_mem_nil, or_false] at ha
    rcases ha with rfl | rfl
    · exact ⟨48, j_word h, by decide⟩
    · obtain ⟨c, rfl, hc⟩ := oneNine.1 (j_one 27 (by decide +kernel) h)
      exact ⟨c, rfl, hc.1⟩
  · rintro ⟨c, rfl, hc⟩
    by_cases h0 : c = 48
    · subst h0; exact mk_byte 26 (by decide +kernel)
    · exact mk_alt 26 ⟨[.nonTerminal b!"one-nine"]⟩ (by decide +kernel)
        (mk_one 27 (by decide +kernel) (oneNine.2 ⟨c, rfl, hc, h0⟩))

theorem letter {w : Str} : R 28 w ↔ ∃ c, w = [c] ∧ IsLetter c := by
  constructor
  · intro h
    obtain ⟨c, rfl, hc⟩ := bytes_rule 28 (fun c => decide (IsLetter c)) (by decide +kernel) h
    exact ⟨c, rfl, of_decide_eq_true hc⟩
  · rintro ⟨c, rfl, hc⟩
    exact mk_byte 28 (forall_byte (p := fun c => IsLetter c → (⟨[.terminal [c]]⟩ : Sequence) ∈ altsOf 28)
      (by decide +kernel) c hc)

/-- Printable, but no quote, backslash, letter or digit. -/
def Sym (c : UInt8) : Prop := 32 ≤ c ∧ c ≤ 126 ∧ c ≠ 34 ∧ c ≠ 92 ∧ ¬ IsLetter c ∧ ¬ IsDigit c
instance (c : UInt8) : Decidable (Sym c) := inferInstanceAs (Decidable (_ ∧ _))

theorem symbol {w : Str} : R 29 w ↔ ∃ c, w = [c] ∧ Sym c := by
  constructor
  · intro h
    obtain ⟨c, rfl, hc⟩ := bytes_rule 29 (fun c => decide (Sym c)) (by decide +kernel) h
    exact ⟨c, rfl, of_decide_eq_true hc⟩
  · rintro ⟨c, rfl, hc⟩
    exact mk_byte 29 (forall_byte (p := fun c => Sym c → (⟨[.terminal [c]]⟩ : Sequence) ∈ altsOf 29)
      (by decide +kernel) c hc)

/-- `A`..`F`, `a`..`f`. -/
def HexLetter (c : UInt8) : Prop := (65 ≤ c ∧ c ≤ 70) ∨ (97 ≤ c ∧ c ≤ 102)
instance (c : UInt8) : Decidable (HexLetter c) := inferInstanceAs (Decidable (_ ∨ _))

theorem hex {w : Str} : R 16 w ↔ ∃ c, w = [c] ∧ IsHex c := by
  constructor
  · intro h
    obtain ⟨alt, ha, h⟩ := r_alt 16 h
    have hs : altsOf 16 = (⟨[.nonTerminal b!"digit"]⟩ : Sequence) :: (altsOf 16).tail := rfl
    rw [hs] at ha
    rcases List.mem_cons.1 ha with rfl | ha
    · obtain ⟨c, rfl, hc⟩ := digit.1 (j_one 26 (by decide +kernel) h)
      exact ⟨c, rfl, .inl hc⟩
    · have : allBytes (fun c => decide (HexLetter c)) (altsOf 16).tail = true := by decide +kernel
      have := List.all_eq_true.1 this alt ha
      split at this
      · rename_i c heq
        rw [heq] at h
        exact ⟨c, j_word h, .inr (of_decide_eq_true this)⟩
      · cases this
  · rintro ⟨c, rfl, hc⟩
    rcases hc with hc | hc
    · exact mk_alt 16 ⟨[.nonTerminal b!"digit"]⟩ (by decide +kernel)
        (mk_one 26 (by decide +kernel) (digit.2 ⟨c, rfl, hc⟩))
    · exact mk_byte 16 (forall_byte (p := fun c => HexLetter c → (⟨[.terminal [c]]⟩ : Sequence) ∈ altsOf 16)
        (by decide +kernel) c hc)

/-! ## White space -/

theorem eol {w : Str} : R 32 w ↔ w = [10] ∨ w = [13, 10] := by
  constructor
  · intro h
    obtain ⟨alt, ha, h⟩ := r_alt 32 h
    have ha : alt ∈ [⟨[.terminal b!"\n"]⟩, (⟨[.terminal b!"\r\n"]⟩ : Sequence)] := ha
    simp only [List.mem_cons, List.not_mem_nil, or_false] at ha
    rcases ha with rfl | rfl
    · exact .inl (j_word h)
    · exact .inr (j_word h)
  · rintro (rfl | rfl)
    · exact mk_byte 32 (by decide +kernel)
    · exact mk_alt 32 ⟨[.terminal b!"\r\n"]⟩ (by decide +kernel) mk_word

theorem space {w : Str} : R 31 w ↔ w = [32] ∨ w = [10] ∨ w = [13, 10] := by
  constructor
  · intro h
    obtain ⟨alt, ha, h⟩ := r_alt 31 h
    have ha : alt ∈ [⟨[.terminal b!" "]⟩, (⟨[.nonTerminal b!"EOL"]⟩ : Sequence)] := ha
    simp only [List.mem_cons, List.not_mem_nil, or_false] at ha
    rcases ha with rfl | rfl
    · exact .inl (j_word h)
    · exact .inr (eol.1 (j_one 32 (by decide +kernel) h))
  · intro h
    rcases h with rfl | h
    · exact mk_byte 31 (by decide +kernel)
    · exact mk_alt 31 ⟨[.nonTerminal b!"EOL"]⟩ (by decide +kernel) (mk_one 32 (by decide +kernel) (eol.2 h))

theorem ws_of (n : Nat) : ∀ w : Str, w.length ≤ n → R 30 w → Ws w := by
  induction n with
  | zero => intro w hw _; rw [List.eq_nil_of_length_eq_zero (Nat.le_zero.1 hw)]; exact .nil
  | succ n ih =>
    intro w hw h
    obtain ⟨alt, ha, h⟩ := r_alt 30 h
    have ha : alt ∈ [⟨[.nothing]⟩,
      (⟨[.nonTerminal b!"space-symobls", .nonTerminal b!"opt-whitespace"]⟩ : Sequence)] := ha
    simp only [List.mem_cons, List.not_mem_nil, or_false] at ha
    rcases ha with rfl | rfl
    · rw [j_nothing h]; exact .nil
    · obtain ⟨u, v, rfl, hu, hv⟩ := j_nt 31 (by decide +kernel) h
      have hv := j_one 30 (by decide +kernel) hv
      simp only [List.length_append] at hw
      rcases space.1 hu with rfl | rfl | rfl
      · exact .blank (ih v (by simp at hw; omega) hv)
      · exact .lf (ih v (by simp at hw; omega) hv)
      · exact .crlf (ih v (by simp at hw; omega) hv)

theorem ws {w : Str} : R 30 w ↔ Ws w := by
  constructor
  · exact ws_of w.length w (Nat.le_refl _)
  · intro h
    have step : ∀ u v, R 31 u → R 30 v → R 30 (u ++ v) := fun u v hu hv =>
      mk_alt 30 ⟨[.nonTerminal b!"space-symobls", .nonTerminal b!"opt-whitespace"]⟩ (by decide +kernel)
        (mk_nt 31 (by decide +kernel) hu (mk_one 30 (by decide +kernel) hv))
    induction h with
    | nil => exact mk_alt 30 ⟨[.nothing]⟩ (by decide +kernel) mk_nothing
    | blank _ ih => exact step [32] _ (space.2 (.inl rfl)) ih
    | lf _ ih => exact step [10] _ (space.2 (.inr (.inl rfl))) ih
    | crlf _ ih => exact step [13, 10] _ (space.2 (.inr (.inr rfl))) ih

/-! ## Numbers -/

theorem digits_of (n : Nat) : ∀ w : Str, w.length ≤ n → R 24 w → Digits w := by
  induction n with
  | zero => intro w hw _; rw [List.eq_nil_of_length_eq_zero (Nat.le_zero.1 hw)]; simp [Digits]
  | succ n ih =>
    intro w hw h
    obtain ⟨alt, ha, h⟩ := r_alt 24 h
    have ha : alt ∈ [⟨[.nothing]⟩,
      (⟨[.nonTerminal b!"digit", .nonTerminal b!"opt-digits"]⟩ : Sequence)] := ha
    simp only [List.mem_cons, List.not_mem_nil, or_false] at ha
    rcases ha with rfl | rfl
    · rw [j_nothing h]; simp [Digits]
    · obtain ⟨u, v, rfl, hu, hv⟩ := j_nt 26 (by decide +kernel) h
      have hv := j_one 24 (by decide +kernel) hv
      obtain ⟨c, rfl, hc⟩ := digit.1 hu
      have := ih v (by simp at hw; omega) hv
      intro d hd
      rcases List.mem_cons.1 hd with rfl | hd
      · exact hc
      · exact this d hd

theorem optDigits {w : Str} : R 24 w ↔ Digits w := by
  constructor
  · exact digits_of w.length w (Nat.le_refl _)
  · intro h
    induction w with
    | nil => exact mk_alt 24 ⟨[.nothing]⟩ (by decide +kernel) mk_nothing
    | cons c w ih =>
      have := ih fun d hd => h d (by simp [hd])
      exact mk_alt 24 ⟨[.nonTerminal b!"digit", .nonTerminal b!"opt-digits"]⟩ (by decide +kernel)
        (mk_nt (u := [c]) 26 (by decide +kernel) (digit.2 ⟨c, rfl, h c (by simp)⟩)
          (mk_one 24 (by decide +kernel) this))

theorem digits {w : Str} : R 23 w ↔ Digits w ∧ w ≠ [] := by
  constructor
  · intro h
    obtain ⟨alt, ha, h⟩ := r_alt 23 h
    have ha : alt ∈ [(⟨[.nonTerminal b!"digit", .nonTerminal b!"opt-digits"]⟩ : Sequence)] := ha
    simp only [List.mem_cons, List.not_mem_nil, or_false] at ha
    subst ha
    obtain ⟨u, v, rfl, hu, hv⟩ := j_nt 26 (by decide +kernel) h
    have hv := optDigits.1 (j_one 24 (by decide +kernel) hv)
    obtain ⟨c, rfl, hc⟩ := digit.1 hu
    refine ⟨?_, by simp⟩
    intro d hd
    rcases List.mem_cons.1 hd with rfl | hd
    · exact hc
    · exact hv d hd
  · rintro ⟨h, h0⟩
    cases w with
    | nil => exact (h0 rfl).elim
    | cons c w =>
      exact mk_alt 23 ⟨[.nonTerminal b!"digit", .nonTerminal b!"opt-digits"]⟩ (by decide +kernel)
        (mk_nt (u := [c]) 26 (by decide +kernel) (digit.2 ⟨c, rfl, h c (by simp)⟩)
          (mk_one 24 (by decide +kernel) (optDigits.2 fun d hd => h d (by simp [hd]))))

theorem optSign {w : Str} : R 25 w ↔ w = [] ∨ w = b!"+" ∨ w = b!"-" := by
  constructor
  · intro h
    obtain ⟨alt, ha, h⟩ := r_alt 25 h
    have ha : alt ∈ [⟨[.nothing]⟩, ⟨[.terminal b!"+"]⟩, (⟨[.terminal b!"-"]⟩ : Sequence)] := ha
    simp only [List.mem_cons, List.not_mem_nil, or_false] at ha
    rcases ha with rfl | rfl | rfl
    · exact .inl (j_nothing h)
    · exact .inr (.inl (j_word h))
    · exact .inr (.inr (j_word h))
  · rintro (rfl | rfl | rfl)
    · exact mk_alt 25 ⟨[.nothing]⟩ (by decide +kernel) mk_nothing
    · exact mk_byte 25 (by decide +kernel)
    · exact mk_byte 25 (by decide +kernel)

theorem optMinus {w : Str} : R 20 w ↔ w = [] ∨ w = b!"-" := by
  constructor
  · intro h
    obtain ⟨alt, ha, h⟩ := r_alt 20 h
    have ha : alt ∈ [⟨[.nothing]⟩, (⟨[.terminal b!"-"]⟩ : Sequence)] := ha
    simp only [List.mem_cons, List.not_mem_nil, or_false] at ha
    rcases ha with rfl | rfl
    · exact .inl (j_nothing h)
    · exact .inr (j_word h)
  · rintro (rfl | rfl)
    · exact mk_alt 20 ⟨[.nothing]⟩ (by decide +kernel) mk_nothing
    · exact mk_byte 20 (by decide +kernel)

theorem unsigned {w : Str} : R 19 w ↔ (w = b!"0" ∨ ∃ d ds, w = d :: ds ∧ IsDigit d ∧ d ≠ 48 ∧ Digits ds) := by
  constructor
  · intro h
    obtain ⟨alt, ha, h⟩ := r_alt 19 h
    have ha : alt ∈ [⟨[.terminal b!"0"]⟩,
      (⟨[.nonTerminal b!"one-nine", .nonTerminal b!"opt-digits"]⟩ : Sequence)] := ha
    simp only [List.mem_cons, List.not_mem_nil, or_false] at ha
    rcases ha with rfl | rfl
    · exact .inl (j_word h)
    · obtain ⟨u, v, rfl, hu, hv⟩ := j_nt 27 (by decide +kernel) h
      have hv := optDigits.1 (j_one 24 (by decide +kernel) hv)
      obtain ⟨c, rfl, hc⟩ := oneNine.1 hu
      exact .inr ⟨c, v, rfl, hc.1, hc.2, hv⟩
  · rintro (rfl | ⟨d, ds, rfl, h1, h2, h3⟩)
    · exact mk_byte 19 (by decide +kernel)
    · exact mk_alt 19 ⟨[.nonTerminal b!"one-nine", .nonTerminal b!"opt-digits"]⟩ (by decide +kernel)
        (mk_nt (u := [d]) 27 (by decide +kernel) (oneNine.2 ⟨d, rfl, h1, h2⟩)
          (mk_one 24 (by decide +kernel) (optDigits.2 h3)))

theorem integer {w : Str} : R 18 w ↔ ∃ s i, w = s ++ i ∧ R 20 s ∧ R 19 i := by
  constructor
  · intro h
    obtain ⟨alt, ha, h⟩ := r_alt 18 h
    have ha : alt ∈ [(⟨[.nonTerminal b!"opt-minus", .nonTerminal b!"unsigned-integer"]⟩ : Sequence)] := ha
    simp only [List.mem_cons, List.not_mem_nil, or_false] at ha
    subst ha
    obtain ⟨u, v, rfl, hu, hv⟩ := j_nt 20 (by decide +kernel) h
    exact ⟨u, v, rfl, hu, j_one 19 (by decide +kernel) hv⟩
  · rintro ⟨s, i, rfl, hs, hi⟩
    exact mk_alt 18 ⟨[.nonTerminal b!"opt-minus", .nonTerminal b!"unsigned-integer"]⟩ (by decide +kernel)
        (mk_nt 20 (by decide +kernel) hs (mk_one 19 (by decide +kernel) hi))

theorem fraction {w : Str} : R 21 w ↔ (w = [] ∨ ∃ ds, w = 46 :: ds ∧ Digits ds ∧ ds ≠ []) := by
  constructor
  · intro h
    obtain ⟨alt, ha, h⟩ := r_alt 21 h
    have ha : alt ∈ [⟨[.nothing]⟩, (⟨[.terminal b!".", .nonTerminal b!"digits"]⟩ : Sequence)] := ha
    simp only [List.mem_cons, List.not_mem_nil, or_false] at ha
    rcases ha with rfl | rfl
    · exact .inl (j_nothing h)
    · obtain ⟨v, rfl, hv⟩ := j_term h
      have := digits.1 (j_one 23 (by decide +kernel) hv)
      exact .inr ⟨v, rfl, this⟩
  · rintro (rfl | ⟨ds, rfl, h⟩)
    · exact mk_alt 21 ⟨[.nothing]⟩ (by decide +kernel) mk_nothing
    · exact mk_alt 21 ⟨[.terminal b!".", .nonTerminal b!"digits"]⟩ (by decide +kernel)
        (mk_term (t := [46]) (mk_one 23 (by decide +kernel) (digits.2 h)))

theorem exponent {w : Str} : R 22 w ↔ (w = [] ∨ ∃ e s ds, w = e :: (s ++ ds) ∧ (e = 69 ∨ e = 101) ∧
    (s = [] ∨ s = b!"+" ∨ s = b!"-") ∧ Digits ds ∧ ds ≠ []) := by
  constructor
  · intro h
    obtain ⟨alt, ha, h⟩ := r_alt 22 h
    have ha : alt ∈ [⟨[.nothing]⟩, ⟨[.terminal b!"E", .nonTerminal b!"opt-sign", .nonTerminal b!"digits"]⟩,
      (⟨[.terminal b!"e", .nonTerminal b!"opt-sign", .nonTerminal b!"digits"]⟩ : Sequence)] := ha
    simp only [List.mem_cons, List.not_mem_nil, or_false] at ha
    rcases ha with rfl | rfl | rfl
    · exact .inl (j_nothing h)
    · obtain ⟨v, rfl, hv⟩ := j_term h
      obtain ⟨s, d, rfl, hs, hd⟩ := j_nt 25 (by decide +kernel) hv
      exact .inr ⟨69, s, d, rfl, .inl rfl, optSign.1 hs, digits.1 (j_one 23 (by decide +kernel) hd)⟩
    · obtain ⟨v, rfl, hv⟩ := j_term h
      obtain ⟨s, d, rfl, hs, hd⟩ := j_nt 25 (by decide +kernel) hv
      exact .inr ⟨101, s, d, rfl, .inr rfl, optSign.1 hs, digits.1 (j_one 23 (by decide +kernel) hd)⟩
  · rintro (rfl | ⟨e, s, ds, rfl, he, hs, hd⟩)
    · exact mk_alt 22 ⟨[.nothing]⟩ (by decide +kernel) mk_nothing
    · have := mk_nt 25 (name := b!"opt-sign") (by decide +kernel) (optSign.2 hs)
        (mk_one 23 (name := b!"digits") (by decide +kernel) (digits.2 hd))
      rcases he with rfl | rfl
      · exact mk_alt 22 ⟨[.terminal b!"E", .nonTerminal b!"opt-sign", .nonTerminal b!"digits"]⟩
          (by decide +kernel) (mk_term (t := [69]) this)
      · exact mk_alt 22 ⟨[.terminal b!"e", .nonTerminal b!"opt-sign", .nonTerminal b!"digits"]⟩
          (by decide +kernel) (mk_term (t := [101]) this)

theorem number {w : Str} : R 17 w ↔ NumberText w := by
  constructor
  · intro h
    obtain ⟨alt, ha, h⟩ := r_alt 17 h
    have ha : alt ∈ [(⟨[.nonTerminal b!"integer", .nonTerminal b!"fraction", .nonTerminal b!"exponent"]⟩ : Sequence)] := ha
    simp only [List.mem_cons, List.not_mem_nil, or_false] at ha
    subst ha
    obtain ⟨u, v, rfl, hu, hv⟩ := j_nt 18 (by decide +kernel) h
    obtain ⟨f, e, rfl, hf, he⟩ := j_nt 21 (by decide +kernel) hv
    have he := j_one 22 (by decide +kernel) he
    obtain ⟨s, i, rfl, hs, hi⟩ := integer.1 hu
    exact ⟨s, i, f, e, by simp, optMinus.1 hs, unsigned.1 hi, fraction.1 hf, exponent.1 he⟩
  · rintro ⟨s, i, f, e, rfl, hs, hi, hf, he⟩
    have : R 17 ((s ++ i) ++ (f ++ e)) :=
      mk_alt 17 ⟨[.nonTerminal b!"integer", .nonTerminal b!"fraction", .nonTerminal b!"exponent"]⟩
        (by decide +kernel)
        (mk_nt 18 (by decide +kernel) (integer.2 ⟨s, i, rfl, optMinus.2 hs, unsigned.2 hi⟩)
          (mk_nt 21 (by decide +kernel) (fraction.2 hf) (mk_one 22 (by decide +kernel) (exponent.2 he))))
    simpa using this

/-! ## Strings -/

theorem escape {w : Str} : R 15 w ↔ (∃ c, w = [c] ∧ c ∈ b!"\"\\/bfnrt") ∨
    ∃ a b c, w = [117, a, b, c] ∧ IsHex a ∧ IsHex b ∧ IsHex c := by
  have hs : altsOf 15 = (altsOf 15).take 8 ++ [(⟨[.terminal b!"u", .nonTerminal b!"hex", .nonTerminal b!"hex",
    .nonTerminal b!"hex"]⟩ : Sequence)] := rfl
  constructor
  · intro h
    obtain ⟨alt, ha, h⟩ := r_alt 15 h
    rw [hs] at ha
    rcases List.mem_append.1 ha with ha | ha
    · have : allBytes (fun c => decide (c ∈ b!"\"\\/bfnrt")) ((altsOf 15).take 8) = true := by decide +kernel
      have := List.all_eq_true.1 this alt ha
      split at this
      · rename_i c heq
        rw [heq] at h
        exact .inl ⟨c, j_word h, of_decide_eq_true this⟩
      · cases this
    · rw [List.mem_singleton] at ha
      subst ha
      obtain ⟨v, rfl, hv⟩ := j_term h
      obtain ⟨x, v, rfl, hx, hv⟩ := j_nt 16 (by decide +kernel) hv
      obtain ⟨y, z, rfl, hy, hz⟩ := j_nt 16 (by decide +kernel) hv
      obtain ⟨a, rfl, ha⟩ := hex.1 hx
      obtain ⟨b, rfl, hb⟩ := hex.1 hy
      obtain ⟨c, rfl, hc⟩ := hex.1 (j_one 16 (by decide +kernel) hz)
      exact .inr ⟨a, b, c, rfl, ha, hb, hc⟩
  · rintro (⟨c, rfl, hc⟩ | ⟨a, b, c, rfl, ha, hb, hc⟩)
    · exact mk_byte 15 (forall_byte (p := fun c => c ∈ b!"\"\\/bfnrt" → (⟨[.terminal [c]]⟩ : Sequence) ∈ altsOf 15)
        (by decide +kernel) c hc)
    · exact mk_alt 15 ⟨[.terminal b!"u", .nonTerminal b!"hex", .nonTerminal b!"hex", .nonTerminal b!"hex"]⟩
        (by decide +kernel)
        (mk_term (t := [117]) (mk_nt (u := [a]) 16 (by decide +kernel) (hex.2 ⟨a, rfl, ha⟩)
          (mk_nt (u := [b]) 16 (by decide +kernel) (hex.2 ⟨b, rfl, hb⟩)
            (mk_one 16 (by decide +kernel) (hex.2 ⟨c, rfl, hc⟩)))))

/-- Printable, no quote, no backslash. -/
def Plain (c : UInt8) : Prop := 32 ≤ c ∧ c ≤ 126 ∧ c ≠ 34 ∧ c ≠ 92
instance (c : UInt8) : Decidable (Plain c) := inferInstanceAs (Decidable (_ ∧ _))

theorem escapeSequence {w : Str} : R 14 w ↔ ∃ v, w = 92 :: v ∧ R 15 v := by
  constructor
  · intro h
    obtain ⟨alt, ha, h⟩ := r_alt 14 h
    have ha : alt ∈ [(⟨[.terminal b!"\\", .nonTerminal b!"escape"]⟩ : Sequence)] := ha
    rw [List.mem_singleton] at ha
    subst ha
    obtain ⟨v, rfl, hv⟩ := j_term h
    exact ⟨v, rfl, j_one 15 (by decide +kernel) hv⟩
  · rintro ⟨v, rfl, h⟩
    exact mk_alt 14 ⟨[.terminal b!"\\", .nonTerminal b!"escape"]⟩ (by decide +kernel)
      (mk_term (t := [92]) (mk_one 15 (by decide +kernel) h))

theorem character {w : Str} : R 13 w ↔ (∃ c, w = [c] ∧ Plain c) ∨ ∃ v, w = 92 :: v ∧ R 15 v := by
  constructor
  · intro h
    obtain ⟨alt, ha, h⟩ := r_alt 13 h
    have ha : alt ∈ [⟨[.nonTerminal b!"digit"]⟩, ⟨[.nonTerminal b!"letter"]⟩,
      ⟨[.nonTerminal b!"escape-sequence"]⟩, (⟨[.nonTerminal b!"symbol"]⟩ : Sequence)] := ha
    simp only [List.mem_cons, List.not_mem_nil, or_false] at ha
    rcases ha with rfl | rfl | rfl | rfl
    · obtain ⟨c, rfl, hc⟩ := digit.1 (j_one 26 (by decide +kernel) h)
      exact .inl ⟨c, rfl, forall_byte (p := fun c => IsDigit c → Plain c) (by decide +kernel) c hc⟩
    · obtain ⟨c, rfl, hc⟩ := letter.1 (j_one 28 (by decide +kernel) h)
      exact .inl ⟨c, rfl, forall_byte (p := fun c => IsLetter c → Plain c) (by decide +kernel) c hc⟩
    · exact .inr (escapeSequence.1 (j_one 14 (by decide +kernel) h))
    · obtain ⟨c, rfl, hc⟩ := symbol.1 (j_one 29 (by decide +kernel) h)
      exact .inl ⟨c, rfl, hc.1, hc.2.1, hc.2.2.1, hc.2.2.2.1⟩
  · rintro (⟨c, rfl, hc⟩ | h)
    · by_cases hd : IsDigit c
      · exact mk_alt 13 ⟨[.nonTerminal b!"digit"]⟩ (by decide +kernel)
          (mk_one 26 (by decide +kernel) (digit.2 ⟨c, rfl, hd⟩))
      by_cases hl : IsLetter c
      · exact mk_alt 13 ⟨[.nonTerminal b!"letter"]⟩ (by decide +kernel)
          (mk_one 28 (by decide +kernel) (letter.2 ⟨c, rfl, hl⟩))
      · exact mk_alt 13 ⟨[.nonTerminal b!"symbol"]⟩ (by decide +kernel)
          (mk_one 29 (by decide +kernel) (symbol.2 ⟨c, rfl, hc.1, hc.2.1, hc.2.2.1, hc.2.2.2, hl, hd⟩))
    · exact mk_alt 13 ⟨[.nonTerminal b!"escape-sequence"]⟩ (by decide +kernel)
        (mk_one 14 (by decide +kernel) (escapeSequence.2 h))

theorem text_of (n : Nat) : ∀ w : Str, w.length ≤ n → R 12 w → StringBody w := by
  induction n with
  | zero => intro w hw _; rw [List.eq_nil_of_length_eq_zero (Nat.le_zero.1 hw)]; exact .nil
  | succ n ih =>
    intro w hw h
    obtain ⟨alt, ha, h⟩ := r_alt 12 h
    have ha : alt ∈ [⟨[.nothing]⟩,
      (⟨[.nonTerminal b!"character", .nonTerminal b!"text"]⟩ : Sequence)] := ha
    simp only [List.mem_cons, List.not_mem_nil, or_false] at ha
    rcases ha with rfl | rfl
    · rw [j_nothing h]; exact .nil
    · obtain ⟨u, v, rfl, hu, hv⟩ := j_nt 13 (by decide +kernel) h
      have hv := j_one 12 (by decide +kernel) hv
      simp only [List.length_append] at hw
      rcases character.1 hu with ⟨c, rfl, hc⟩ | ⟨x, rfl, hx⟩
      · exact .plain hc.1 hc.2.1 hc.2.2.1 hc.2.2.2 (ih v (by simp at hw; omega) hv)
      · rcases escape.1 hx with ⟨c, rfl, hc⟩ | ⟨a, b, c, rfl, ha, hb, hc⟩
        · exact .escape hc (ih v (by simp at hw; omega) hv)
        · exact .unicode ha hb hc (ih v (by simp at hw; omega) hv)

theorem text {w : Str} : R 12 w ↔ StringBody w := by
  constructor
  · exact text_of w.length w (Nat.le_refl _)
  · intro h
    have step : ∀ u v, R 13 u → R 12 v → R 12 (u ++ v) := fun u v hu hv =>
      mk_alt 12 ⟨[.nonTerminal b!"character", .nonTerminal b!"text"]⟩ (by decide +kernel)
        (mk_nt 13 (by decide +kernel) hu (mk_one 12 (by decide +kernel) hv))
    induction h with
    | nil => exact mk_alt 12 ⟨[.nothing]⟩ (by decide +kernel) mk_nothing
    | @plain c w h1 h2 h3 h4 _ ih => exact step [c] _ (character.2 (.inl ⟨_, rfl, h1, h2, h3, h4⟩)) ih
    | @escape c w hc _ ih =>
      exact step [92, c] _ (character.2 (.inr ⟨[c], rfl, escape.2 (.inl ⟨c, rfl, hc⟩)⟩)) ih
    | @unicode a b c w ha hb hc _ ih =>
      exact step [92, 117, a, b, c] _
        (character.2 (.inr ⟨[117, a, b, c], rfl, escape.2 (.inr ⟨a, b, c, rfl, ha, hb, hc⟩)⟩)) ih

theorem string {w : Str} : R 11 w ↔ ∃ s, w = 34 :: (s ++ [34]) ∧ StringBody s := by
  constructor
  · intro h
    obtain ⟨alt, ha, h⟩ := r_alt 11 h
    have ha : alt ∈ [(⟨[.terminal b!"\"", .nonTerminal b!"text", .terminal b!"\""]⟩ : Sequence)] := ha
    rw [List.mem_singleton] at ha
    subst ha
    obtain ⟨v, rfl, hv⟩ := j_term h
    obtain ⟨s, q, rfl, hs, hq⟩ := j_nt 12 (by decide +kernel) hv
    rw [j_word hq]
    exact ⟨s, rfl, text.1 hs⟩
  · rintro ⟨s, rfl, hs⟩
    exact mk_alt 11 ⟨[.terminal b!"\"", .nonTerminal b!"text", .terminal b!"\""]⟩ (by decide +kernel)
      (mk_term (t := [34]) (mk_nt 12 (by decide +kernel) (text.2 hs) mk_word))

end JsonLex
end LL1
