import Verif.Proofs.SelfTable
import Verif.Proofs.GrammarFacts
import Verif.Spec.Bnf

/-!
# Every sentence of the BNF grammar is a layout of some grammar
-/

namespace LL1
namespace BnfSentence

abbrev G (ys : List Symbol) (w : Str) : Prop := Gen selfGrammar ys w

theorem heads_distinct : DistinctHeads selfGrammar := distinctHeads_of (by decide +kernel)

theorem g_nil {w : Str} (h : G [] w) : w = [] := by cases h; rfl
theorem g_term {t : Str} {rest : List Symbol} {w : Str} (h : G (.terminal t :: rest) w) :
    ∃ v, w = t ++ v ∧ G rest v := by cases h; exact ⟨_, rfl, by assumption⟩
theorem g_nothing {rest : List Symbol} {w : Str} (h : G (.nothing :: rest) w) : G rest w := by cases h; assumption
theorem g_nt (i : Nat) {r : Rule} (hr : selfGrammar.rules[i]? = some r) {rest : List Symbol} {w : Str}
    (h : G (.nonTerminal r.head :: rest) w) :
    ∃ u v, w = u ++ v ∧ (∃ alt ∈ r.tail.sequences, G alt.symbols u) ∧ G rest v := by
  cases h with
  | @nonTerminal _ j alt _ u v href halt hu hv =>
    have : j = i := heads_distinct j i _ href.1 ⟨r, hr, rfl⟩
    subst this
    obtain ⟨r', hr', ha⟩ := halt
    rw [hr] at hr'
    cases hr'
    exact ⟨u, v, rfl, ⟨alt, ha, hu⟩, hv⟩

/-- Split one symbol off. -/
theorem g_split {y : Symbol} {rest : List Symbol} {w : Str} (h : G (y :: rest) w) :
    ∃ u v, w = u ++ v ∧ G [y] u ∧ G rest v := by
  cases h with
  | @terminal t _ v hv => exact ⟨t, v, rfl, by simpa using Gen.terminal (t := t) (Gen.nil (g := selfGrammar)), hv⟩
  | nothing hv => exact ⟨[], w, rfl, .nothing .nil, hv⟩
  | @nonTerminal _ j alt _ u v href halt hu hv =>
    exact ⟨u, v, rfl, by simpa using Gen.nonTerminal href halt hu .nil, hv⟩

/-- A single non-terminal is one of its alternatives. -/
theorem g_one (i : Nat) {r : Rule} (hr : selfGrammar.rules[i]? = some r) {w : Str}
    (h : G [.nonTerminal r.head] w) : ∃ alt ∈ r.tail.sequences, G alt.symbols w := by
  obtain ⟨u, v, rfl, h1, h2⟩ := g_nt i hr h
  rw [g_nil h2, List.append_nil]
  exact h1

/-! ## Characters -/

/-- All alternatives are single bytes satisfying `p`. -/
def allBytes (p : UInt8 → Bool) (ss : List Sequence) : Bool :=
  ss.all fun s => match s.symbols with | [.terminal [c]] => p c | _ => false

theorem bytes_of {p : UInt8 → Bool} {ss : List Sequence} (h : allBytes p ss = true) {alt : Sequence}
    (ha : alt ∈ ss) {w : Str} (hw : G alt.symbols w) : ∃ c, w = [c] ∧ p c = true := by
  have := List.all_eq_true.1 h alt ha
  split at this
  · rename_i c heq
    rw [heq] at hw
    obtain ⟨v, rfl, hv⟩ := g_term hw
    rw [g_nil hv]
    exact ⟨c, rfl, this⟩
  · cases this

theorem bytes_rule (i : Nat) (p : UInt8 → Bool) {r : Rule} (hr : selfGrammar.rules[i]? = some r)
    (hp : allBytes p r.tail.sequences = true) {w : Str} (h : G [.nonTerminal r.head] w) :
    ∃ c, w = [c] ∧ p c = true := by
  obtain ⟨alt, ha, hw⟩ := g_one i hr h
  exact bytes_of hp ha hw

theorem letter {w : Str} (h : G [.nonTerminal b!"letter"] w) : ∃ c, w = [c] ∧ IsLetter c := by
  obtain ⟨c, rfl, hc⟩ := bytes_rule 21 (fun c => decide (IsLetter c)) (r := selfGrammar.rules[21]'(by decide)) rfl
    (by decide +kernel) h
  exact ⟨c, rfl, of_decide_eq_true hc⟩

theorem digit {w : Str} (h : G [.nonTerminal b!"digit"] w) : ∃ c, w = [c] ∧ IsDigit c := by
  obtain ⟨c, rfl, hc⟩ := bytes_rule 22 (fun c => decide (IsDigit c)) (r := selfGrammar.rules[22]'(by decide)) rfl
    (by decide +kernel) h
  exact ⟨c, rfl, of_decide_eq_true hc⟩

theorem symbolChar {w : Str} (h : G [.nonTerminal b!"symbol"] w) : ∃ c, w = [c] ∧ IsPlain c := by
  obtain ⟨c, rfl, hc⟩ := bytes_rule 23 (fun c => decide (IsPlain c)) (r := selfGrammar.rules[23]'(by decide)) rfl
    (by decide +kernel) h
  exact ⟨c, rfl, of_decide_eq_true hc⟩

theorem escapedChar {w : Str} (h : G [.nonTerminal b!"escaped-char"] w) :
    ∃ e d, w = [e] ∧ escaped e = some d := by
  obtain ⟨c, rfl, hc⟩ := bytes_rule 17 (fun c => (escaped c).isSome) (r := selfGrammar.rules[17]'(by decide)) rfl
    (by decide +kernel) h
  rw [Option.isSome_iff_exists] at hc
  obtain ⟨d, hd⟩ := hc
  exact ⟨c, d, rfl, hd⟩

theorem isPlain_of_letter {c : UInt8} (h : IsLetter c) : IsPlain c :=
  forall_byte (p := fun c => IsLetter c → IsPlain c) (by decide +kernel) c h
theorem isPlain_of_digit {c : UInt8} (h : IsDigit c) : IsPlain c :=
  forall_byte (p := fun c => IsDigit c → IsPlain c) (by decide +kernel) c h

/-! ## Blanks -/

theorem blanks_add (k : Nat) : 32 :: blanks k = blanks (k + 1) := by
  simp [blanks, List.replicate_succ]

theorem optBlanks (n : Nat) : ∀ w : Str, w.length ≤ n → G [.nonTerminal b!"opt-whitespace"] w →
    ∃ k, w = blanks k := by
  induction n with
  | zero =>
    intro w hw _
    exact ⟨0, List.eq_nil_of_length_eq_zero (by omega)⟩
  | succ n ih =>
    intro w hw h
    obtain ⟨alt, ha, h⟩ := g_one 24 (r := selfGrammar.rules[24]'(by decide)) rfl h
    have ha : alt ∈ [⟨[.terminal b!" ", .nonTerminal b!"opt-whitespace"]⟩, (⟨[.nothing]⟩ : Sequence)] := ha
    simp only [List.mem_cons, List.not_mem_nil, or_false] at ha
    rcases ha with rfl | rfl
    · obtain ⟨v, rfl, hv⟩ := g_term h
      obtain ⟨k, rfl⟩ := ih v (by simp at hw; omega) hv
      exact ⟨k + 1, blanks_add k⟩
    · exact ⟨0, g_nil (g_nothing h)⟩

theorem optBlank {w : Str} (h : G [.nonTerminal b!"opt-whitespace"] w) : ∃ k, w = blanks k :=
  optBlanks w.length w (Nat.le_refl _) h

/-! ## Names -/

theorem ruleChar {w : Str} (h : G [.nonTerminal b!"rule-char"] w) :
    ∃ c, w = [c] ∧ (IsLetter c ∨ IsDigit c ∨ c = 45) := by
  obtain ⟨alt, ha, h⟩ := g_one 20 (r := selfGrammar.rules[20]'(by decide)) rfl h
  have ha : alt ∈ [⟨[.nonTerminal b!"letter"]⟩, ⟨[.nonTerminal b!"digit"]⟩, (⟨[.terminal b!"-"]⟩ : Sequence)] := ha
  simp only [List.mem_cons, List.not_mem_nil, or_false] at ha
  rcases ha with rfl | rfl | rfl
  · obtain ⟨c, rfl, hc⟩ := letter h; exact ⟨c, rfl, .inl hc⟩
  · obtain ⟨c, rfl, hc⟩ := digit h; exact ⟨c, rfl, .inr (.inl hc)⟩
  · obtain ⟨v, rfl, hv⟩ := g_term h
    rw [g_nil hv]
    exact ⟨45, rfl, .inr (.inr rfl)⟩

theorem nameTail (n : Nat) : ∀ w : Str, w.length ≤ n → G [.nonTerminal b!"rule-name-tail"] w →
    ∀ d ∈ w, IsLetter d ∨ IsDigit d ∨ d = 45 := by
  induction n with
  | zero =>
    intro w hw _
    rw [List.eq_nil_of_length_eq_zero (Nat.le_zero.1 hw)]
    simp
  | succ n ih =>
    intro w hw h
    obtain ⟨alt, ha, h⟩ := g_one 19 (r := selfGrammar.rules[19]'(by decide)) rfl h
    have ha : alt ∈ [⟨[.nothing]⟩,
      (⟨[.nonTerminal b!"rule-char", .nonTerminal b!"rule-name-tail"]⟩ : Sequence)] := ha
    simp only [List.mem_cons, List.not_mem_nil, or_false] at ha
    rcases ha with rfl | rfl
    · rw [g_nil (g_nothing h)]; simp
    · obtain ⟨u, v, rfl, hu, hv⟩ := g_split h
      obtain ⟨c, rfl, hc⟩ := ruleChar hu
      intro d hd
      simp only [List.cons_append, List.nil_append, List.mem_cons] at hd
      rcases hd with rfl | hd
      · exact hc
      · exact ih v (by simp at hw; omega) hv d hd

theorem name {w : Str} (h : G [.nonTerminal b!"rule-name"] w) : LegalName w := by
  obtain ⟨alt, ha, h⟩ := g_one 18 (r := selfGrammar.rules[18]'(by decide)) rfl h
  have ha : alt ∈ [(⟨[.nonTerminal b!"letter", .nonTerminal b!"rule-name-tail"]⟩ : Sequence)] := ha
  rw [List.mem_singleton] at ha
  subst ha
  obtain ⟨u, v, rfl, hu, hv⟩ := g_split h
  obtain ⟨c, rfl, hc⟩ := letter hu
  exact ⟨c, v, rfl, hc, nameTail v.length v (Nat.le_refl _) hv⟩

/-! ## Literals -/

theorem character {q : UInt8} {w : Str} (h : G [.nonTerminal b!"character"] w) : ∃ c, CharText q c w := by
  obtain ⟨alt, ha, h⟩ := g_one 15 (r := selfGrammar.rules[15]'(by decide)) rfl h
  have ha : alt ∈ [⟨[.nonTerminal b!"letter"]⟩, ⟨[.nonTerminal b!"digit"]⟩, ⟨[.nonTerminal b!"symbol"]⟩,
    (⟨[.nonTerminal b!"escape-sequence"]⟩ : Sequence)] := ha
  simp only [List.mem_cons, List.not_mem_nil, or_false] at ha
  rcases ha with rfl | rfl | rfl | rfl
  · obtain ⟨c, rfl, hc⟩ := letter h; exact ⟨c, .plain (isPlain_of_letter hc)⟩
  · obtain ⟨c, rfl, hc⟩ := digit h; exact ⟨c, .plain (isPlain_of_digit hc)⟩
  · obtain ⟨c, rfl, hc⟩ := symbolChar h; exact ⟨c, .plain hc⟩
  · obtain ⟨alt, ha, h⟩ := g_one 16 (r := selfGrammar.rules[16]'(by decide)) rfl h
    have ha : alt ∈ [(⟨[.terminal b!"\\", .nonTerminal b!"escaped-char"]⟩ : Sequence)] := ha
    rw [List.mem_singleton] at ha
    subst ha
    obtain ⟨v, rfl, hv⟩ := g_term h
    obtain ⟨e, d, rfl, he⟩ := escapedChar hv
    unfold escaped at he
    split at he
    · exact ⟨_, .tab⟩
    · exact ⟨_, .lf⟩
    · exact ⟨_, .cr⟩
    · exact ⟨_, .quote⟩
    · exact ⟨_, .backslash⟩
    · cases he

theorem charText_ne_nil {q c : UInt8} {x : Str} (h : CharText q c x) : x ≠ [] := by
  cases h <;> simp

theorem character1 {w : Str} (h : G [.nonTerminal b!"character1"] w) : ∃ c, CharText 34 c w := by
  obtain ⟨alt, ha, h⟩ := g_one 13 (r := selfGrammar.rules[13]'(by decide)) rfl h
  have ha : alt ∈ [⟨[.terminal b!"'"]⟩, (⟨[.nonTerminal b!"character"]⟩ : Sequence)] := ha
  simp only [List.mem_cons, List.not_mem_nil, or_false] at ha
  rcases ha with rfl | rfl
  · obtain ⟨v, rfl, hv⟩ := g_term h
    rw [g_nil hv]
    exact ⟨39, .otherQuote (.inr rfl) (by decide)⟩
  · exact character h

theorem character2 {w : Str} (h : G [.nonTerminal b!"character2"] w) : ∃ c, CharText 39 c w := by
  obtain ⟨alt, ha, h⟩ := g_one 14 (r := selfGrammar.rules[14]'(by decide)) rfl h
  have ha : alt ∈ [⟨[.terminal b!"\""]⟩, (⟨[.nonTerminal b!"character"]⟩ : Sequence)] := ha
  simp only [List.mem_cons, List.not_mem_nil, or_false] at ha
  rcases ha with rfl | rfl
  · obtain ⟨v, rfl, hv⟩ := g_term h
    rw [g_nil hv]
    exact ⟨34, .otherQuote (.inl rfl) (by decide)⟩
  · exact character h

theorem text1 (n : Nat) : ∀ w : Str, w.length ≤ n → G [.nonTerminal b!"text1"] w → ∃ s, CharsText 34 s w := by
  induction n with
  | zero =>
    intro w hw _
    rw [List.eq_nil_of_length_eq_zero (Nat.le_zero.1 hw)]
    exact ⟨[], .nil⟩
  | succ n ih =>
    intro w hw h
    obtain ⟨alt, ha, h⟩ := g_one 11 (r := selfGrammar.rules[11]'(by decide)) rfl h
    have ha : alt ∈ [⟨[.nothing]⟩, (⟨[.nonTerminal b!"character1", .nonTerminal b!"text1"]⟩ : Sequence)] := ha
    simp only [List.mem_cons, List.not_mem_nil, or_false] at ha
    rcases ha with rfl | rfl
    · rw [g_nil (g_nothing h)]; exact ⟨[], .nil⟩
    · obtain ⟨u, v, rfl, hu, hv⟩ := g_split h
      obtain ⟨c, hc⟩ := character1 hu
      have := List.length_pos_iff.2 (charText_ne_nil hc)
      obtain ⟨s, hs⟩ := ih v (by simp at hw; omega) hv
      exact ⟨c :: s, .cons hc hs⟩

theorem text2 (n : Nat) : ∀ w : Str, w.length ≤ n → G [.nonTerminal b!"text2"] w → ∃ s, CharsText 39 s w := by
  induction n with
  | zero =>
    intro w hw _
    rw [List.eq_nil_of_length_eq_zero (Nat.le_zero.1 hw)]
    exact ⟨[], .nil⟩
  | succ n ih =>
    intro w hw h
    obtain ⟨alt, ha, h⟩ := g_one 12 (r := selfGrammar.rules[12]'(by decide)) rfl h
    have ha : alt ∈ [⟨[.nothing]⟩, (⟨[.nonTerminal b!"character2", .nonTerminal b!"text2"]⟩ : Sequence)] := ha
    simp only [List.mem_cons, List.not_mem_nil, or_false] at ha
    rcases ha with rfl | rfl
    · rw [g_nil (g_nothing h)]; exact ⟨[], .nil⟩
    · obtain ⟨u, v, rfl, hu, hv⟩ := g_split h
      obtain ⟨c, hc⟩ := character2 hu
      have := List.length_pos_iff.2 (charText_ne_nil hc)
      obtain ⟨s, hs⟩ := ih v (by simp at hw; omega) hv
      exact ⟨c :: s, .cons hc hs⟩

theorem literal {w : Str} (h : G [.nonTerminal b!"literal"] w) : ∃ s, LiteralText s w := by
  obtain ⟨alt, ha, h⟩ := g_one 10 (r := selfGrammar.rules[10]'(by decide)) rfl h
  have ha : alt ∈ [⟨[.terminal b!"\"", .nonTerminal b!"text1", .terminal b!"\""]⟩,
    (⟨[.terminal b!"'", .nonTerminal b!"text2", .terminal b!"'"]⟩ : Sequence)] := ha
  simp only [List.mem_cons, List.not_mem_nil, or_false] at ha
  rcases ha with rfl | rfl
  · obtain ⟨v, rfl, hv⟩ := g_term h
    obtain ⟨u, v', rfl, hu, hv'⟩ := g_split hv
    obtain ⟨v'', rfl, hv''⟩ := g_term hv'
    rw [g_nil hv'']
    obtain ⟨s, hs⟩ := text1 _ u (Nat.le_refl _) hu
    exact ⟨s, .mk (.inl rfl) hs⟩
  · obtain ⟨v, rfl, hv⟩ := g_term h
    obtain ⟨u, v', rfl, hu, hv'⟩ := g_split hv
    obtain ⟨v'', rfl, hv''⟩ := g_term hv'
    rw [g_nil hv'']
    obtain ⟨s, hs⟩ := text2 _ u (Nat.le_refl _) hu
    exact ⟨s, .mk (.inr rfl) hs⟩

/-! ## Symbols, sequences, alternatives -/

theorem term {w : Str} (h : G [.nonTerminal b!"term"] w) : ∃ y, SymbolText y w := by
  obtain ⟨alt, ha, h⟩ := g_one 9 (r := selfGrammar.rules[9]'(by decide)) rfl h
  have ha : alt ∈ [⟨[.nonTerminal b!"literal"]⟩,
    (⟨[.terminal b!"<", .nonTerminal b!"rule-name", .terminal b!">"]⟩ : Sequence)] := ha
  simp only [List.mem_cons, List.not_mem_nil, or_false] at ha
  rcases ha with rfl | rfl
  · obtain ⟨s, hs⟩ := literal h
    by_cases h0 : s = []
    · subst h0; exact ⟨_, .nothing hs⟩
    · exact ⟨_, .terminal h0 hs⟩
  · obtain ⟨v, rfl, hv⟩ := g_term h
    obtain ⟨u, v', rfl, hu, hv'⟩ := g_split hv
    obtain ⟨v'', rfl, hv''⟩ := g_term hv'
    rw [g_nil hv'']
    exact ⟨_, .nonTerminal (name hu)⟩

theorem symbolText_length {y : Symbol} {x : Str} (h : SymbolText y x) : 0 < x.length := by
  cases h with
  | nonTerminal _ => simp
  | terminal _ h => cases h; simp
  | nothing h => cases h; simp

/-- One symbol, blanks and further symbols. -/
theorem listTail (n : Nat) : ∀ w : Str, w.length ≤ n →
    G [.nonTerminal b!"term", .nonTerminal b!"opt-whitespace", .nonTerminal b!"list-tail"] w →
    ∃ ys, SeqText ys w := by
  induction n with
  | zero =>
    intro w hw h
    obtain ⟨u, v, rfl, hu, hv⟩ := g_split h
    obtain ⟨y, hy⟩ := term hu
    have := symbolText_length hy
    simp at hw
    simp [hw.1] at this
  | succ n ih =>
    intro w hw h
    obtain ⟨u, v, rfl, hu, hv⟩ := g_split h
    obtain ⟨y, hy⟩ := term hu
    have := symbolText_length hy
    obtain ⟨b, z, rfl, hb, hz⟩ := g_split hv
    obtain ⟨k, rfl⟩ := optBlank hb
    obtain ⟨alt, ha, hz⟩ := g_one 8 (r := selfGrammar.rules[8]'(by decide)) rfl hz
    have ha : alt ∈ [⟨[.nothing]⟩,
      (⟨[.nonTerminal b!"term", .nonTerminal b!"opt-whitespace", .nonTerminal b!"list-tail"]⟩ : Sequence)] := ha
    simp only [List.mem_cons, List.not_mem_nil, or_false] at ha
    rcases ha with rfl | rfl
    · rw [g_nil (g_nothing hz), List.append_nil]
      exact ⟨[y], .one k hy⟩
    · obtain ⟨ys, hys⟩ := ih z (by simp at hw; omega) hz
      exact ⟨y :: ys, .cons k hy hys⟩

theorem list {w : Str} (h : G [.nonTerminal b!"list"] w) : ∃ ys, SeqText ys w := by
  obtain ⟨alt, ha, h⟩ := g_one 7 (r := selfGrammar.rules[7]'(by decide)) rfl h
  have ha : alt ∈
    [(⟨[.nonTerminal b!"term", .nonTerminal b!"opt-whitespace", .nonTerminal b!"list-tail"]⟩ : Sequence)] := ha
  rw [List.mem_singleton] at ha
  subst ha
  exact listTail _ w (Nat.le_refl _) h

theorem exprTail (n : Nat) : ∀ w : Str, w.length ≤ n →
    G [.nonTerminal b!"list", .nonTerminal b!"expression-tail"] w → ∃ ss, AltsText ss w := by
  induction n with
  | zero =>
    intro w hw h
    obtain ⟨u, v, rfl, hu, hv⟩ := g_split h
    obtain ⟨ys, hy⟩ := list hu
    obtain ⟨alt, ha, hz⟩ := g_one 6 (r := selfGrammar.rules[6]'(by decide)) rfl hv
    have ha : alt ∈ [⟨[.nothing]⟩,
      (⟨[.terminal b!"|", .nonTerminal b!"opt-whitespace", .nonTerminal b!"list",
        .nonTerminal b!"expression-tail"]⟩ : Sequence)] := ha
    simp only [List.mem_cons, List.not_mem_nil, or_false] at ha
    rcases ha with rfl | rfl
    · rw [g_nil (g_nothing hz), List.append_nil]
      exact ⟨[⟨ys⟩], .one hy⟩
    · obtain ⟨x, rfl, hx⟩ := g_term hz
      simp at hw
  | succ n ih =>
    intro w hw h
    obtain ⟨u, v, rfl, hu, hv⟩ := g_split h
    obtain ⟨ys, hy⟩ := list hu
    obtain ⟨alt, ha, hz⟩ := g_one 6 (r := selfGrammar.rules[6]'(by decide)) rfl hv
    have ha : alt ∈ [⟨[.nothing]⟩,
      (⟨[.terminal b!"|", .nonTerminal b!"opt-whitespace", .nonTerminal b!"list",
        .nonTerminal b!"expression-tail"]⟩ : Sequence)] := ha
    simp only [List.mem_cons, List.not_mem_nil, or_false] at ha
    rcases ha with rfl | rfl
    · rw [g_nil (g_nothing hz), List.append_nil]
      exact ⟨[⟨ys⟩], .one hy⟩
    · obtain ⟨x, rfl, hx⟩ := g_term hz
      obtain ⟨b, z, rfl, hb, hz'⟩ := g_split hx
      obtain ⟨k, rfl⟩ := optBlank hb
      obtain ⟨ss, hss⟩ := ih z (by simp at hw; omega) hz'
      exact ⟨⟨ys⟩ :: ss, .cons (s := ⟨ys⟩) k hy hss⟩

theorem expression {w : Str} (h : G [.nonTerminal b!"expression"] w) : ∃ ss, AltsText ss w := by
  obtain ⟨alt, ha, h⟩ := g_one 5 (r := selfGrammar.rules[5]'(by decide)) rfl h
  have ha : alt ∈ [(⟨[.nonTerminal b!"list", .nonTerminal b!"expression-tail"]⟩ : Sequence)] := ha
  rw [List.mem_singleton] at ha
  subst ha
  exact exprTail _ w (Nat.le_refl _) h

/-! ## Rules and lines -/

theorem content {w : Str} (h : G [.nonTerminal b!"content"] w) : ∃ r, RuleText r w := by
  obtain ⟨alt, ha, h⟩ := g_one 4 (r := selfGrammar.rules[4]'(by decide)) rfl h
  have ha : alt ∈ [(⟨[.terminal b!"<", .nonTerminal b!"rule-name", .terminal b!">",
    .nonTerminal b!"opt-whitespace", .terminal b!"::=", .nonTerminal b!"opt-whitespace",
    .nonTerminal b!"expression"]⟩ : Sequence)] := ha
  rw [List.mem_singleton] at ha
  subst ha
  obtain ⟨w1, rfl, h1⟩ := g_term h
  obtain ⟨n, w2, rfl, hn, h2⟩ := g_split h1
  obtain ⟨w3, rfl, h3⟩ := g_term h2
  obtain ⟨b, w4, rfl, hb, h4⟩ := g_split h3
  obtain ⟨k, rfl⟩ := optBlank hb
  obtain ⟨w5, rfl, h5⟩ := g_term h4
  obtain ⟨b', w6, rfl, hb', h6⟩ := g_split h5
  obtain ⟨l, rfl⟩ := optBlank hb'
  obtain ⟨ss, hs⟩ := expression h6
  exact ⟨_, .mk k l (name hn) hs⟩

theorem eol {w : Str} (h : G [.nonTerminal b!"EOL"] w) : IsEol w := by
  obtain ⟨alt, ha, h⟩ := g_one 25 (r := selfGrammar.rules[25]'(by decide)) rfl h
  have ha : alt ∈ [⟨[.terminal b!"\n"]⟩, (⟨[.terminal b!"\r\n"]⟩ : Sequence)] := ha
  simp only [List.mem_cons, List.not_mem_nil, or_false] at ha
  rcases ha with rfl | rfl
  · obtain ⟨w', rfl, h'⟩ := g_term h
    rw [g_nil h']; exact .inl rfl
  · obtain ⟨w', rfl, h'⟩ := g_term h
    rw [g_nil h']; exact .inr rfl

/-- A line is blanks, or blanks and a rule. -/
theorem line {w : Str} (h : G [.nonTerminal b!"line"] w) :
    (∃ k, w = blanks k) ∨ ∃ k r x, RuleText r x ∧ w = blanks k ++ x := by
  obtain ⟨alt, ha, h⟩ := g_one 2 (r := selfGrammar.rules[2]'(by decide)) rfl h
  have ha : alt ∈ [(⟨[.nonTerminal b!"opt-whitespace", .nonTerminal b!"opt-content"]⟩ : Sequence)] := ha
  rw [List.mem_singleton] at ha
  subst ha
  obtain ⟨b, w1, rfl, hb, h1⟩ := g_split h
  obtain ⟨k, rfl⟩ := optBlank hb
  obtain ⟨alt, ha, h⟩ := g_one 3 (r := selfGrammar.rules[3]'(by decide)) rfl h1
  have ha : alt ∈ [⟨[.nonTerminal b!"content"]⟩, (⟨[.nothing]⟩ : Sequence)] := ha
  simp only [List.mem_cons, List.not_mem_nil, or_false] at ha
  rcases ha with rfl | rfl
  · obtain ⟨r, hr⟩ := content h
    exact .inr ⟨k, r, w1, hr, rfl⟩
  · rw [g_nil (g_nothing h), List.append_nil]
    exact .inl ⟨k, rfl⟩

theorem moreLines (n : Nat) : ∀ w : Str, w.length ≤ n → G [.nonTerminal b!"more-lines"] w →
    ∃ rs, LinesText rs w := by
  induction n with
  | zero =>
    intro w hw _
    rw [List.eq_nil_of_length_eq_zero (Nat.le_zero.1 hw)]
    exact ⟨[], .nil⟩
  | succ n ih =>
    intro w hw h
    obtain ⟨alt, ha, h⟩ := g_one 1 (r := selfGrammar.rules[1]'(by decide)) rfl h
    have ha : alt ∈ [⟨[.nothing]⟩,
      (⟨[.nonTerminal b!"EOL", .nonTerminal b!"line", .nonTerminal b!"more-lines"]⟩ : Sequence)] := ha
    simp only [List.mem_cons, List.not_mem_nil, or_false] at ha
    rcases ha with rfl | rfl
    · rw [g_nil (g_nothing h)]; exact ⟨[], .nil⟩
    · obtain ⟨e, w1, rfl, he', h1⟩ := g_split h
      obtain ⟨l, z, rfl, hl, hz⟩ := g_split h1
      have he := eol he'
      have hpos : 0 < e.length := by rcases he with rfl | rfl <;> simp
      obtain ⟨rs, hrs⟩ := ih z (by simp at hw; omega) hz
      rcases line hl with ⟨k, rfl⟩ | ⟨k, r, x, hr, rfl⟩
      · exact ⟨rs, .blank k he hrs⟩
      · refine ⟨r :: rs, ?_⟩
        rw [List.append_assoc]
        exact .rule k he hr hrs

/-- Every sentence of the BNF grammar is a layout of some grammar. -/
theorem grammarText {w : Str} (h : Sentence selfGrammar w) : ∃ g, GrammarText g w := by
  obtain ⟨alt, ⟨r, hr, ha⟩, h⟩ := h
  have e : selfGrammar.rules[0]? = some (selfGrammar.rules[0]'(by decide)) := rfl
  rw [e] at hr
  cases hr
  have ha : alt ∈
    [(⟨[.nonTerminal b!"opt-whitespace", .nonTerminal b!"content", .nonTerminal b!"more-lines"]⟩ : Sequence)] := ha
  rw [List.mem_singleton] at ha
  subst ha
  obtain ⟨b, w1, rfl, hb, h1⟩ := g_split h
  obtain ⟨k, rfl⟩ := optBlank hb
  obtain ⟨x, z, rfl, hx, hz⟩ := g_split h1
  obtain ⟨r, hr⟩ := content hx
  obtain ⟨rs, hrs⟩ := moreLines _ z (Nat.le_refl _) hz
  exact ⟨⟨r :: rs⟩, .mk k hr hrs⟩

end BnfSentence
end LL1
