import Verif.Proofs.BnfParse
import Verif.Proofs.BnfSentence
import Verif.Proofs.Printing
import Verif.Props.FromCst
import Verif.Props.SelfGrammar

/-!
# Textual BNF: parsing, reading and printing (C39 - C42)
-/

namespace LL1
open FC (selfBindings)

/-! ## Printed grammars are layouts -/

theorem charText_escChar {q c : UInt8} (hc : IsText c) (hq : c ≠ q) : CharText q c (escChar c) := by
  unfold escChar
  by_cases h1 : c = 92
  · subst h1; exact .backslash
  by_cases h2 : c = 9
  · subst h2; exact .tab
  by_cases h3 : c = 10
  · subst h3; exact .lf
  by_cases h4 : c = 13
  · subst h4; exact .cr
  simp only [h1, h2, h3, h4, if_false]
  have hc' : 32 ≤ c ∧ c ≤ 126 := by
    rcases hc with hc | hc | hc | hc
    · exact hc
    · exact (h2 hc).elim
    · exact (h3 hc).elim
    · exact (h4 hc).elim
  by_cases h5 : c = 34 ∨ c = 39
  · exact .otherQuote h5 hq
  · rw [not_or] at h5
    exact .plain ⟨hc'.1, hc'.2, h5.1, h5.2, h1⟩

theorem charsText_flatMap {q : UInt8} {f : UInt8 → Str} {name : Str} (h : ∀ c ∈ name, CharText q c (f c)) :
    CharsText q name (name.flatMap f) := by
  induction name with
  | nil => exact .nil
  | cons c name ih =>
    rw [List.flatMap_cons]
    exact .cons (h c (by simp)) (ih fun d hd => h d (by simp [hd]))

theorem literalText_termString {name : Str} (h : ∀ c ∈ name, IsText c) : LiteralText name (termString name) := by
  rw [termString_eq]
  split
  · rename_i hp
    refine .mk (.inr rfl) (charsText_flatMap fun c hc => charText_escChar (h c hc) ?_)
    rintro rfl
    exact (printsSingle_iff.1 hp).2 hc
  · refine .mk (.inl rfl) (charsText_flatMap fun c hc => ?_)
    unfold escCharDq
    split
    · rename_i h34; subst h34; exact .quote
    · rename_i h34; exact charText_escChar (h c hc) h34

theorem symbolText_toStr {y : Symbol} (h : LegalSymbol y) : SymbolText y y.toStr := by
  cases y with
  | nonTerminal n => exact .nonTerminal h
  | terminal t => exact .terminal h.1 (literalText_termString h.2)
  | nothing => exact .nothing (literalText_termString (name := []) (by simp))

theorem seqText_toStr (k : Nat) {ys : List Symbol} (h0 : ys ≠ []) (h : ∀ y ∈ ys, LegalSymbol y) :
    ∃ x, SeqText ys x ∧ (ys.flatMap fun y => 32 :: y.toStr) ++ blanks k = 32 :: x := by
  induction ys with
  | nil => exact (h0 rfl).elim
  | cons y ys ih =>
    have hy := symbolText_toStr (h y (by simp))
    cases ys with
    | nil => exact ⟨_, .one k hy, by simp⟩
    | cons y' ys =>
      obtain ⟨x, hx, he⟩ := ih (by simp) fun z hz => h z (by simp [hz])
      refine ⟨_, .cons 1 hy hx, ?_⟩
      rw [List.flatMap_cons, List.append_assoc, he]
      simp [blanks]

theorem altsText_toStr {ss : List Sequence} (h0 : ss ≠ [])
    (h : ∀ s ∈ ss, s.symbols ≠ [] ∧ ∀ y ∈ s.symbols, LegalSymbol y) :
    ∃ x, AltsText ss x ∧ seqsToStr true ss = 32 :: x := by
  induction ss with
  | nil => exact (h0 rfl).elim
  | cons s ss ih =>
    have hs := h s (by simp)
    cases ss with
    | nil =>
      obtain ⟨x, hx, he⟩ := seqText_toStr 0 hs.1 hs.2
      refine ⟨x, .one hx, ?_⟩
      simpa [seqsToStr, Sequence.toStr, blanks] using he
    | cons s' ss =>
      obtain ⟨x, hx, he⟩ := seqText_toStr 1 hs.1 hs.2
      obtain ⟨z, hz, hez⟩ := ih (by simp) fun t ht => h t (by simp [ht])
      refine ⟨_, .cons 1 hx hz, ?_⟩
      have e1 : seqsToStr true (s :: s' :: ss) = s.toStr ++ ([32, 124] ++ seqsToStr true (s' :: ss)) := by
        simp [seqsToStr]
      rw [e1, hez]
      have : s.toStr ++ [32] = 32 :: x := by simpa [Sequence.toStr, blanks] using he
      calc s.toStr ++ ([32, 124] ++ 32 :: z) = (s.toStr ++ [32]) ++ 124 :: 32 :: z := by simp
        _ = 32 :: (x ++ 124 :: (blanks 1 ++ z)) := by rw [this]; simp [blanks]

theorem ruleText_toStr {r : Rule} (hh : LegalName r.head) (h0 : r.tail.sequences ≠ [])
    (h : ∀ s ∈ r.tail.sequences, s.symbols ≠ [] ∧ ∀ y ∈ s.symbols, LegalSymbol y) : RuleText r r.toStr := by
  obtain ⟨head, ⟨ss⟩⟩ := r
  obtain ⟨x, hx, he⟩ := altsText_toStr h0 h
  have := RuleText.mk 1 1 hh hx
  simp only [Rule.toStr, he, ntString]
  simpa [blanks] using this

/-- A printed grammar is one of its layouts. -/
theorem grammarText_toStr {g : Grammar} (h : g.Legal) : GrammarText g g.toStr := by
  obtain ⟨rules⟩ := g
  cases rules with
  | nil => exact (h.rules rfl).elim
  | cons r rs =>
    have hr : ∀ r' ∈ r :: rs, RuleText r' r'.toStr := fun r' hr' =>
      ruleText_toStr (h.heads r' hr') (h.alts r' hr') (h.symbols r' hr')
    have hl : LinesText rs (rs.flatMap fun r => 10 :: r.toStr) := by
      have : ∀ r' ∈ rs, RuleText r' r'.toStr := fun r' h' => hr r' (by simp [h'])
      clear h hr
      induction rs with
      | nil => exact .nil
      | cons r' rs ih =>
        have := LinesText.rule 0 (.inl rfl) (this r' (by simp)) (ih fun x hx => this x (by simp [hx]))
        simpa [blanks] using this
    have := GrammarText.mk 0 (hr r (by simp)) hl
    simpa [blanks, Grammar.toStr] using this

/-! ## Only legal grammars have layouts -/

theorem isText_of_charText {q c : UInt8} {x : Str} (h : CharText q c x) : IsText c := by
  cases h with
  | plain h => exact .inl ⟨h.1, h.2.1⟩
  | otherQuote h _ => rcases h with rfl | rfl <;> decide
  | tab => decide
  | lf => decide
  | cr => decide
  | quote => decide
  | backslash => decide

theorem isText_of_charsText {q : UInt8} {s x : Str} (h : CharsText q s x) : ∀ c ∈ s, IsText c := by
  induction h with
  | nil => simp
  | cons h _ ih =>
    intro d hd
    rcases List.mem_cons.1 hd with rfl | hd
    · exact isText_of_charText h
    · exact ih d hd

theorem legal_of_symbolText {y : Symbol} {x : Str} (h : SymbolText y x) : LegalSymbol y := by
  cases h with
  | nonTerminal h => exact h
  | terminal h0 h => cases h with | mk _ h => exact ⟨h0, isText_of_charsText h⟩
  | nothing _ => exact True.intro

theorem legal_of_seqText {ys : List Symbol} {x : Str} (h : SeqText ys x) :
    ys ≠ [] ∧ ∀ y ∈ ys, LegalSymbol y := by
  refine ⟨by cases h <;> simp, ?_⟩
  induction h with
  | one k h => intro y hy; rw [List.mem_singleton] at hy; subst hy; exact legal_of_symbolText h
  | cons k h _ ih =>
    intro y hy
    rcases List.mem_cons.1 hy with rfl | hy
    · exact legal_of_symbolText h
    · exact ih y hy

theorem legal_of_altsText {ss : List Sequence} {x : Str} (h : AltsText ss x) :
    ss ≠ [] ∧ ∀ s ∈ ss, s.symbols ≠ [] ∧ ∀ y ∈ s.symbols, LegalSymbol y := by
  refine ⟨by cases h <;> simp, ?_⟩
  induction h with
  | one h => intro s hs; rw [List.mem_singleton] at hs; subst hs; exact legal_of_seqText h
  | cons k h _ ih =>
    intro s hs
    rcases List.mem_cons.1 hs with rfl | hs
    · exact legal_of_seqText h
    · exact ih s hs

/-- The conditions on one rule. -/
def LegalRule (r : Rule) : Prop := LegalName r.head ∧ r.tail.sequences ≠ [] ∧
  ∀ s ∈ r.tail.sequences, s.symbols ≠ [] ∧ ∀ y ∈ s.symbols, LegalSymbol y

theorem legal_of_ruleText {r : Rule} {x : Str} (h : RuleText r x) : LegalRule r := by
  cases h with
  | mk k l hn ha => exact ⟨hn, legal_of_altsText ha⟩

theorem legal_of_linesText {rs : List Rule} {x : Str} (h : LinesText rs x) : ∀ r ∈ rs, LegalRule r := by
  induction h with
  | nil => simp
  | blank _ _ _ ih => exact ih
  | rule _ _ hr _ ih =>
    intro r' h'
    rcases List.mem_cons.1 h' with rfl | h'
    · exact legal_of_ruleText hr
    · exact ih r' h'

/-- Only legal grammars have layouts. -/
theorem legal_of_grammarText {g : Grammar} {x : Str} (h : GrammarText g x) : g.Legal := by
  cases h with
  | @mk r rs x z k hr hl =>
    have : ∀ r' ∈ r :: rs, LegalRule r' := by
      intro r' h'
      rcases List.mem_cons.1 h' with rfl | h'
      · exact legal_of_ruleText hr
      · exact legal_of_linesText hl r' h'
    exact ⟨by simp, fun r' h' => (this r' h').1, fun r' h' => (this r' h').2.1, fun r' h' => (this r' h').2.2⟩

/-! ## Texts with a NUL byte -/

namespace FC
open Read (each)

theorem each_congr_mem {α : Type} {f g : Node → R α} {ns : List Node} (h : ∀ n ∈ ns, f n = g n) :
    each f ns = each g ns := by
  induction ns with
  | nil => rfl
  | cons n ns ih => rw [each, each, h n (by simp), ih fun m hm => h m (by simp [hm])]

section
variable {skip : Int → Bool} {b : Bindings} {u v : Str}

theorem text_append {n : Node} (h : n.pos ≤ n.stop ∧ n.stop ≤ u.length) : Read.text n (u ++ v) = Read.text n u := by
  unfold Read.text
  rw [if_pos h, if_pos ⟨h.1, by simp; omega⟩, List.drop_append_of_le_length (by omega),
    List.take_append_of_le_length (by simp; omega)]

theorem escape_append {n : Node} (h : InText u n) : Read.escape skip b (u ++ v) n = Read.escape skip b u n := by
  unfold Read.escape
  split
  · rfl
  · rename_i c hc
    rw [text_append (h.first hc).here]

theorem terminalName_append {n : Node} (h : InText u n) :
    Read.terminalName skip b (u ++ v) n = Read.terminalName skip b u n := by
  unfold Read.terminalName
  rw [each_congr_mem (g := fun c => if c.type = -1 then Read.text c u else Read.escape skip b u c)]
  intro c hc
  rw [text_append (h.topmost hc).here, escape_append (h.topmost hc)]

theorem symbol_append {n : Node} (h : InText u n) : Read.symbol skip b (u ++ v) n = Read.symbol skip b u n := by
  unfold Read.symbol
  split
  · rename_i c hc
    obtain ⟨ty, _, hc⟩ := List.exists_of_findSome?_eq_some hc
    rw [terminalName_append (h.first hc)]
  · split
    · rename_i c hc
      rw [text_append (h.first hc).here]
    · rw [text_append h.here]

theorem sequence_append {n : Node} (h : InText u n) :
    Read.sequence skip b (u ++ v) n = Read.sequence skip b u n := by
  unfold Read.sequence Read.allOf
  rw [each_congr_mem (f := Read.symbol skip b (u ++ v)) (g := Read.symbol skip b u) fun m hm => symbol_append (h.topmost hm)]

theorem substitution_append {n : Node} (h : InText u n) :
    Read.substitution skip b (u ++ v) n = Read.substitution skip b u n := by
  unfold Read.substitution Read.allOf
  rw [each_congr_mem (f := Read.sequence skip b (u ++ v)) (g := Read.sequence skip b u) fun m hm => sequence_append (h.topmost hm)]

theorem rule_append {n : Node} (h : InText u n) : Read.rule skip b (u ++ v) n = Read.rule skip b u n := by
  unfold Read.rule
  split
  · rw [text_append h.here]
  · rename_i c hc
    rw [text_append (h.first hc).here]
    split
    · rw [text_append h.here]
    · rename_i e he
      rw [substitution_append (h.first he)]

theorem toAST_append {n : Node} (h : InText u n) : b.toAST n (u ++ v) = b.toAST n u := by
  rw [C44_reads, C44_reads]
  unfold Read.grammar Read.allOf
  rw [each_congr_mem (f := Read.rule _ b (u ++ v)) (g := Read.rule _ b u) fun m hm => rule_append (h.topmost hm)]
end
end FC

theorem split_nul {text : Str} (h : (0 : UInt8) ∈ text) : ∃ u v, text = u ++ 0 :: v ∧ (0 : UInt8) ∉ u := by
  induction text with
  | nil => simp at h
  | cons c text ih =>
    by_cases hc : c = 0
    · subst hc; exact ⟨[], text, rfl, by simp⟩
    · have : (0 : UInt8) ∈ text := by
        rcases List.mem_cons.1 h with h | h
        · exact (hc h.symm).elim
        · exact h
      obtain ⟨u, v, rfl, hu⟩ := ih this
      exact ⟨c :: u, v, rfl, by simp [hu, Ne.symm hc]⟩

/-! ## The properties -/

section
variable (order : Order) (tbl : Table) (names : Names) (h : fromGrammar order selfGrammar = .ok (tbl, names))
include h

theorem self_nulFreeTable : tbl.NulFree := fromGrammar_tableNulFree h self_nulFree

/-- **C40.** Every layout of a grammar - any number of blanks where blanks are allowed, blank lines, LF or
CR LF, either quotes, raw or escaped characters - is accepted, and converts to exactly that grammar. -/
theorem C40_layout (m : Names) (src : Source) (text : Str) (hr : readSource src = .ok text) (g : Grammar)
    (hg : GrammarText g text) :
    ∃ t m', (Parser.mk tbl (some m)).Returns src (.ok t m') ∧ selfBindings.toAST t text = .ok g := by
  obtain ⟨t, hd, hast⟩ := BnfParse.grammar_ hg
  have hc := fromGrammar_closedTable h
  refine ⟨t, _, (returns_ok_iff (p := Parser.mk tbl (some m)) hc.hasEntry hc.public hr).2 ⟨?_, m, rfl, rfl⟩, hast⟩
  exact IsParse.congr (self_sameTable h).symm ⟨_, hd, by simp [byteAt]⟩

/-- **C40.** So a text is a layout of at most one grammar. -/
theorem C40_unambiguous (text : Str) (g g' : Grammar) (hg : GrammarText g text) (hg' : GrammarText g' text) :
    g = g' := by
  obtain ⟨t, m1, h1, e1⟩ := C40_layout order tbl names h [] (.string text) text rfl g hg
  obtain ⟨t', m2, h2, e2⟩ := C40_layout order tbl names h [] (.string text) text rfl g' hg'
  have := returns_det h1 h2
  cases this
  rw [e1] at e2
  cases e2
  rfl

/-- **C39.** Printing a legal grammar, parsing the text and converting the tree gives the grammar back. -/
theorem C39_round_trip (m : Names) (g : Grammar) (hg : g.Legal) :
    ∃ t m', (Parser.mk tbl (some m)).Returns (.string g.toStr) (.ok t m') ∧
      selfBindings.toAST t g.toStr = .ok g :=
  C40_layout order tbl names h m (.string g.toStr) g.toStr rfl g (grammarText_toStr hg)

/-- **C41.** Whatever the BNF parser accepts is converted without error or panic, to a legal grammar; for a
NUL-free source the source is a layout of that grammar (in general, the part before the first NUL is). -/
theorem C41_accepted_converts (m : Names) (src : Source) (text : Str) (hr : readSource src = .ok text)
    (t : Node) (m' : Names) (ht : (Parser.mk tbl (some m)).Returns src (.ok t m')) :
    ∃ g, selfBindings.toAST t text = .ok g ∧ g.Legal ∧
      ((0 : UInt8) ∉ text → GrammarText g text) ∧
      (∀ u v, text = u ++ 0 :: v → (0 : UInt8) ∉ u → GrammarText g u) := by
  have hc := fromGrammar_closedTable h
  have key : ∀ u, (0 : UInt8) ∉ u → (Parser.mk tbl (some m)).Returns (.string u) (.ok t m') →
      ∃ g, selfBindings.toAST t u = .ok g ∧ GrammarText g u := by
    intro u hu ht
    have hs := ((C45_decides order tbl names h m (.string u)).2 u rfl hu).1.2 ⟨t, m', ht⟩
    obtain ⟨g, hg⟩ := BnfSentence.grammarText hs
    obtain ⟨t', m'', h1, h2⟩ := C40_layout order tbl names h m (.string u) u rfl g hg
    have := returns_det h1 ht
    cases this
    exact ⟨g, h2, hg⟩
  have ht' : (Parser.mk tbl (some m)).Returns (.string text) (.ok t m') := by
    have e : readSource src = readSource (.string text) := hr
    simpa only [Parser.Returns, Parser.parseFuel, e] using ht
  by_cases h0 : (0 : UInt8) ∈ text
  · obtain ⟨u, v, rfl, hu⟩ := split_nul h0
    have hnf := self_nulFreeTable order tbl names h
    have htu := (C21_nul_truncates (Parser.mk tbl (some m)) hc.hasEntry hc.public hnf u v (.ok t m')).1.1 ht'
    obtain ⟨g, h1, h2⟩ := key u hu htu
    have hin : FC.InText u t := fun n hn =>
      ⟨(C10_tiling _ hc.hasEntry hc.public (.string u) u rfl t m' htu n hn).1,
        C10_in_bounds _ hc.hasEntry hc.public hnf (.string u) u rfl t m' htu n hn⟩
    refine ⟨g, by rw [FC.toAST_append hin]; exact h1, legal_of_grammarText h2, fun h' => (h' h0).elim, ?_⟩
    intro u' v' he hu'
    have : u = u' := by
      have e1 := List.takeWhile_append_of_pos (p := fun c : UInt8 => c ≠ 0) (l₁ := u) (l₂ := 0 :: v)
        (fun c hc => by simp only [decide_eq_true_eq]; rintro rfl; exact hu hc)
      have e2 := List.takeWhile_append_of_pos (p := fun c : UInt8 => c ≠ 0) (l₁ := u') (l₂ := 0 :: v')
        (fun c hc => by simp only [decide_eq_true_eq]; rintro rfl; exact hu' hc)
      rw [← he] at e2
      rw [e1] at e2
      simpa using e2
    subst this
    exact h2
  · obtain ⟨g, h1, h2⟩ := key text h0 ht'
    refine ⟨g, h1, legal_of_grammarText h2, fun _ => h2, ?_⟩
    rintro u v rfl
    simp at h0

/-- **C42.** Normalising is idempotent: print what was read, read it again, and the same AST results. -/
theorem C42_idempotent (m : Names) (src : Source) (text : Str) (hr : readSource src = .ok text)
    (t : Node) (m' : Names) (ht : (Parser.mk tbl (some m)).Returns src (.ok t m')) (g : Grammar)
    (hg : selfBindings.toAST t text = .ok g) :
    ∃ t' m'', (Parser.mk tbl (some m)).Returns (.string g.toStr) (.ok t' m'') ∧
      selfBindings.toAST t' g.toStr = .ok g := by
  obtain ⟨g', h1, h2, _⟩ := C41_accepted_converts order tbl names h m src text hr t m' ht
  rw [hg] at h1
  cases h1
  exact C39_round_trip order tbl names h m g h2

/-- **C39.** Only legal grammars survive the round trip. -/
theorem C39_only_legal (m : Names) (g : Grammar) :
    (∃ t m', (Parser.mk tbl (some m)).Returns (.string g.toStr) (.ok t m') ∧ selfBindings.toAST t g.toStr = .ok g) ↔
      g.Legal := by
  refine ⟨?_, C39_round_trip order tbl names h m g⟩
  rintro ⟨t, m', h1, h2⟩
  obtain ⟨g', e1, e2, _⟩ := C41_accepted_converts order tbl names h m _ g.toStr rfl t m' h1
  rw [h2] at e1
  cases e1
  exact e2

/-- **C39.** Printing does not protect against names that are not legal: the one rule with the head
`a> ::= "x"<line feed><b` is printed, and read back, as the two rules `a` and `b`. -/
theorem C39_injection (m : Names) :
    let g : Grammar := ⟨[⟨b!"a> ::= \"x\"\n<b", ⟨[⟨[.terminal b!"y"]⟩]⟩⟩]⟩
    ∃ t m', (Parser.mk tbl (some m)).Returns (.string g.toStr) (.ok t m') ∧
      selfBindings.toAST t g.toStr = .ok ⟨[⟨b!"a", ⟨[⟨[.terminal b!"x"]⟩]⟩⟩, ⟨b!"b", ⟨[⟨[.terminal b!"y"]⟩]⟩⟩]⟩ := by
  have hl : (Grammar.mk [⟨b!"a", ⟨[⟨[.terminal b!"x"]⟩]⟩⟩, ⟨b!"b", ⟨[⟨[.terminal b!"y"]⟩]⟩⟩]).Legal := by
    refine ⟨by simp, ?_, by simp, ?_⟩
    · intro r hr
      simp only [List.mem_cons, List.not_mem_nil, or_false] at hr
      rcases hr with rfl | rfl
      · exact ⟨97, [], rfl, by decide, by simp⟩
      · exact ⟨98, [], rfl, by decide, by simp⟩
    · intro r hr s hs
      simp only [List.mem_cons, List.not_mem_nil, or_false] at hr
      rcases hr with rfl | rfl <;>
      · simp only [List.mem_cons, List.not_mem_nil, or_false] at hs
        subst hs
        exact ⟨by simp, by simp [LegalSymbol]; decide⟩
  have := C39_round_trip order tbl names h m _ hl
  have e : (Grammar.mk [⟨b!"a", ⟨[⟨[.terminal b!"x"]⟩]⟩⟩, ⟨b!"b", ⟨[⟨[.terminal b!"y"]⟩]⟩⟩]).toStr =
      (Grammar.mk [⟨b!"a> ::= \"x\"\n<b", ⟨[⟨[.terminal b!"y"]⟩]⟩⟩]).toStr := by decide +kernel
  rw [e] at this
  exact this

/-- **C41.** A NUL-free source is accepted iff it is a layout of some grammar. -/
theorem C41_accepts_iff (m : Names) (src : Source) (text : Str) (hr : readSource src = .ok text)
    (h0 : (0 : UInt8) ∉ text) :
    (∃ t m', (Parser.mk tbl (some m)).Returns src (.ok t m')) ↔ ∃ g, GrammarText g text := by
  constructor
  · rintro ⟨t, m', ht⟩
    obtain ⟨g, _, _, hg, _⟩ := C41_accepted_converts order tbl names h m src text hr t m' ht
    exact ⟨g, hg h0⟩
  · rintro ⟨g, hg⟩
    obtain ⟨t, m', ht, _⟩ := C40_layout order tbl names h m src text hr g hg
    exact ⟨t, m', ht⟩

end

/-- A legal grammar with all kinds of symbols; `SelfGrammar()` itself is legal too. -/
example : (Grammar.mk [⟨b!"a", ⟨[⟨[.terminal b!"\"'\\\n", .nonTerminal b!"b-1"]⟩, ⟨[.nothing]⟩]⟩⟩,
    ⟨b!"b-1", ⟨[⟨[.terminal b!"\""]⟩]⟩⟩]).Legal := by
  refine ⟨by simp, ?_, by simp, ?_⟩
  · intro r hr
    simp only [List.mem_cons, List.not_mem_nil, or_false] at hr
    rcases hr with rfl | rfl
    · exact ⟨97, [], rfl, by decide, by simp⟩
    · exact ⟨98, [45, 49], rfl, by decide, by decide⟩
  · intro r hr s hs
    simp only [List.mem_cons, List.not_mem_nil, or_false] at hr
    rcases hr with rfl | rfl
    · simp only [List.mem_cons, List.not_mem_nil, or_false] at hs
      rcases hs with rfl | rfl
      · refine ⟨by simp, ?_⟩
        intro y hy
        simp only [List.mem_cons, List.not_mem_nil, or_false] at hy
        rcases hy with rfl | rfl
        · exact ⟨by simp, by decide⟩
        · exact ⟨98, [45, 49], rfl, by decide, by decide⟩
      · exact ⟨by simp, by simp [LegalSymbol]⟩
    · simp only [List.mem_cons, List.not_mem_nil, or_false] at hs
      subst hs
      exact ⟨by simp, by simp [LegalSymbol]; decide⟩

/-- A layout that is not the printed form: blank line, CR LF, single quotes, several blanks. -/
example : GrammarText ⟨[⟨b!"a", ⟨[⟨[.terminal b!"x"]⟩, ⟨[.nothing]⟩]⟩⟩, ⟨b!"b", ⟨[⟨[.nonTerminal b!"a"]⟩]⟩⟩]⟩
    b!"<a>::=  'x'|\"\"  \r\n   \n<b> ::=<a>" := by
  have a : LegalName b!"a" := ⟨97, [], rfl, by decide, by simp⟩
  have b : LegalName b!"b" := ⟨98, [], rfl, by decide, by simp⟩
  have x : SymbolText (.terminal b!"x") b!"'x'" :=
    .terminal (by simp) (.mk (.inr rfl) (.cons (.plain (by decide)) .nil))
  have e : SymbolText .nothing b!"\"\"" := .nothing (.mk (.inl rfl) .nil)
  exact GrammarText.mk 0
    (RuleText.mk 0 2 a (AltsText.cons (s := ⟨[_]⟩) 0 (SeqText.one 0 x) (AltsText.one (s := ⟨[_]⟩) (SeqText.one 2 e))))
    (LinesText.blank (e := b!"\r\n") 3 (.inr rfl) (LinesText.rule (e := b!"\n") 0 (.inl rfl)
      (RuleText.mk 1 0 b (AltsText.one (s := ⟨[_]⟩) (SeqText.one 0 (SymbolText.nonTerminal a)))) .nil))

/-- A non-legal grammar need not survive: the empty terminal comes back as the empty-string symbol. -/
example : ∃ t m', (Parser.mk Golden.selfTable (some [])).Returns
    (.string (Grammar.mk [⟨b!"a", ⟨[⟨[.terminal []]⟩]⟩⟩]).toStr) (.ok t m') ∧
    selfBindings.toAST t (Grammar.mk [⟨b!"a", ⟨[⟨[.terminal []]⟩]⟩⟩]).toStr =
      .ok ⟨[⟨b!"a", ⟨[⟨[.nothing]⟩]⟩⟩]⟩ := ⟨_, _, ⟨400, rfl⟩, by decide +kernel⟩

end LL1
