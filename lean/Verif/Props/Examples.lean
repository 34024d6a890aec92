import Verif.Proofs.JsonText
import Verif.Proofs.JsonTree
import Verif.Proofs.JsonUnique
import Verif.Props.Bnf

/-!
# The example programs (C53 - C55)
-/

namespace LL1
open Golden Prog
open FC (selfBindings)

/-! ## C53: the JSON grammar -/

/-- **C53.** The parser generated from `SelfGrammar()` accepts the file `json.bnf`, `ToAST` reads it as
the expected grammar, and `FromGrammar` builds a table for that grammar; whatever the map orders. -/
theorem C53_json_bnf (order₁ order₂ : Order) :
    ∃ tbl names t m' tbl' names', fromGrammar order₁ selfGrammar = .ok (tbl, names) ∧
      (Parser.mk tbl (some names)).Returns (.string jsonBnfText) (.ok t m') ∧
      selfBindings.toAST t jsonBnfText = .ok jsonGrammar ∧
      fromGrammar order₂ jsonGrammar = .ok (tbl', names') := by
  obtain ⟨tbl, names, h, _⟩ := fromGrammar_of_runGives self_runGives order₁
  obtain ⟨tbl', names', h', _⟩ := fromGrammar_of_runGives json_runGives order₂
  obtain ⟨t, m', ht, ha⟩ := C40_layout order₁ tbl names h names (.string jsonBnfText) jsonBnfText rfl _ json_grammarText
  exact ⟨tbl, names, t, m', tbl', names', h, ht, ha, h'⟩

/-- **C53.** The JSON grammar is LL(1) in the textbook sense. -/
theorem C53_ll1 : IsLL1 jsonGrammar := json_ll1

theorem json_sameTable {order : Order} {tbl : Table} {names : Names}
    (h : fromGrammar order jsonGrammar = .ok (tbl, names)) : SameTable tbl jsonTable := by
  obtain ⟨tbl', names', h', hs⟩ := fromGrammar_of_runGives json_runGives order
  rw [h] at h'
  cases h'
  exact hs

/-- The tree of an accepted text. -/
theorem json_tree_good {order : Order} {tbl : Table} {names : Names}
    (h : fromGrammar order jsonGrammar = .ok (tbl, names)) {m m' : Names} {src : Source} {text : Str} {t : Node}
    (hr : readSource src = .ok text) (ht : (Parser.mk tbl (some m)).Returns src (.ok t m')) :
    JsonTree.Good text t := by
  have hc := fromGrammar_closedTable h
  have hnf := fromGrammar_tableNulFree h json_nulFree
  intro n hn
  have h1 := C10_tiling _ hc.hasEntry hc.public src text hr t m' ht n hn
  exact ⟨h1.1, C10_in_bounds _ hc.hasEntry hc.public hnf src text hr t m' ht n hn, h1.2,
    C35_derivation_tree order _ tbl names h json_ll1.1 json_nulFree m src text hr t m' ht n hn⟩

theorem sentence_iff_document (text : Str) (h0 : (0 : UInt8) ∉ text) :
    Sentence jsonGrammar text ↔ ∃ v, JsonDocument v text := by
  refine ⟨fun hs => ?_, fun ⟨v, hv⟩ => JsonLex.sentence_of hv⟩
  obtain ⟨tbl, names, h, hst⟩ := fromGrammar_of_runGives json_runGives id
  have hc := fromGrammar_closedTable h
  have hnf := fromGrammar_tableNulFree h json_nulFree
  obtain ⟨t, m', ht⟩ := (C34_decides id _ tbl names h json_nulFree json_ll1 (json_covered hst) [] (.string text)
    text rfl h0).1.1 hs
  obtain ⟨h1, h2, h3⟩ := C12_consumes_all _ hc.hasEntry hc.public hnf (.string text) text rfl h0 t m' ht
  obtain ⟨v, hv, _⟩ := JsonTree.document (json_tree_good h rfl ht) h1
  refine ⟨v, ?_⟩
  simpa [JsonTree.sl, slice, h2, h3] using hv

/-- **C53.** The JSON parser returns on every source; it accepts a NUL-free source iff the text is a JSON
document (in the dialect of `Spec/Json`), otherwise it returns an error. -/
theorem C53_decides (order : Order) (tbl : Table) (names : Names)
    (h : fromGrammar order jsonGrammar = .ok (tbl, names)) (m : Names) (src : Source) :
    (∃ o, (Parser.mk tbl (some m)).Returns src o) ∧
    ∀ text, readSource src = .ok text → (0 : UInt8) ∉ text →
      ((∃ v, JsonDocument v text) ↔ ∃ t m', (Parser.mk tbl (some m)).Returns src (.ok t m')) ∧
      ((¬ ∃ v, JsonDocument v text) ↔ ∃ e, (Parser.mk tbl (some m)).Returns src (.err e)) := by
  refine ⟨C34_terminates order _ tbl names h json_nulFree.start json_ll1 (some m) src, fun text hr h0 => ?_⟩
  rw [← sentence_iff_document text h0]
  exact C34_decides order _ tbl names h json_nulFree json_ll1 (json_covered (json_sameTable h)) m src text hr h0

/-- **C53.** A text is a JSON document for at most one value. -/
theorem C53_unambiguous (v v' : Json) (w : Str) (h : JsonDocument v w) (h' : JsonDocument v' w) : v = v' :=
  JsonUnique.document_unique h h'

/-- A JSON document: `{"a":[1,{"b":""}]}` with some white space. -/
theorem Ex.document : JsonDocument (.object [(b!"a", .array [.number b!"1", .object [(b!"b", .string [])]])])
    b!" {\"a\": [1, {\"b\":\"\"}]}\n" := by
  have sb : ∀ c : UInt8, 97 ≤ c → c ≤ 98 → StringBody [c] := fun c h1 h2 =>
    .plain (UInt8.le_trans (by decide) h1) (UInt8.le_trans h2 (by decide)) (by rintro rfl; revert h1; decide)
      (by rintro rfl; revert h1; decide) .nil
  have n1 : JsonText (.value (.number b!"1")) b!"1" :=
    .number ⟨[], b!"1", [], [], rfl, .inl rfl, .inr ⟨49, [], rfl, by decide, by decide, by simp [Digits]⟩,
      .inl rfl, .inl rfl⟩
  have s0 : JsonText (.value (.string [])) b!"\"\"" := .string .nil
  have ob := JsonText.object (a := []) .nil
    (JsonText.member (a := []) (b := []) (c := []) (sb 98 (by decide) (by decide)) .nil .nil s0 .nil)
  have ar := JsonText.array (JsonText.elements (a := []) (b := []) .nil n1 .nil
    (JsonText.element (a := [32]) (b := []) (.blank .nil) ob .nil))
  exact ⟨[32], _, [10], rfl, .blank .nil, JsonText.object (a := []) .nil
    (JsonText.member (a := []) (b := [32]) (c := []) (sb 97 (by decide) (by decide)) .nil (.blank .nil) ar .nil),
    .lf .nil⟩

theorem Ex.value_begins {v : Json} {x : Str} (h : JsonText (.value v) x) : ∃ c y, x = c :: y ∧ c ≠ 32 ∧ c ≠ 93 := by
  cases h with
  | string _ => exact ⟨_, _, rfl, by decide, by decide⟩
  | number hn =>
    obtain ⟨sg, int, fr, ex, rfl, hs, hi, _⟩ := hn
    have digit : ∀ d : UInt8, IsDigit d → d ≠ 32 ∧ d ≠ 93 := forall_byte (by decide +kernel)
    rcases hs with rfl | rfl
    · rcases hi with rfl | ⟨d, ds, rfl, hd, _⟩
      · exact ⟨_, _, rfl, by decide, by decide⟩
      · exact ⟨d, _, rfl, digit d hd⟩
    · exact ⟨_, _, rfl, by decide, by decide⟩
  | word hw => rcases hw with rfl | rfl | rfl <;> exact ⟨_, _, rfl, by decide, by decide⟩
  | emptyArray => exact ⟨_, _, rfl, by decide, by decide⟩
  | array _ => exact ⟨_, _, rfl, by decide, by decide⟩
  | emptyObject _ => exact ⟨_, _, rfl, by decide, by decide⟩
  | object _ _ => exact ⟨_, _, rfl, by decide, by decide⟩

/-- Not a document: blanks inside an empty array. -/
theorem Ex.not_document : ¬ ∃ v, JsonDocument v b!"[ ]" := by
  rintro ⟨v, a, x, b, he, ha, hx, hb⟩
  cases ha with
  | blank _ => cases he
  | lf _ => cases he
  | crlf _ => cases he
  | nil =>
    rw [List.nil_append] at he
    cases hx with
    | string _ => cases he
    | number hn =>
      obtain ⟨sg, int, fr, ex, rfl, hs, hi, _⟩ := hn
      rcases hs with rfl | rfl
      · rcases hi with rfl | ⟨d, ds, rfl, hd, _⟩
        · cases he
        · simp only [List.nil_append, List.cons_append, List.cons.injEq] at he
          rw [← he.1] at hd
          revert hd; decide
      · cases he
    | word hw => rcases hw with rfl | rfl | rfl <;> cases he
    | emptyArray => cases he
    | emptyObject _ => cases he
    | object _ _ => cases he
    | array h =>
      simp only [List.cons_append, List.cons.injEq, true_and, List.append_assoc] at he
      have key : ∀ a c y r, [32, 93] = a ++ (c :: y ++ r) ++ (93 :: b) → a = [] ∧ c = 32 := by
        intro a c y r h
        have hl := congrArg List.length h
        simp at hl
        have ha : a = [] := List.eq_nil_of_length_eq_zero (by omega)
        subst ha
        simp at h
        exact ⟨rfl, h.1.symm⟩
      cases h with
      | element _ hv _ =>
        obtain ⟨c, y, rfl, h1, _⟩ := Ex.value_begins hv
        exact h1 (key _ c y _ he).2
      | elements _ hv _ _ =>
        obtain ⟨c, y, rfl, h1, _⟩ := Ex.value_begins hv
        exact h1 (key _ c y _ he).2

/-! ## C54: the JSON example program -/

theorem parseFuel_mono {p : Parser} {src : Source} {f g : Nat} {o : Outcome} (h : p.parseFuel f src = some o)
    (hle : f ≤ g) : p.parseFuel g src = some o := by
  unfold Parser.parseFuel at *
  split
  · rename_i h0; simpa [h0] using h
  · rename_i h0
    simp only [h0, if_false] at h
    split
    · rename_i h1; simpa only [h1] using h
    · rename_i h1
      simp only [h1] at h
      split
      · rename_i h2; simpa only [h2] using h
      · rename_i h2
        simp only [h2] at h
        exact runFuel_mono_le h hle

theorem json_parse_cases {order : Order} {tbl : Table} {names : Names}
    (h : fromGrammar order jsonGrammar = .ok (tbl, names)) (m : Names) (text : Str) :
    (∃ v t m', JsonDocument v (text.takeWhile (· ≠ 0)) ∧ (Parser.mk tbl (some m)).Returns (.string text) (.ok t m') ∧
      ∀ s, walk (keyVisitor text) 0 t s = .ok (s ++ keyLines 0 v)) ∨
    ((¬ ∃ v, JsonDocument v (text.takeWhile (· ≠ 0))) ∧ ∃ e, (Parser.mk tbl (some m)).Returns (.string text) (.err e)) := by
  have hc := fromGrammar_closedTable h
  have hnf := fromGrammar_tableNulFree h json_nulFree
  generalize hp : text.takeWhile (· ≠ 0) = pre
  have h0 : (0 : UInt8) ∉ pre := by
    intro hm
    rw [← hp] at hm
    have := List.all_takeWhile (p := fun c : UInt8 => decide (c ≠ 0)) (l := text)
    simpa using List.all_eq_true.1 this _ hm
  have htr : ∀ o, (Parser.mk tbl (some m)).Returns (.string text) o ↔ (Parser.mk tbl (some m)).Returns (.string pre) o := by
    intro o
    have hcat := List.takeWhile_append_dropWhile (p := fun c : UInt8 => decide (c ≠ 0)) (l := text)
    cases hd : text.dropWhile (fun c : UInt8 => decide (c ≠ 0)) with
    | nil => rw [hd, List.append_nil, hp] at hcat; rw [hcat]
    | cons c rest =>
      have hc0 : c = 0 := by
        have := List.head?_dropWhile_not (fun c : UInt8 => decide (c ≠ 0)) text
        rw [hd] at this
        simpa using this
      subst hc0
      rw [hd, hp] at hcat
      rw [← hcat]
      exact (C21_nul_truncates (Parser.mk tbl (some m)) hc.hasEntry hc.public hnf pre rest o).1
  have hdec := (C53_decides order tbl names h m (.string pre)).2 pre rfl h0
  by_cases hv : ∃ v, JsonDocument v pre
  · obtain ⟨t, m', ht⟩ := hdec.1.1 hv
    obtain ⟨h1, h2, h3⟩ := C12_consumes_all _ hc.hasEntry hc.public hnf (.string pre) pre rfl h0 t m' ht
    obtain ⟨v, hv, hpr⟩ := JsonTree.document (json_tree_good h rfl ((htr _).2 ht)) h1
    refine .inl ⟨v, t, m', ?_, (htr _).2 ht, hpr⟩
    have : JsonTree.sl text t = pre := by
      rw [JsonTree.sl, h2, h3]
      have := List.takeWhile_append_dropWhile (p := fun c : UInt8 => decide (c ≠ 0)) (l := text)
      rw [hp] at this
      rw [← this]
      simp [slice]
    rwa [this] at hv
  · obtain ⟨e, he⟩ := hdec.2.1 hv
    exact .inr ⟨hv, e, (htr _).2 he⟩

/-- **C54.** With `json.bnf` (or any other layout of the same grammar) as the BNF file, the example always
ends without a panic.  If the JSON file holds a document — everything from the first NUL byte on is
ignored — it prints the document's keys and exits with 0; if not, it writes the error of the JSON
parser to standard error and exits with 1. -/
theorem C54_json_program (order₁ order₂ : Order) (bnfText : Str) (hb : GrammarText jsonGrammar bnfText)
    (text : Str) :
    (∀ v, JsonDocument v (text.takeWhile (· ≠ 0)) →
      JsonMainEnds order₁ order₂ (.ok bnfText) (.ok text) (.exit (b!"Created table for JSON parser\n" ++
        b!"Parsed successfully\n" ++ b!"JSON key structure:\n" ++ keyLines 0 v) [] 0)) ∧
    ((¬ ∃ v, JsonDocument v (text.takeWhile (· ≠ 0))) →
      ∃ tbl names e, fromGrammar order₂ jsonGrammar = .ok (tbl, names) ∧
      (Parser.mk tbl (some names)).Returns (.string text) (.err e) ∧
      JsonMainEnds order₁ order₂ (.ok bnfText) (.ok text) (.exit b!"Created table for JSON parser\n"
        (b!"ERROR: can't parse JSON text: " ++ e.render ++ b!"\n") 1)) := by
  obtain ⟨tbl, names, h, _⟩ := fromGrammar_of_runGives self_runGives order₁
  obtain ⟨tbl', names', h', _⟩ := fromGrammar_of_runGives json_runGives order₂
  obtain ⟨t, m', ⟨f, hf⟩, ha⟩ := C40_layout order₁ tbl names h names (.string bnfText) bnfText rfl _ hb
  have step : ∀ o, (Parser.mk tbl' (some names')).Returns (.string text) o → ∃ fuel,
      jsonMain fuel order₁ order₂ (.ok bnfText) (.ok text) =
        jsonRun fuel tbl' names' text b!"Created table for JSON parser\n" ∧
      (Parser.mk tbl' (some names')).parseFuel fuel (.string text) = some o := by
    rintro o ⟨f', hf'⟩
    refine ⟨max f f', ?_, parseFuel_mono hf' (Nat.le_max_right ..)⟩
    unfold jsonMain
    simp only [h, parseFuel_mono hf (Nat.le_max_left f f'), ha, h']
  constructor
  · intro v hv
    rcases json_parse_cases h' names' text with ⟨v', t', m'', hv', ht', hw⟩ | ⟨hn, _⟩
    · have := C53_unambiguous _ _ _ hv hv'
      subst this
      obtain ⟨fuel, h1, h2⟩ := step _ ht'
      refine ⟨fuel, ?_⟩
      rw [h1, jsonRun, h2]
      simp only [hw]
      simp
    · exact (hn ⟨v, hv⟩).elim
  · intro hn
    rcases json_parse_cases h' names' text with ⟨v', _, _, hv', _⟩ | ⟨_, e, he⟩
    · exact (hn ⟨v', hv'⟩).elim
    · obtain ⟨fuel, h1, h2⟩ := step _ he
      refine ⟨tbl', names', e, h', he, fuel, ?_⟩
      rw [h1, jsonRun, h2]
      simp [fatalError]

/-- **C54.** If one of the files cannot be read, the example says so and exits with 1. -/
theorem C54_unreadable (order₁ order₂ : Order) (e : Str) (f : Except Str Str) (bnfText : Str) :
    JsonMainEnds order₁ order₂ (.error e) f (.exit [] (b!"ERROR: can't read JSON BNF text: " ++ e ++ b!"\n") 1) ∧
    JsonMainEnds order₁ order₂ (.ok bnfText) (.error e)
      (.exit [] (b!"ERROR: can't read JSON file:  " ++ e ++ b!"\n") 1) :=
  ⟨⟨0, by simp [jsonMain, fatalError]⟩, ⟨0, by simp [jsonMain, fatalError]⟩⟩

/-- **C54.** A run has one result, so there is no other way for it to end. -/
theorem C54_deterministic (order₁ order₂ : Order) (bnfFile jsonFile : Except Str Str) (e e' : End)
    (h : JsonMainEnds order₁ order₂ bnfFile jsonFile e) (h' : JsonMainEnds order₁ order₂ bnfFile jsonFile e') :
    e = e' := by
  obtain ⟨f, hf⟩ := h
  obtain ⟨f', hf'⟩ := h'
  have mono : ∀ {f g e}, jsonMain f order₁ order₂ bnfFile jsonFile = some e → f ≤ g →
      jsonMain g order₁ order₂ bnfFile jsonFile = some e := by
    intro f g e h hle
    have run : ∀ {tbl names text out}, jsonRun f tbl names text out = some e →
        jsonRun g tbl names text out = some e := by
      intro tbl names text out h
      unfold jsonRun at *
      cases hp : (Parser.mk tbl (some names)).parseFuel f (.string text) with
      | none => simp [hp] at h
      | some o => rw [hp] at h; rw [parseFuel_mono hp hle]; exact h
    unfold jsonMain at *
    cases bnfFile with
    | error _ => exact h
    | ok bnf =>
      cases jsonFile with
      | error _ => exact h
      | ok json =>
        simp only at h ⊢
        cases h1 : fromGrammar order₁ selfGrammar with
        | err _ => simpa [h1] using h
        | panic _ => simpa [h1] using h
        | diverge => simp [h1] at h
        | ok r =>
          obtain ⟨tbl, names⟩ := r
          simp only [h1] at h ⊢
          cases hp : (Parser.mk tbl (some names)).parseFuel f (.string bnf) with
          | none => simp [hp] at h
          | some o =>
            rw [hp] at h
            rw [parseFuel_mono hp hle]
            cases o with
            | panic _ => exact h
            | err _ => exact h
            | ok t m =>
              simp only at h ⊢
              cases h2 : selfBindings.toAST t bnf with
              | err _ => simpa [h2] using h
              | panic _ => simpa [h2] using h
              | diverge => simp [h2] at h
              | ok gr =>
                simp only [h2] at h ⊢
                cases h3 : fromGrammar order₂ gr with
                | err _ => simpa [h3] using h
                | panic _ => simpa [h3] using h
                | diverge => simp [h3] at h
                | ok r' =>
                  obtain ⟨tbl', names'⟩ := r'
                  simp only [h3] at h ⊢
                  exact run h
  have h1 := mono hf (Nat.le_max_left f f')
  rw [mono hf' (Nat.le_max_right f f')] at h1
  cases h1
  rfl

/-- Both cases occur: with the shipped `json.bnf`, a document and a text that is none. -/
example (order₁ order₂ : Order) :
    JsonMainEnds order₁ order₂ (.ok jsonBnfText) (.ok b!" {\"a\": [1, {\"b\":\"\"}]}\n")
      (.exit b!"Created table for JSON parser\nParsed successfully\nJSON key structure:\n  a\n      b\n" [] 0) ∧
    ∃ e, JsonMainEnds order₁ order₂ (.ok jsonBnfText) (.ok b!"[ ]")
      (.exit b!"Created table for JSON parser\n" (b!"ERROR: can't parse JSON text: " ++ e ++ b!"\n") 1) :=
  ⟨by
    have h := (C54_json_program order₁ order₂ _ json_grammarText b!" {\"a\": [1, {\"b\":\"\"}]}\n").1 _ Ex.document
    simpa [keyLines, keyLinesMembers, keyLinesElements, blanks, List.replicate] using h,
    have ⟨_, _, e, _, _, h⟩ := (C54_json_program order₁ order₂ _ json_grammarText b!"[ ]").2 Ex.not_document
    ⟨e.render, h⟩⟩

/-! ## C55: the self-parsing example program -/

theorem allEqualAt_iff {α : Type} {eq : α → α → Bool} (h : ∀ x y, eq x y = true ↔ x = y) :
    ∀ {as bs : List α}, as.length = bs.length → (allEqualAt eq as bs = true ↔ as = bs)
  | [], [], _ => by simp [allEqualAt]
  | x :: xs, y :: ys, hl => by
    have ih := allEqualAt_iff h (as := xs) (bs := ys) (by simpa using hl)
    rw [allEqualAt]
    by_cases hxy : x = y
    · subst hxy
      simp [(h x x).2 rfl, ih]
    · have : eq x y = false := by
        cases he : eq x y with
        | false => rfl
        | true => exact (hxy ((h x y).1 he)).elim
      simp [this, hxy]

theorem lists_iff {α : Type} {eq : α → α → Bool} (h : ∀ x y, eq x y = true ↔ x = y) (as bs : List α) :
    (if as.length ≠ bs.length then false else allEqualAt eq as bs) = true ↔ as = bs := by
  by_cases hl : as.length = bs.length
  · simp only [hl, ne_eq, not_true, if_false]
    exact allEqualAt_iff h hl
  · simp only [hl, ne_eq, not_false_eq_true, if_true, Bool.false_eq_true, false_iff]
    exact fun he => hl (by rw [he])

theorem isSymbolsEqual_iff (a b : Symbol) : isSymbolsEqual a b = true ↔ a = b := by
  cases a <;> cases b <;> simp [isSymbolsEqual, isNonTerminalsEqual, isTerminalsEqual]

theorem isSequencesEqual_iff (a b : Sequence) : isSequencesEqual a b = true ↔ a = b := by
  obtain ⟨a⟩ := a
  obtain ⟨b⟩ := b
  rw [isSequencesEqual, lists_iff isSymbolsEqual_iff]
  simp

theorem isSubstitutionsEqual_iff (a b : Substitution) : isSubstitutionsEqual a b = true ↔ a = b := by
  obtain ⟨a⟩ := a
  obtain ⟨b⟩ := b
  rw [isSubstitutionsEqual, lists_iff isSequencesEqual_iff]
  simp

theorem isRulesEqual_iff (a b : Rule) : isRulesEqual a b = true ↔ a = b := by
  obtain ⟨ha, ta⟩ := a
  obtain ⟨hb, tb⟩ := b
  simp only [isRulesEqual, isNonTerminalsEqual, Bool.not_eq_true', decide_eq_false_iff_not, Rule.mk.injEq]
  by_cases h : ha = hb
  · simp [h, isSubstitutionsEqual_iff]
  · simp [h]

/-- **C55.** The comparison in the example is equality of grammars. -/
theorem C55_comparison (a b : Grammar) : isGrammarsEqual a b = true ↔ a = b := by
  obtain ⟨a⟩ := a
  obtain ⟨b⟩ := b
  rw [isGrammarsEqual, lists_iff isRulesEqual_iff]
  simp

def legalNameB : Str → Bool
  | [] => false
  | c :: rest => decide (IsLetter c) && rest.all fun d => decide (IsLetter d ∨ IsDigit d ∨ d = 45)

theorem legalName_of {n : Str} (h : legalNameB n = true) : LegalName n := by
  cases n with
  | nil => cases h
  | cons c rest =>
    simp only [legalNameB, Bool.and_eq_true, decide_eq_true_eq, List.all_eq_true] at h
    exact ⟨c, rest, rfl, h.1, h.2⟩

def legalSymbolB : Symbol → Bool
  | .nonTerminal n => legalNameB n
  | .terminal t => !t.isEmpty && t.all fun c => decide (IsText c)
  | .nothing => true

theorem legalSymbol_of {y : Symbol} (h : legalSymbolB y = true) : LegalSymbol y := by
  cases y with
  | nonTerminal n => exact legalName_of h
  | terminal t =>
    simp only [legalSymbolB, Bool.and_eq_true, Bool.not_eq_true', List.isEmpty_eq_false_iff, List.all_eq_true,
      decide_eq_true_eq] at h
    exact h
  | nothing => trivial

def legalB (g : Grammar) : Bool :=
  !g.rules.isEmpty && g.rules.all fun r => legalNameB r.head && (!r.tail.sequences.isEmpty &&
    r.tail.sequences.all fun s => !s.symbols.isEmpty && s.symbols.all legalSymbolB)

theorem legal_of {g : Grammar} (h : legalB g = true) : g.Legal := by
  simp only [legalB, Bool.and_eq_true, Bool.not_eq_true', List.isEmpty_eq_false_iff, List.all_eq_true] at h
  exact ⟨h.1, fun r hr => legalName_of (h.2 r hr).1, fun r hr => (h.2 r hr).2.1,
    fun r hr s hs => ⟨((h.2 r hr).2.2 s hs).1, fun y hy => legalSymbol_of (((h.2 r hr).2.2 s hs).2 y hy)⟩⟩

/-- **C55.** `SelfGrammar()` and the JSON grammar can be written in BNF. -/
theorem C55_legal : selfGrammar.Legal ∧ jsonGrammar.Legal :=
  ⟨legal_of (by decide +kernel), legal_of (by decide +kernel)⟩

/-- **C55.** The example always reports success: the grammar read back from the printed `SelfGrammar()` is
`SelfGrammar()`. -/
theorem C55_program (order : Order) : OwnSyntaxMainEnds order (.exit b!"Resulted AST equal to initial\n" [] 0) ∧
    ∀ e, OwnSyntaxMainEnds order e → e = .exit b!"Resulted AST equal to initial\n" [] 0 := by
  obtain ⟨tbl, names, h, _⟩ := fromGrammar_of_runGives self_runGives order
  obtain ⟨t, m', ⟨f, hf⟩, ha⟩ := C39_round_trip order tbl names h names selfGrammar C55_legal.1
  have hend : ∀ g, f ≤ g → ownSyntaxMain g order = some (.exit b!"Resulted AST equal to initial\n" [] 0) := by
    intro g hg
    unfold ownSyntaxMain
    simp only [h, parseFuel_mono hf hg, ha, (C55_comparison selfGrammar selfGrammar).2 rfl]
    rfl
  refine ⟨⟨f, hend f (Nat.le_refl _)⟩, ?_⟩
  rintro e ⟨f', hf'⟩
  by_cases hle : f ≤ f'
  · rw [hend f' hle] at hf'
    cases hf'
    rfl
  · have := hend f (Nat.le_refl _)
    unfold ownSyntaxMain at hf'
    simp only [h] at hf'
    cases hp : (Parser.mk tbl (some names)).parseFuel f' (.string selfGrammar.toStr) with
    | none => simp [hp] at hf'
    | some o =>
      have := parseFuel_mono hp (Nat.le_of_not_le hle)
      rw [hf] at this
      cases this
      simp only [hp, ha, (C55_comparison selfGrammar selfGrammar).2 rfl] at hf'
      simpa using hf'.symm

end LL1
