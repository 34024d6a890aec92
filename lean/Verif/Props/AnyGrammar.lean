import Verif.Props.Examples
import Verif.Props.Truth
import Verif.Props.Stdout
import Verif.Spec.AnyGrammar

/-!
# C77: the JSON example with an arbitrary grammar file
-/

namespace LL1
open Prog
open FC (selfBindings)

theorem legal_alt {g : Grammar} (hl : g.Legal) {i : Nat} {alt : Sequence} (ha : g.Alt i alt) :
    alt.symbols ≠ [] ∧ ∀ y ∈ alt.symbols, LegalSymbol y := by
  obtain ⟨r, hr, hs⟩ := ha
  exact hl.symbols r (List.mem_of_getElem? hr) alt hs

theorem legal_nulFree {g : Grammar} (hl : g.Legal) : g.NulFree := by
  intro i alt t ha ht h0
  have := ((legal_alt hl ha).2 _ ht).2 _ h0
  revert this
  decide

theorem takeWhile_cases (text : Str) : ((0 : UInt8) ∉ text ∧ text.takeWhile (· ≠ 0) = text) ∨
    ∃ v, text = text.takeWhile (· ≠ 0) ++ 0 :: v ∧ (0 : UInt8) ∉ text.takeWhile (· ≠ 0) := by
  have h0 : (0 : UInt8) ∉ text.takeWhile (· ≠ 0) := by
    intro hm
    have := List.all_takeWhile (p := fun c : UInt8 => decide (c ≠ 0)) (l := text)
    simpa using List.all_eq_true.1 this _ hm
  have hcat := List.takeWhile_append_dropWhile (p := fun c : UInt8 => decide (c ≠ 0)) (l := text)
  cases hd : text.dropWhile (fun c : UInt8 => decide (c ≠ 0)) with
  | nil =>
    rw [hd, List.append_nil] at hcat
    exact .inl ⟨hcat ▸ h0, hcat⟩
  | cons c rest =>
    have hc0 : c = 0 := by
      have := List.head?_dropWhile_not (fun c : UInt8 => decide (c ≠ 0)) text
      rw [hd] at this
      simpa using this
    subst hc0
    rw [hd] at hcat
    exact .inr ⟨rest, hcat.symm, h0⟩

theorem bnf_parse_cases {order : Order} {tbl : Table} {names : Names}
    (h : fromGrammar order selfGrammar = .ok (tbl, names)) (m : Names) (text : Str) :
    (∃ g t m', GrammarText g (text.takeWhile (· ≠ 0)) ∧ g.Legal ∧
      (Parser.mk tbl (some m)).Returns (.string text) (.ok t m') ∧ selfBindings.toAST t text = .ok g) ∨
    ((¬ ∃ g, GrammarText g (text.takeWhile (· ≠ 0))) ∧
      ∃ e, (Parser.mk tbl (some m)).Returns (.string text) (.err e)) := by
  have hc := fromGrammar_closedTable h
  have hnf := self_nulFreeTable order tbl names h
  obtain ⟨o, ho⟩ := (C45_decides order tbl names h m (.string text)).1
  have key : ∀ t m', o = .ok t m' → ∃ g, GrammarText g (text.takeWhile (· ≠ 0)) ∧ g.Legal ∧
      selfBindings.toAST t text = .ok g := by
    rintro t m' rfl
    obtain ⟨g, h1, h2, h3, h4⟩ := C41_accepted_converts order tbl names h m (.string text) text rfl t m' ho
    refine ⟨g, ?_, h2, h1⟩
    rcases takeWhile_cases text with ⟨h0, e⟩ | ⟨v, e, h0⟩
    · rw [e]; exact h3 h0
    · exact h4 _ v e h0
  rcases C08_no_panic tbl m hc.public (.string text) o ho with ⟨t, m', rfl⟩ | ⟨e, rfl, -⟩
  · obtain ⟨g, h1, h2, h3⟩ := key t m' rfl
    exact .inl ⟨g, t, m', h1, h2, ho, h3⟩
  · refine .inr ⟨?_, e, ho⟩
    rintro ⟨g, hg⟩
    obtain ⟨t, m', ht, _⟩ := C40_layout order tbl names h m (.string (text.takeWhile (· ≠ 0))) _ rfl g hg
    have ht' : (Parser.mk tbl (some m)).Returns (.string text) (.ok t m') := by
      rcases takeWhile_cases text with ⟨h0, e⟩ | ⟨v, e, h0⟩
      · rwa [e] at ht
      · rw [e]
        exact (C21_nul_truncates (Parser.mk tbl (some m)) hc.hasEntry hc.public hnf _ v (.ok t m')).1.2 ht
    have := returns_det ht' ho
    cases this

/-! ## The key printer on an arbitrary tree -/

theorem indent_eq (n : Nat) : indent n = List.replicate (2 * n) 32 := by
  induction n with
  | zero => rfl
  | succ n ih => rw [indent, ih, Nat.mul_add, Nat.add_comm, ← List.replicate_append_replicate]; rfl

mutual
theorem KeyLines.unique {text : Str} : ∀ {lv : Nat} {n : Node} {a b : Str}, KeyLines text lv n a → KeyLines text lv n b → a = b
  | _, _, _, _, .skipped h, .skipped _ => rfl
  | _, _, _, _, .skipped h, .key h' _ _ _ => by omega
  | _, _, _, _, .skipped h, .deeper h' _ => by omega
  | _, _, _, _, .skipped h, .same h' _ _ => by omega
  | _, _, _, _, .key h _ _ _, .skipped h' => by omega
  | _, _, _, _, .key h h1 h2 h3, .key _ h1' h2' h3' => by
    rw [h1] at h1'; cases h1'
    rw [h2] at h2'; cases h2'
    rw [KeyLinesAll.unique h3 h3']
  | _, _, _, _, .key h _ _ _, .deeper h' _ => by omega
  | _, _, _, _, .key h _ _ _, .same _ h' _ => (h' h).elim
  | _, _, _, _, .deeper h _, .skipped h' => by omega
  | _, _, _, _, .deeper h _, .key h' _ _ _ => by omega
  | _, _, _, _, .deeper _ h, .deeper _ h' => KeyLinesAll.unique h h'
  | _, _, _, _, .deeper h _, .same h' _ _ => by omega
  | _, _, _, _, .same h _ _, .skipped h' => by omega
  | _, _, _, _, .same _ h _, .key h' _ _ _ => (h h').elim
  | _, _, _, _, .same h _ _, .deeper h' _ => by omega
  | _, _, _, _, .same _ _ h, .same _ _ h' => KeyLinesAll.unique h h'
theorem KeyLinesAll.unique {text : Str} : ∀ {lv : Nat} {ns : List Node} {a b : Str}, KeyLinesAll text lv ns a →
    KeyLinesAll text lv ns b → a = b
  | _, _, _, _, .nil, .nil => rfl
  | _, _, _, _, .cons h1 h2, .cons h1' h2' => by rw [KeyLines.unique h1 h1', KeyLinesAll.unique h2 h2']
end

mutual
theorem KeyLines.notBefore {text : Str} : ∀ {lv : Nat} {n : Node} {a b : Str}, KeyLines text lv n a → LinesBefore text lv n b → False
  | _, _, _, _, .skipped h, .here h' _ => by omega
  | _, _, _, _, .skipped h, .key h' _ _ _ => by omega
  | _, _, _, _, .skipped h, .deeper h' _ => by omega
  | _, _, _, _, .skipped h, .same h' _ _ => by omega
  | _, _, _, _, .key _ h1 h2 _, .here _ h' => h' ⟨_, _, h1, h2⟩
  | _, _, _, _, .key _ _ _ h, .key _ _ _ h' => KeyLinesAll.notBefore h h'
  | _, _, _, _, .key h _ _ _, .deeper h' _ => by omega
  | _, _, _, _, .key h _ _ _, .same _ h' _ => (h' h).elim
  | _, _, _, _, .deeper h _, .here h' _ => by omega
  | _, _, _, _, .deeper h _, .key h' _ _ _ => by omega
  | _, _, _, _, .deeper _ h, .deeper _ h' => KeyLinesAll.notBefore h h'
  | _, _, _, _, .deeper h _, .same h' _ _ => by omega
  | _, _, _, _, .same _ h _, .here h' _ => (h h').elim
  | _, _, _, _, .same _ h _, .key h' _ _ _ => (h h').elim
  | _, _, _, _, .same h _ _, .deeper h' _ => by omega
  | _, _, _, _, .same _ _ h, .same _ _ h' => KeyLinesAll.notBefore h h'
theorem KeyLinesAll.notBefore {text : Str} : ∀ {lv : Nat} {ns : List Node} {a b : Str}, KeyLinesAll text lv ns a →
    LinesBeforeIn text lv ns b → False
  | _, _, _, _, .nil, h => by cases h
  | _, _, _, _, .cons h1 _, .first h' => KeyLines.notBefore h1 h'
  | _, _, _, _, .cons _ h2, .later _ h' => KeyLinesAll.notBefore h2 h'
end

mutual
theorem LinesBefore.unique {text : Str} : ∀ {lv : Nat} {n : Node} {a b : Str}, LinesBefore text lv n a →
    LinesBefore text lv n b → a = b
  | _, _, _, _, .here _ _, .here _ _ => rfl
  | _, _, _, _, .here _ h, .key _ h1 h2 _ => (h ⟨_, _, h1, h2⟩).elim
  | _, _, _, _, .here h _, .deeper h' _ => by omega
  | _, _, _, _, .here h _, .same _ h' _ => (h' h).elim
  | _, _, _, _, .key _ h1 h2 _, .here _ h => (h ⟨_, _, h1, h2⟩).elim
  | _, _, _, _, .key h h1 h2 h3, .key _ h1' h2' h3' => by
    rw [h1] at h1'; cases h1'
    rw [h2] at h2'; cases h2'
    rw [LinesBeforeIn.unique h3 h3']
  | _, _, _, _, .key h _ _ _, .deeper h' _ => by omega
  | _, _, _, _, .key h _ _ _, .same _ h' _ => (h' h).elim
  | _, _, _, _, .deeper h _, .here h' _ => by omega
  | _, _, _, _, .deeper h _, .key h' _ _ _ => by omega
  | _, _, _, _, .deeper _ h, .deeper _ h' => LinesBeforeIn.unique h h'
  | _, _, _, _, .deeper h _, .same h' _ _ => by omega
  | _, _, _, _, .same _ h _, .here h' _ => (h h').elim
  | _, _, _, _, .same _ h _, .key h' _ _ _ => (h h').elim
  | _, _, _, _, .same h _ _, .deeper h' _ => by omega
  | _, _, _, _, .same _ _ h, .same _ _ h' => LinesBeforeIn.unique h h'
theorem LinesBeforeIn.unique {text : Str} : ∀ {lv : Nat} {ns : List Node} {a b : Str}, LinesBeforeIn text lv ns a →
    LinesBeforeIn text lv ns b → a = b
  | _, _, _, _, .first h, .first h' => LinesBefore.unique h h'
  | _, _, _, _, .first h, .later h' _ => (KeyLines.notBefore h' h).elim
  | _, _, _, _, .later h _, .first h' => (KeyLines.notBefore h h').elim
  | _, _, _, _, .later h1 h2, .later h1' h2' => by rw [KeyLines.unique h1 h1', LinesBeforeIn.unique h2 h2']
end

mutual
theorem keyWalk (text : Str) : ∀ (n : Node) (level : Nat) (s : Str),
    (∀ m ∈ preorder n, m.pos ≤ m.stop ∧ m.stop ≤ text.length) →
    ((∃ out, walk (keyVisitor text) level n s = .ok (s ++ out) ∧ KeyLines text level n out) ∧ ∀ m, LookedAt n m → m.type = 6 → HasKey m) ∨
    ((∃ out p, walk (keyVisitor text) level n s = .error (s ++ out, p) ∧ LinesBefore text level n out) ∧ ∃ m, LookedAt n m ∧ m.type = 6 ∧ ¬ HasKey m)
  | .mk t p e cs, level, s, hb => by
    have hroot : ∀ m, LookedAt (.mk t p e cs) m → m = .mk t p e cs ∨ (t ≤ 10 ∧ ∃ c ∈ cs, LookedAt c m) := by
      intro m h
      cases h with
      | root => exact .inl rfl
      | child h1 h2 h3 => exact .inr ⟨h1, _, h2, h3⟩
    have hcs : ∀ c ∈ cs, ∀ m ∈ preorder c, m.pos ≤ m.stop ∧ m.stop ≤ text.length := by
      intro c hc m hm
      refine hb m ?_
      rw [preorder]
      exact .tail _ (List.mem_flatten.2 ⟨_, List.mem_map.2 ⟨c, hc, rfl⟩, hm⟩)
    have go : ∀ lv line, t ≤ 10 → (t = 6 → HasKey (.mk t p e cs)) →
        (keyVisitor text).visit level (.mk t p e cs) s = .ok (s ++ line, some lv) →
        (∀ o, KeyLinesAll text lv cs o → KeyLines text level (.mk t p e cs) (line ++ o)) →
        (∀ o, LinesBeforeIn text lv cs o → LinesBefore text level (.mk t p e cs) (line ++ o)) →
        ((∃ out, walk (keyVisitor text) level (.mk t p e cs) s = .ok (s ++ out) ∧ KeyLines text level (.mk t p e cs) out) ∧
          ∀ m, LookedAt (.mk t p e cs) m → m.type = 6 → HasKey m) ∨
        ((∃ out p', walk (keyVisitor text) level (.mk t p e cs) s = .error (s ++ out, p') ∧
            LinesBefore text level (.mk t p e cs) out) ∧
          ∃ m, LookedAt (.mk t p e cs) m ∧ m.type = 6 ∧ ¬ HasKey m) := by
      intro lv line ht hk hv hline hbef
      rcases keyWalkList text cs lv (s ++ line) hcs with ⟨⟨o, h3, hko⟩, h4⟩ | ⟨⟨o, p', h3, hko⟩, c, hc, m, hl, hm⟩
      · refine .inl ⟨⟨line ++ o, by simp [walk, hv, h3], hline o hko⟩, fun m hm h6 => ?_⟩
        rcases hroot m hm with rfl | ⟨_, c, hc, hl⟩
        · exact hk h6
        · exact h4 c hc m hl h6
      · exact .inr ⟨⟨line ++ o, p', by simp [walk, hv, h3], hbef o hko⟩, m, .child ht hc hl, hm⟩
    by_cases ht : t > 10
    · refine .inl ⟨⟨[], by
        simp only [walk]
        have hv : (keyVisitor text).visit level (.mk t p e cs) s = .ok (s, none) := by
          simp only [keyVisitor, Node.type_mk, ht, if_true]
        rw [hv, List.append_nil], .skipped ht⟩, fun m hm h6 => ?_⟩
      rcases hroot m hm with rfl | ⟨h, _⟩
      · simp only [Node.type] at h6; omega
      · omega
    · have ht' : t ≤ 10 := by omega
      by_cases h6 : t = 6
      · have err : ∀ pn, keyNode (.mk t p e cs) = .error pn → ¬ HasKey (.mk t p e cs) := by
          rintro pn hk ⟨c, d, h1, h2⟩
          rw [keyNode, h1] at hk
          simp only [h2] at hk
          cases hk
        cases hk : keyNode (.mk t p e cs) with
        | error pn =>
          exact .inr ⟨⟨[], pn, by
            simp only [walk]
            have hv : (keyVisitor text).visit level (.mk t p e cs) s = .error (s, pn) := by
              subst h6
              simp [keyVisitor, hk]
            rw [hv, List.append_nil], .here h6 (err _ hk)⟩, _, .root, h6, err _ hk⟩
        | ok d =>
          have hd : ∃ c, cs[0]? = some c ∧ c.childs[1]? = some d := by
            simp only [keyNode, Node.childs] at hk
            split at hk
            · cases hk
            · next c h1 =>
              split at hk
              · cases hk
              · next d' h2 => cases hk; exact ⟨c, h1, h2⟩
          obtain ⟨c, h1, h2⟩ := hd
          have hin : d.pos ≤ d.stop ∧ d.stop ≤ text.length := by
            refine hcs c (List.mem_of_getElem? h1) d ?_
            cases c with
            | mk t' p' e' cs' =>
              cases d with
              | mk t2 p2 e2 cs2 =>
                rw [preorder]
                refine .tail _ (List.mem_flatten.2 ⟨_, List.mem_map.2 ⟨_, List.mem_of_getElem? h2, rfl⟩, ?_⟩)
                rw [preorder]
                exact .head _
          refine go (nextLevel level t) (indent level ++ ((text.drop d.pos).take (d.stop - d.pos) ++ [10])) ht'
            (fun _ => ⟨c, d, h1, h2⟩) ?_ ?_ ?_
          · subst h6
            simp [keyVisitor, hk, sliceText, hin]
          · intro o ho
            have hlv : nextLevel level t = level := by subst h6; rfl
            rw [hlv] at ho
            have := KeyLines.key (text := text) (lv := level) (n := .mk t p e cs) h6 h1 h2 ho
            rw [indent_eq]
            simpa using this
          · intro o ho
            have hlv : nextLevel level t = level := by subst h6; rfl
            rw [hlv] at ho
            have := LinesBefore.key (text := text) (lv := level) (n := .mk t p e cs) h6 h1 h2 ho
            rw [indent_eq]
            simpa using this
      · refine go (nextLevel level t) [] ht' (fun h => (h6 h).elim) ?_ ?_ ?_
        · simp only [keyVisitor, Node.type_mk, ht, h6, if_false, List.append_nil]
        · intro o ho
          by_cases h9 : t = 9 ∨ t = 10
          · have hlv : nextLevel level t = level + 1 := by simp [nextLevel, h9]
            rw [hlv] at ho
            exact .deeper h9 ho
          · have hlv : nextLevel level t = level := by simp [nextLevel, h9]
            rw [hlv] at ho
            exact .same (show t ≤ 8 by omega) h6 ho
        · intro o ho
          by_cases h9 : t = 9 ∨ t = 10
          · have hlv : nextLevel level t = level + 1 := by simp [nextLevel, h9]
            rw [hlv] at ho
            exact .deeper h9 ho
          · have hlv : nextLevel level t = level := by simp [nextLevel, h9]
            rw [hlv] at ho
            exact .same (show t ≤ 8 by omega) h6 ho
theorem keyWalkList (text : Str) : ∀ (cs : List Node) (level : Nat) (s : Str),
    (∀ c ∈ cs, ∀ m ∈ preorder c, m.pos ≤ m.stop ∧ m.stop ≤ text.length) →
    ((∃ out, walkList (keyVisitor text) level cs s = .ok (s ++ out) ∧ KeyLinesAll text level cs out) ∧
      ∀ c ∈ cs, ∀ m, LookedAt c m → m.type = 6 → HasKey m) ∨
    ((∃ out p, walkList (keyVisitor text) level cs s = .error (s ++ out, p) ∧ LinesBeforeIn text level cs out) ∧ ∃ c ∈ cs, ∃ m, LookedAt c m ∧ m.type = 6 ∧ ¬ HasKey m)
  | [], level, s, _ => .inl ⟨⟨[], by simp [walkList], .nil⟩, fun _ h => (by cases h)⟩
  | c :: cs, level, s, hb => by
    rcases keyWalk text c level s (hb c (.head _)) with ⟨⟨o, h1, hk1⟩, h2⟩ | ⟨⟨o, p, h1, hk1⟩, m, hm⟩
    · rcases keyWalkList text cs level (s ++ o) (fun c hc => hb c (.tail _ hc)) with ⟨⟨o', h3, hk2⟩, h4⟩ | ⟨⟨o', p, h3, hk2⟩, c', hc', hm⟩
      · refine .inl ⟨⟨o ++ o', by simp [walkList, h1, h3], .cons hk1 hk2⟩, fun c' hc' => ?_⟩
        rcases List.mem_cons.1 hc' with rfl | hc'
        · exact h2
        · exact h4 c' hc'
      · exact .inr ⟨⟨o ++ o', p, by simp [walkList, h1, h3], .later hk1 hk2⟩, c', .tail _ hc', hm⟩
    · exact .inr ⟨⟨o, p, by simp [walkList, h1], .first hk1⟩, c, .head _, m, hm⟩
end

/-! ## The program -/

/-- **C77.** Whatever the two files hold.  If the grammar file (up to its first NUL byte) is no grammar text, the program
says so and exits with 1.  If it is the text of a grammar, then `FromGrammar` accepts the grammar, or the program prints
the cell `FromGrammar` prints (C64), gives a reason that is true of the grammar and exits with 1, or it panics, which
needs an empty-string symbol beside other symbols. -/
theorem C77_grammar_file (order₁ order₂ : Order) (bnf json : Str) :
    ((¬ ∃ g, GrammarText g (bnf.takeWhile (· ≠ 0))) →
      ∃ tbl names e, fromGrammar order₁ selfGrammar = .ok (tbl, names) ∧
      (Parser.mk tbl (some names)).Returns (.string bnf) (.err e) ∧ JsonMainEnds order₁ order₂ (.ok bnf) (.ok json)
      (.exit [] (b!"ERROR: can't parse JSON BNF text: " ++ e.render ++ b!"\n") 1)) ∧
    (∀ g, GrammarText g (bnf.takeWhile (· ≠ 0)) →
      (∃ tbl names, fromGrammar order₂ g = .ok (tbl, names)) ∨
      (∃ msg, Reason g msg ∧ JsonMainEnds order₁ order₂ (.ok bnf) (.ok json)
        (.exit (fromGrammarOut order₂ g).1
          (b!"ERROR: can't build parser table from JSON grammar: " ++ msg ++ b!"\n") 1)) ∨
      ((∃ i alt, g.Alt i alt ∧ .nothing ∈ alt.symbols ∧ alt.symbols ≠ [.nothing]) ∧
        JsonMainEnds order₁ order₂ (.ok bnf) (.ok json) (.panic []))) := by
  obtain ⟨tbl, names, h, _⟩ := fromGrammar_of_runGives self_runGives order₁
  rcases bnf_parse_cases h names bnf with ⟨g, t, m', hg, hl, ⟨f, hf⟩, ha⟩ | ⟨hn, e, ⟨f, hf⟩⟩
  · refine ⟨fun hn => (hn ⟨g, hg⟩).elim, fun g' hg' => ?_⟩
    obtain rfl := C40_unambiguous order₁ tbl names h _ g g' hg hg'
    have hno : ∀ i alt, g.Alt i alt → .terminal [] ∉ alt.symbols := fun i alt ha ht => ((legal_alt hl ha).2 _ ht).1 rfl
    cases hr : fromGrammar order₂ g with
    | ok r => exact .inl ⟨r.1, r.2, rfl⟩
    | diverge =>
      rcases C22_terminates order₂ g with ⟨_, _, h'⟩ | ⟨_, h'⟩ | ⟨_, h'⟩ <;> (rw [hr] at h'; cases h')
    | panic p =>
      have hout : (fromGrammarOut order₂ g).1 = [] := by
        have := (C64_prints_iff_conflict order₂ g).1
        rw [hr] at this
        simpa using this
      refine .inr (.inr ⟨?_, f, by simp [jsonMain, h, hf, ha, hr, hout]⟩)
      rcases C76_panics_true order₂ g p hr with ⟨_, h0 | ⟨i, alt, ha, ht⟩⟩ | ⟨_, h2⟩
      · exact (hl.rules h0).elim
      · exact (hno i alt ha ht).elim
      · exact h2
    | err e =>
      refine .inr (.inl ⟨tgError e, ?_, f, by simp [jsonMain, h, hf, ha, hr, fatalError]⟩)
      have hc := C76_errors_true order₂ g e hr
      cases e with
      | nothingNotAlone => obtain ⟨i, alt, h1, h2, h3⟩ := hc; exact .nothingNotAlone h1 h2 h3
      | undefined name => obtain ⟨⟨i, alt, h1, h2⟩, h3⟩ := hc; exact .undefined h1 h2 h3
      | ruleIndex => exact hc.elim
      | emptyTerminal => obtain ⟨i, alt, h1, h2⟩ := hc; exact (hno i alt h1 h2).elim
      | emptySequence => obtain ⟨i, alt, h1, h2⟩ := hc; exact ((legal_alt hl h1).1 h2).elim
      | conflict => obtain ⟨i, hi⟩ := hc; exact .conflict ((TG.rclash_iff (legal_nulFree hl).start i).1 hi)
  · exact ⟨fun _ => ⟨tbl, names, e, h, ⟨f, hf⟩, f, by simp [jsonMain, h, hf, fatalError]⟩, fun g hg => (hn ⟨g, hg⟩).elim⟩

/-- **C77.** With the text of a grammar `FromGrammar` accepts, the program does what the parser for that grammar does: it
does not end if the parser does not return; it reports the parser's error and exits with 1; and if the parser accepts, it
writes the lines for the tree (`KeyLines`, which determines them: `KeyLines.unique`) and exits with 0, or it panics.  It
panics exactly when there is a node of type 6 it looks at that has no `Childs()[0].Childs()[1]`, after writing the lines
for everything before the first such node (`LinesBefore`, which determines them: `LinesBefore.unique`). -/
theorem C77_json_file (order₁ order₂ : Order) (bnf json : Str) (g : Grammar)
    (hg : GrammarText g (bnf.takeWhile (· ≠ 0))) (tbl : Table) (names : Names)
    (hok : fromGrammar order₂ g = .ok (tbl, names)) :
    ((¬ ∃ o, (Parser.mk tbl (some names)).Returns (.string json) o) →
      ¬ ∃ e, JsonMainEnds order₁ order₂ (.ok bnf) (.ok json) e) ∧
    (∀ e, (Parser.mk tbl (some names)).Returns (.string json) (.err e) →
      JsonMainEnds order₁ order₂ (.ok bnf) (.ok json) (.exit b!"Created table for JSON parser\n"
        (b!"ERROR: can't parse JSON text: " ++ e.render ++ b!"\n") 1)) ∧
    (∀ t m, (Parser.mk tbl (some names)).Returns (.string json) (.ok t m) →
      ((∀ n, LookedAt t n → n.type = 6 → HasKey n) → ∃ lines, KeyLines json 0 t lines ∧
        JsonMainEnds order₁ order₂ (.ok bnf) (.ok json)
        (.exit (b!"Created table for JSON parser\nParsed successfully\nJSON key structure:\n" ++ lines) [] 0)) ∧
      ((∃ n, LookedAt t n ∧ n.type = 6 ∧ ¬ HasKey n) → ∃ lines, LinesBefore json 0 t lines ∧
        JsonMainEnds order₁ order₂ (.ok bnf) (.ok json)
        (.panic (b!"Created table for JSON parser\nParsed successfully\nJSON key structure:\n" ++ lines)))) := by
  obtain ⟨tbl₁, names₁, h, _⟩ := fromGrammar_of_runGives self_runGives order₁
  rcases bnf_parse_cases h names₁ bnf with ⟨g', t, m', hg', hl, ⟨f, hf⟩, ha⟩ | ⟨hn, _⟩
  · obtain rfl := C40_unambiguous order₁ tbl₁ names₁ h _ g g' hg hg'
    have hc := fromGrammar_closedTable hok
    have hnf := fromGrammar_tableNulFree hok (legal_nulFree hl)
    have step : ∀ o, (Parser.mk tbl (some names)).Returns (.string json) o → ∃ fuel,
        jsonMain fuel order₁ order₂ (.ok bnf) (.ok json) =
          jsonRun fuel tbl names json b!"Created table for JSON parser\n" ∧
        (Parser.mk tbl (some names)).parseFuel fuel (.string json) = some o := by
      rintro o ⟨f', hf'⟩
      refine ⟨max f f', ?_, parseFuel_mono hf' (Nat.le_max_right ..)⟩
      unfold jsonMain
      simp only [h, parseFuel_mono hf (Nat.le_max_left f f'), ha, hok]
    refine ⟨?_, ?_, ?_⟩
    · rintro hn ⟨e, fuel, he⟩
      unfold jsonMain at he
      simp only [h] at he
      cases hp : (Parser.mk tbl₁ (some names₁)).parseFuel fuel (.string bnf) with
      | none => simp [hp] at he
      | some o =>
        have := returns_det ⟨fuel, hp⟩ ⟨f, hf⟩
        subst this
        simp only [hp, ha, hok, jsonRun] at he
        cases hq : (Parser.mk tbl (some names)).parseFuel fuel (.string json) with
        | none => simp [hq] at he
        | some o => exact hn ⟨o, fuel, hq⟩
    · intro e he
      obtain ⟨fuel, h1, h2⟩ := step _ he
      exact ⟨fuel, by rw [h1, jsonRun, h2]; simp [fatalError]⟩
    · intro tr m ht
      obtain ⟨fuel, h1, h2⟩ := step _ ht
      have hb : ∀ n ∈ preorder tr, n.pos ≤ n.stop ∧ n.stop ≤ json.length := fun n hn =>
        ⟨(C10_tiling _ hc.hasEntry hc.public (.string json) json rfl tr m ht n hn).1,
          C10_in_bounds _ hc.hasEntry hc.public hnf (.string json) json rfl tr m ht n hn⟩
      have hk := keyWalk json tr 0
        (b!"Created table for JSON parser\n" ++ (b!"Parsed successfully\n" ++ b!"JSON key structure:\n")) hb
      rcases hk with ⟨⟨out, hw, hkl⟩, hall⟩ | ⟨⟨out, p, hw, hkl⟩, hex⟩
      · refine ⟨fun _ => ⟨out, hkl, fuel, ?_⟩, fun ⟨n, a, b, c⟩ => (c (hall n a b)).elim⟩
        rw [h1, jsonRun, h2]
        simp only [hw]
        simp
      · refine ⟨fun hall => ?_, fun _ => ⟨out, hkl, fuel, ?_⟩⟩
        · obtain ⟨n, a, b, c⟩ := hex
          exact (c (hall n a b)).elim
        · rw [h1, jsonRun, h2]
          simp only [hw]
          simp
  · exact (hn ⟨g, hg⟩).elim

set_option maxHeartbeats 8000000 in
/-- Runs of the program. -/
theorem anyGrammar_runs :
    jsonMain 1000 id id (.ok b!"<s> = \"a\"") (.ok b!"a") = some
      (.exit [] (b!"ERROR: can't parse JSON BNF text: " ++
        b!"no rules for '=' (61) and non terminal op <opt-whitespace>\n") 1) ∧
    jsonMain 1000 id id (.ok b!"<s> ::= \"a\" <t>") (.ok b!"a") = some
      (.exit []
      b!"ERROR: can't build parser table from JSON grammar: no rules defined for non terminal <t>\n" 1) ∧
    jsonMain 1000 id id (.ok b!"<s> ::= <t> \"a\"\n<t> ::= \"a\" | \"\"") (.ok b!"a") = some (.exit b!"[{a}]\n"
      (b!"ERROR: can't build parser table from JSON grammar: " ++
        b!"grammar lead to multiple parser op sets per table cell\n") 1) ∧
    jsonMain 1000 id id (.ok b!"<s> ::= \"\" \"a\"") (.ok b!"a") = some (.exit []
      b!"ERROR: can't build parser table from JSON grammar: empty string is not a single sequence symbol\n" 1) ∧
    jsonMain 1000 id id (.ok b!"<s> ::= \"a\" \"\"") (.ok b!"a") = some (.panic []) ∧
    jsonMain 1000 id id (.ok b!"<s> ::= \"a\"") (.ok b!"a") = some (.exit
      b!"Created table for JSON parser\nParsed successfully\nJSON key structure:\n" [] 0) ∧
    jsonMain 1000 id id (.ok b!"<s> ::= \"a\"") (.ok b!"b") = some (.exit b!"Created table for JSON parser\n"
      b!"ERROR: can't parse JSON text: no rules for 'b' (98) and non terminal op <s>\n" 1) ∧
    jsonMain 3000 id id (.ok (b!"<a> ::= <g>\n<b> ::= \"b\"\n<c> ::= \"c\"\n<d> ::= \"d\"\n<e> ::= \"e\"\n" ++
      b!"<f> ::= \"f\"\n<g> ::= \"g\"")) (.ok b!"g") = some (.panic b!"Created table for JSON parser\nParsed successfully\nJSON key structure:\n") := by decide +kernel

/-- **C77.** All of this occurs: no grammar text; an undefined name; a clash (with the printed cell); a misplaced
empty-string symbol, reported or panicking; a grammar whose parser accepts the JSON text, one that rejects it, and one
whose trees make the key printer panic. -/
theorem C77_witness :
    JsonMainEnds id id (.ok b!"<s> = \"a\"") (.ok b!"a") (.exit [] (b!"ERROR: can't parse JSON BNF text: " ++
        b!"no rules for '=' (61) and non terminal op <opt-whitespace>\n") 1) ∧
    JsonMainEnds id id (.ok b!"<s> ::= \"a\" <t>") (.ok b!"a") (.exit []
      b!"ERROR: can't build parser table from JSON grammar: no rules defined for non terminal <t>\n" 1) ∧
    JsonMainEnds id id (.ok b!"<s> ::= <t> \"a\"\n<t> ::= \"a\" | \"\"") (.ok b!"a") (.exit b!"[{a}]\n"
      (b!"ERROR: can't build parser table from JSON grammar: " ++
        b!"grammar lead to multiple parser op sets per table cell\n") 1) ∧
    JsonMainEnds id id (.ok b!"<s> ::= \"\" \"a\"") (.ok b!"a") (.exit []
      b!"ERROR: can't build parser table from JSON grammar: empty string is not a single sequence symbol\n" 1) ∧
    JsonMainEnds id id (.ok b!"<s> ::= \"a\" \"\"") (.ok b!"a") (.panic []) ∧
    JsonMainEnds id id (.ok b!"<s> ::= \"a\"") (.ok b!"a") (.exit
      b!"Created table for JSON parser\nParsed successfully\nJSON key structure:\n" [] 0) ∧
    JsonMainEnds id id (.ok b!"<s> ::= \"a\"") (.ok b!"b") (.exit b!"Created table for JSON parser\n"
      b!"ERROR: can't parse JSON text: no rules for 'b' (98) and non terminal op <s>\n" 1) ∧
    JsonMainEnds id id (.ok (b!"<a> ::= <g>\n<b> ::= \"b\"\n<c> ::= \"c\"\n<d> ::= \"d\"\n<e> ::= \"e\"\n" ++
      b!"<f> ::= \"f\"\n<g> ::= \"g\"")) (.ok b!"g")
      (.panic b!"Created table for JSON parser\nParsed successfully\nJSON key structure:\n") :=
  have h := anyGrammar_runs
  ⟨⟨_, h.1⟩, ⟨_, h.2.1⟩, ⟨_, h.2.2.1⟩, ⟨_, h.2.2.2.1⟩, ⟨_, h.2.2.2.2.1⟩, ⟨_, h.2.2.2.2.2.1⟩, ⟨_, h.2.2.2.2.2.2.1⟩,
    ⟨_, h.2.2.2.2.2.2.2⟩⟩

end LL1
