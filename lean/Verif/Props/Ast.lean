import Verif.Proofs.Printing

/-!
# Printing grammars (C37, C38)
-/

namespace LL1

/-- **C37.** Reading a printed terminal back - up to the first unescaped occurrence of the opening quote,
undoing the escapes - gives the name, and nothing is left over. -/
theorem C37_terminal_reads_back (name : Str) :
    ∃ q body, (q = 34 ∨ q = 39) ∧ (Symbol.terminal name).toStr = q :: body ∧
      readUntil q body = some (name, []) := readUntil_termString name

/-- **C37.** A printed terminal has no raw TAB, LF or CR. -/
theorem C37_terminal_one_line (name : Str) (c : UInt8) (h : c ∈ (Symbol.terminal name).toStr) :
    c ≠ 9 ∧ c ≠ 10 ∧ c ≠ 13 := termString_noControl h

/-- **C37.** Different names print differently. -/
theorem C37_terminal_injective (a b : Str) (h : (Symbol.terminal a).toStr = (Symbol.terminal b).toStr) :
    a = b := by
  obtain ⟨q, x, _, hx, hrx⟩ := readUntil_termString a
  obtain ⟨r, y, _, hy, hry⟩ := readUntil_termString b
  have : q :: x = r :: y := by rw [← hx, ← hy]; exact h
  cases this
  rw [hrx] at hry
  cases hry
  rfl

/-- **C37.** The empty terminal and the empty-string symbol do print alike. -/
theorem C37_empty_ambiguous : (Symbol.terminal []).toStr = Symbol.nothing.toStr := rfl

/-- Both quoting styles and all escapes occur. -/
example : (Symbol.terminal b!"a\"b\t\\").toStr = b!"'a\"b\\t\\\\'" ∧
    (Symbol.terminal b!"\"'\n\r").toStr = b!"\"\\\"'\\n\\r\"" ∧ (Symbol.terminal b!"x").toStr = b!"\"x\"" := by
  decide

/-- **C38.** If no rule head or non-terminal contains a line feed, the lines of `Grammar.String()` are the
rules' `String()`s in order; the empty grammar prints as the empty string. -/
theorem C38_one_line_per_rule (g : Grammar) (hh : ∀ r ∈ g.rules, (10 : UInt8) ∉ r.head)
    (hn : ∀ r ∈ g.rules, ∀ s ∈ r.tail.sequences, ∀ n, Symbol.nonTerminal n ∈ s.symbols → (10 : UInt8) ∉ n) :
    (g.rules ≠ [] → lines g.toStr = g.rules.map Rule.toStr) ∧ (g.rules = [] → g.toStr = []) := by
  refine ⟨?_, ?_⟩
  · intro h0
    unfold Grammar.toStr
    cases hr : g.rules with
    | nil => exact (h0 hr).elim
    | cons r rs =>
      have := lines_rules r.toStr (rs.map Rule.toStr) ?_
      · simpa [List.flatMap_map] using this
      · intro l hl
        rw [← List.map_cons, ← hr] at hl
        obtain ⟨r', hr', rfl⟩ := List.mem_map.1 hl
        intro hc
        simp only [Rule.toStr, ntString, List.mem_append, List.mem_cons, List.not_mem_nil, or_false] at hc
        rcases hc with ((hc | hc | hc) | hc) | hc
        · simp at hc
        · exact hh r' hr' hc
        · simp at hc
        · simp at hc
        · rcases mem_seqsToStr _ _ hc with hc | hc | ⟨s, hs, y, hy, hc⟩
          · simp at hc
          · simp at hc
          · cases y with
            | nonTerminal n =>
              simp only [Symbol.toStr, ntString, List.mem_cons, List.mem_append, List.not_mem_nil, or_false] at hc
              rcases hc with hc | hc | hc
              · simp at hc
              · exact hn r' hr' s hs n hy hc
              · simp at hc
            | terminal t => exact (termString_noControl hc).2.1 rfl
            | nothing => simp [Symbol.toStr] at hc
  · intro h0
    unfold Grammar.toStr
    rw [h0]

/-- Without the condition the lines are cut inside a name. -/
example : lines (Grammar.mk [⟨b!"a\nb", ⟨[⟨[.terminal b!"x"]⟩]⟩⟩]).toStr ≠
    (Grammar.mk [⟨b!"a\nb", ⟨[⟨[.terminal b!"x"]⟩]⟩⟩]).rules.map Rule.toStr := by decide

example : lines (Grammar.mk [⟨b!"a", ⟨[⟨[.terminal b!"\n", .nonTerminal b!"b"]⟩, ⟨[.nothing]⟩]⟩⟩,
      ⟨b!"b", ⟨[⟨[.terminal b!"\""]⟩]⟩⟩]).toStr =
    [b!"<a> ::= \"\\n\" <b> | \"\"", b!"<b> ::= '\"'"] := by decide

/-- The word a symbol is printed as (terminals: see C37). -/
def wordOf : Symbol → Str
  | .nonTerminal n => b!"<" ++ n ++ b!">"
  | .nothing => b!"\"\""
  | .terminal t => (Symbol.terminal t).toStr

/-- The words of a rule: its head, `::=`, and the words of its alternatives with `|` between them. -/
def ruleWords (r : Rule) : List Str :=
  [b!"<" ++ r.head ++ b!">", b!"::="] ++
    ((r.tail.sequences.map fun alt => alt.symbols.map wordOf).intersperse [b!"|"]).flatten

theorem toStr_eq_wordOf (x : Symbol) : x.toStr = wordOf x := by
  cases x <;> simp [Symbol.toStr, wordOf, ntString]

theorem seq_toStr (s : Sequence) : s.toStr = (s.symbols.map wordOf).flatMap (32 :: ·) := by
  simp [Sequence.toStr, List.flatMap_map, toStr_eq_wordOf]

theorem seqsToStr_words (ss : List Sequence) :
    seqsToStr true ss =
      (((ss.map fun alt => alt.symbols.map wordOf).intersperse [b!"|"]).flatten).flatMap (32 :: ·) ∧
    seqsToStr false ss = ss.flatMap fun s => [32, 124] ++ s.toStr := by
  have h2 : ∀ ss, seqsToStr false ss = ss.flatMap fun s => [32, 124] ++ s.toStr := by
    intro ss
    induction ss with
    | nil => rfl
    | cons s ss ih => simp [seqsToStr, ih]
  refine ⟨?_, h2 ss⟩
  induction ss with
  | nil => rfl
  | cons s ss ih =>
    cases ss with
    | nil => simp [seqsToStr, seq_toStr]
    | cons s' ss =>
      have e : seqsToStr true (s :: s' :: ss) = s.toStr ++ ([32, 124] ++ seqsToStr true (s' :: ss)) := by
        simp [seqsToStr]
      rw [e, ih]
      simp only [List.map_cons, List.intersperse_cons_cons, List.flatten_cons, List.flatMap_append, seq_toStr]
      simp

theorem intercalate_blank (w : Str) (ws : List Str) :
    [32].intercalate (w :: ws) = w ++ ws.flatMap (32 :: ·) := by
  induction ws generalizing w with
  | nil => simp [List.intercalate]
  | cons v ws ih =>
    have := ih v
    simp only [List.intercalate, List.intersperse_cons_cons, List.flatten_cons, List.flatMap_cons] at this ⊢
    rw [this]; simp

/-- **C38.** `Rule.String()` is the words of the rule separated by single blanks:
`<head> ::= a <b> | "c"`. -/
theorem C38_rule_format (r : Rule) : r.toStr = [32].intercalate (ruleWords r) := by
  unfold ruleWords Rule.toStr
  rw [List.cons_append, intercalate_blank, (seqsToStr_words _).1]
  simp [ntString]

/-- An instance. -/
example : (Rule.mk b!"a" ⟨[⟨[.nonTerminal b!"b", .terminal b!"x"]⟩, ⟨[.nothing]⟩]⟩).toStr =
    b!"<a> ::= <b> \"x\" | \"\"" := by decide

end LL1
