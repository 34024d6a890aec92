import Verif.Golden.Json
import Verif.Spec.Bnf

/-!
# The text of `json.bnf` is a layout of the JSON grammar

Rendering a grammar with a layout gives a text that is related to the grammar by `GrammarText`; for the
JSON example the kernel checks that the rendering is the contents of the file.
-/

namespace LL1.Layout
open Golden

/-- One character between quotes `q`. -/
def char (q c : UInt8) : Str :=
  if c = 9 then b!"\\t" else if c = 10 then b!"\\n" else if c = 13 then b!"\\r"
  else if c = 92 then b!"\\\\" else if c = 34 ∧ q = 34 then b!"\\\"" else [c]

def charOk (q c : UInt8) : Bool := decide (IsText c) && decide (c ≠ q ∨ c = 34)

theorem char_ok {q c : UInt8} (h : charOk q c = true) : CharText q c (char q c) := by
  simp only [charOk, Bool.and_eq_true, decide_eq_true_eq] at h
  obtain ⟨ht, hq⟩ := h
  unfold char
  split
  · rename_i h; subst h; exact .tab
  split
  · rename_i h; subst h; exact .lf
  split
  · rename_i h; subst h; exact .cr
  split
  · rename_i h; subst h; exact .backslash
  split
  · rename_i h; obtain ⟨rfl, rfl⟩ := h; exact .quote
  · rename_i h9 h10 h13 h92 h34
    have hp : 32 ≤ c ∧ c ≤ 126 := by
      rcases ht with h | h | h | h
      · exact h
      · exact (h9 h).elim
      · exact (h10 h).elim
      · exact (h13 h).elim
    by_cases h1 : c = 34
    · subst h1
      exact .otherQuote (.inl rfl) fun e => h34 ⟨rfl, e.symm⟩
    by_cases h2 : c = 39
    · subst h2
      exact .otherQuote (.inr rfl) (by rcases hq with h | h; exact h; cases h)
    · exact .plain ⟨hp.1, hp.2, h1, h2, h92⟩

def chars (q : UInt8) : Str → Str
  | [] => []
  | c :: cs => char q c ++ chars q cs

theorem chars_ok {q : UInt8} {name : Str} (h : name.all (charOk q) = true) : CharsText q name (chars q name) := by
  induction name with
  | nil => exact .nil
  | cons c cs ih =>
    simp only [List.all_cons, Bool.and_eq_true] at h
    exact .cons (char_ok h.1) (ih h.2)

def nameOk : Str → Bool
  | [] => false
  | c :: rest => decide (IsLetter c) && rest.all fun d => decide (IsLetter d ∨ IsDigit d ∨ d = 45)

theorem name_ok {n : Str} (h : nameOk n = true) : LegalName n := by
  cases n with
  | nil => cases h
  | cons c rest =>
    simp only [nameOk, Bool.and_eq_true, decide_eq_true_eq, List.all_eq_true] at h
    exact ⟨c, rest, rfl, h.1, h.2⟩

def symbol (q : UInt8) : Symbol → Str
  | .nonTerminal n => 60 :: (n ++ [62])
  | .terminal t => q :: (chars q t ++ [q])
  | .nothing => [q, q]

def symbolOk (q : UInt8) : Symbol → Bool
  | .nonTerminal n => nameOk n
  | .terminal t => decide (q = 34 ∨ q = 39) && !t.isEmpty && t.all (charOk q)
  | .nothing => decide (q = 34 ∨ q = 39)

theorem symbol_ok {q : UInt8} {y : Symbol} (h : symbolOk q y = true) : SymbolText y (symbol q y) := by
  cases y with
  | nonTerminal n => exact .nonTerminal (name_ok h)
  | terminal t =>
    simp only [symbolOk, Bool.and_eq_true, decide_eq_true_eq, Bool.not_eq_true'] at h
    exact .terminal (by rintro rfl; simp at h) (.mk h.1.1 (chars_ok h.2))
  | nothing =>
    simp only [symbolOk, decide_eq_true_eq] at h
    exact .nothing (.mk (body := []) h .nil)

/-- Symbols with their layout; `none` if the layout does not fit. -/
def seq : List Symbol → List (UInt8 × Nat) → Option Str
  | [y], [(q, k)] => if symbolOk q y then some (symbol q y ++ blanks k) else none
  | y :: ys, (q, k) :: ls =>
    if symbolOk q y then (seq ys ls).map fun z => symbol q y ++ (blanks k ++ z) else none
  | _, _ => none

theorem seq_ok : ∀ {ys : List Symbol} {ls : List (UInt8 × Nat)} {x : Str}, seq ys ls = some x → SeqText ys x
  | [y], [(q, k)], x, h => by
    simp only [seq] at h
    split at h
    · rename_i hy; cases h; exact .one k (symbol_ok hy)
    · cases h
  | [], ls, x, h => by cases ls <;> simp [seq] at h
  | y :: ys, [], x, h => by simp [seq] at h
  | [y], (q, k) :: l :: ls, x, h => by
    simp only [seq] at h
    split at h <;> simp at h
  | y :: y' :: ys, (q, k) :: ls, x, h => by
    simp only [seq] at h
    split at h
    · rename_i hy
      simp only [Option.map_eq_some_iff] at h
      obtain ⟨z, hz, rfl⟩ := h
      exact .cons k (symbol_ok hy) (seq_ok hz)
    · cases h

def alts : List Sequence → List AltLayout → Option Str
  | [s], [l] => seq s.symbols l.symbols
  | s :: ss, l :: l' :: ls =>
    (seq s.symbols l.symbols).bind fun x =>
      (alts ss (l' :: ls)).map fun z => x ++ 124 :: (blanks l'.before ++ z)
  | _, _ => none

theorem alts_ok : ∀ {ss : List Sequence} {ls : List AltLayout} {x : Str}, alts ss ls = some x → AltsText ss x
  | [s], [l], x, h => by simp only [alts] at h; exact .one (seq_ok h)
  | [], ls, x, h => by cases ls <;> simp [alts] at h
  | s :: ss, [], x, h => by simp [alts] at h
  | s :: s' :: ss, [l], x, h => by simp [alts] at h
  | s :: ss, l :: l' :: ls, x, h => by
    simp only [alts, Option.bind_eq_some_iff, Option.map_eq_some_iff] at h
    obtain ⟨x, hx, z, hz, rfl⟩ := h
    exact .cons _ (seq_ok hx) (alts_ok hz)

def rule (r : Rule) (l : RuleLayout) : Option Str :=
  if nameOk r.head then
    (alts r.tail.sequences l.alts).map fun x =>
      60 :: (r.head ++ 62 :: (blanks l.before ++ (b!"::=" ++ (blanks l.after ++ x))))
  else none

theorem rule_ok {r : Rule} {l : RuleLayout} {x : Str} (h : rule r l = some x) : RuleText r x := by
  unfold rule at h
  split at h
  · rename_i hn
    simp only [Option.map_eq_some_iff] at h
    obtain ⟨x, hx, rfl⟩ := h
    obtain ⟨head, ⟨ss⟩⟩ := r
    exact .mk _ _ (name_ok hn) (alts_ok hx)
  · cases h

/-- Further rules, each on its own line, and an LF at the end. -/
def rules : List Rule → List RuleLayout → Option Str
  | [], [] => some [10]
  | r :: rs, l :: ls => (rule r l).bind fun x => (rules rs ls).map fun z => 10 :: (x ++ z)
  | _, _ => none

theorem rules_ok : ∀ {rs : List Rule} {ls : List RuleLayout} {x : Str}, rules rs ls = some x → LinesText rs x
  | [], [], x, h => by cases h; exact .blank (e := [10]) 0 (.inl rfl) .nil
  | [], l :: ls, x, h => by simp [rules] at h
  | r :: rs, [], x, h => by simp [rules] at h
  | r :: rs, l :: ls, x, h => by
    simp only [rules, Option.bind_eq_some_iff, Option.map_eq_some_iff] at h
    obtain ⟨x, hx, z, hz, rfl⟩ := h
    exact .rule (e := [10]) 0 (.inl rfl) (rule_ok hx) (rules_ok hz)

def grammar : Grammar → List RuleLayout → Option Str
  | ⟨r :: rs⟩, l :: ls => (rule r l).bind fun x => (rules rs ls).map fun z => x ++ z
  | _, _ => none

theorem grammar_ok {g : Grammar} {ls : List RuleLayout} {x : Str} (h : grammar g ls = some x) :
    GrammarText g x := by
  unfold grammar at h
  split at h
  · simp only [Option.bind_eq_some_iff, Option.map_eq_some_iff] at h
    obtain ⟨x, hx, z, hz, rfl⟩ := h
    exact .mk 0 (rule_ok hx) (rules_ok hz)
  · cases h

end LL1.Layout

namespace LL1

set_option maxRecDepth 100000 in
theorem json_rendered : Layout.grammar Golden.jsonGrammar Golden.jsonLayout = some Golden.jsonBnfText := by
  decide +kernel

/-- The contents of `json.bnf` are one way to write the JSON grammar. -/
theorem json_grammarText : GrammarText Golden.jsonGrammar Golden.jsonBnfText :=
  Layout.grammar_ok json_rendered

end LL1
