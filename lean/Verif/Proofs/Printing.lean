import Verif.Spec.Bnf

/-!
# Facts about printed grammars
-/

namespace LL1

/-- `escapeBody` character by character. -/
def escChar (c : UInt8) : Str :=
  if c = 92 then [92, 92] else if c = 9 then [92, 116] else if c = 10 then [92, 110]
  else if c = 13 then [92, 114] else [c]

/-- The same with `"` escaped. -/
def escCharDq (c : UInt8) : Str := if c = 34 then [92, 34] else escChar c

theorem replaceAll_flatMap (xs : Str) (f : UInt8 → Str) (old : UInt8) (new : Str) :
    replaceAll (xs.flatMap f) old new = xs.flatMap (fun c => replaceAll (f c) old new) := by
  simp only [replaceAll, List.flatMap_assoc]

theorem replaceAll_eq (xs : Str) (old : UInt8) (new : Str) :
    replaceAll xs old new = xs.flatMap (fun c => if c = old then new else [c]) := rfl

theorem replaceAll_singleton (c old : UInt8) (new : Str) :
    replaceAll [c] old new = if c = old then new else [c] := by simp [replaceAll]

theorem escapeBody_eq (name : Str) : escapeBody name = name.flatMap escChar := by
  unfold escapeBody
  simp only
  rw [replaceAll_eq name 92, replaceAll_flatMap, replaceAll_flatMap, replaceAll_flatMap]
  congr 1
  funext c
  unfold escChar
  by_cases h1 : c = 92
  · subst h1; decide
  by_cases h2 : c = 9
  · subst h2; decide
  by_cases h3 : c = 10
  · subst h3; decide
  by_cases h4 : c = 13
  · subst h4; decide
  simp [h1, h2, h3, h4, replaceAll_singleton]

theorem escapeBodyDq_eq (name : Str) : replaceAll (escapeBody name) 34 [92, 34] = name.flatMap escCharDq := by
  rw [escapeBody_eq, replaceAll_flatMap]
  congr 1
  funext c
  unfold escCharDq escChar
  by_cases h0 : c = 34
  · subst h0; decide
  by_cases h1 : c = 92
  · subst h1; decide
  by_cases h2 : c = 9
  · subst h2; decide
  by_cases h3 : c = 10
  · subst h3; decide
  by_cases h4 : c = 13
  · subst h4; decide
  simp [h0, h1, h2, h3, h4, replaceAll_singleton]

/-- Whether the printer uses single quotes. -/
def printsSingle (name : Str) : Bool := (escapeBody name).contains 34 && !(escapeBody name).contains 39

theorem mem_escChar {c d : UInt8} (h : d ∈ escChar c) (hd : d = 34 ∨ d = 39) : d = c := by
  unfold escChar at h
  split at h
  · rcases hd with rfl | rfl <;> simp at h
  split at h
  · rcases hd with rfl | rfl <;> simp at h
  split at h
  · rcases hd with rfl | rfl <;> simp at h
  split at h
  · rcases hd with rfl | rfl <;> simp at h
  · simpa using h

theorem quote_mem_escapeBody {name : Str} {q : UInt8} (hq : q = 34 ∨ q = 39) :
    q ∈ escapeBody name ↔ q ∈ name := by
  rw [escapeBody_eq, List.mem_flatMap]
  constructor
  · rintro ⟨c, hc, h⟩
    rw [mem_escChar h hq]; exact hc
  · intro h
    refine ⟨q, h, ?_⟩
    rcases hq with rfl | rfl <;> decide

theorem printsSingle_iff {name : Str} : printsSingle name = true ↔ 34 ∈ name ∧ 39 ∉ name := by
  simp only [printsSingle, Bool.and_eq_true, Bool.not_eq_true', List.contains_eq_mem, decide_eq_true_eq,
    decide_eq_false_iff_not, quote_mem_escapeBody (.inl rfl), quote_mem_escapeBody (.inr rfl)]

theorem termString_eq (name : Str) : termString name =
    if printsSingle name then 39 :: (name.flatMap escChar ++ [39]) else 34 :: (name.flatMap escCharDq ++ [34]) := by
  unfold termString
  simp only
  rw [escapeBodyDq_eq]
  change (if printsSingle name = true then _ else _) = _
  rw [escapeBody_eq]

theorem readUntil_plain {q c : UInt8} {rest : Str} (h1 : c ≠ q) (h2 : c ≠ 92) :
    readUntil q (c :: rest) = (readUntil q rest).map fun p => (c :: p.1, p.2) := by
  rw [readUntil.eq_def]
  simp only [h1, h2, if_false]
  cases readUntil q rest <;> rfl

theorem readUntil_esc {q e d : UInt8} {rest : Str} (hq : q ≠ 92) (he : escaped e = some d) :
    readUntil q (92 :: e :: rest) = (readUntil q rest).map fun p => (d :: p.1, p.2) := by
  rw [readUntil.eq_def]
  simp only [Ne.symm hq, if_false, if_true, he]
  cases readUntil q rest <;> rfl

theorem readUntil_escChar {q c : UInt8} (hq : q = 34 ∨ q = 39) (hc : c ≠ q) (rest : Str) :
    readUntil q (escChar c ++ rest) = (readUntil q rest).map fun p => (c :: p.1, p.2) := by
  have hq92 : q ≠ 92 := by rcases hq with rfl | rfl <;> decide
  unfold escChar
  by_cases h1 : c = 92
  · subst h1; exact readUntil_esc hq92 rfl
  by_cases h2 : c = 9
  · subst h2; exact readUntil_esc hq92 rfl
  by_cases h3 : c = 10
  · subst h3; exact readUntil_esc hq92 rfl
  by_cases h4 : c = 13
  · subst h4; exact readUntil_esc hq92 rfl
  simp only [h1, h2, h3, h4, if_false]
  exact readUntil_plain hc h1

theorem readUntil_flatMap {q : UInt8} {f : UInt8 → Str} {name : Str}
    (h : ∀ c ∈ name, ∀ rest, readUntil q (f c ++ rest) = (readUntil q rest).map fun p => (c :: p.1, p.2)) :
    readUntil q (name.flatMap f ++ [q]) = some (name, []) := by
  induction name with
  | nil => simp [readUntil]
  | cons c name ih =>
    rw [List.flatMap_cons, List.append_assoc, h c List.mem_cons_self,
      ih (fun c hc => h c (List.mem_cons_of_mem _ hc))]
    rfl

theorem readUntil_termString (name : Str) : ∃ q body, (q = 34 ∨ q = 39) ∧ termString name = q :: body ∧
    readUntil q body = some (name, []) := by
  rw [termString_eq]
  cases h : printsSingle name with
  | true =>
    refine ⟨39, _, .inr rfl, rfl, readUntil_flatMap fun c hc rest => ?_⟩
    refine readUntil_escChar (.inr rfl) ?_ rest
    rintro rfl
    exact (printsSingle_iff.1 h).2 hc
  | false =>
    refine ⟨34, _, .inl rfl, rfl, readUntil_flatMap fun c hc rest => ?_⟩
    unfold escCharDq
    by_cases h0 : c = 34
    · subst h0
      exact readUntil_esc (by decide) rfl
    · rw [if_neg h0]
      exact readUntil_escChar (.inl rfl) h0 rest

theorem escChar_noControl {c d : UInt8} (h : d ∈ escChar c) : d ≠ 9 ∧ d ≠ 10 ∧ d ≠ 13 := by
  unfold escChar at h
  split at h
  · simp only [List.mem_cons, List.not_mem_nil, or_false, or_self] at h; subst h; decide
  split at h
  · simp only [List.mem_cons, List.not_mem_nil, or_false] at h; rcases h with rfl | rfl <;> decide
  split at h
  · simp only [List.mem_cons, List.not_mem_nil, or_false] at h; rcases h with rfl | rfl <;> decide
  split at h
  · simp only [List.mem_cons, List.not_mem_nil, or_false] at h; rcases h with rfl | rfl <;> decide
  · rename_i h1 h2 h3
    simp only [List.mem_cons, List.not_mem_nil, or_false] at h
    subst h
    exact ⟨h1, h2, h3⟩

theorem termString_noControl {name : Str} {d : UInt8} (h : d ∈ termString name) : d ≠ 9 ∧ d ≠ 10 ∧ d ≠ 13 := by
  rw [termString_eq] at h
  split at h
  · simp only [List.mem_cons, List.mem_append, List.not_mem_nil, or_false, List.mem_flatMap] at h
    rcases h with rfl | ⟨c, _, h⟩ | rfl
    · decide
    · exact escChar_noControl h
    · decide
  · simp only [List.mem_cons, List.mem_append, List.not_mem_nil, or_false, List.mem_flatMap] at h
    rcases h with rfl | ⟨c, _, h⟩ | rfl
    · decide
    · unfold escCharDq at h
      split at h
      · simp only [List.mem_cons, List.not_mem_nil, or_false] at h; rcases h with rfl | rfl <;> decide
      · exact escChar_noControl h
    · decide

/-! ## Lines -/

theorem lines_noLf {l : Str} (h : (10 : UInt8) ∉ l) : lines l = [l] := by
  induction l with
  | nil => rfl
  | cons c l ih =>
    rw [List.mem_cons, not_or] at h
    rw [lines, if_neg (Ne.symm h.1), ih h.2]

theorem lines_append {l rest : Str} (h : (10 : UInt8) ∉ l) : lines (l ++ 10 :: rest) = l :: lines rest := by
  induction l with
  | nil => simp [lines]
  | cons c l ih =>
    rw [List.mem_cons, not_or] at h
    rw [List.cons_append, lines, if_neg (Ne.symm h.1), ih h.2]

theorem lines_rules (r : Str) (rs : List Str) (h : ∀ l ∈ r :: rs, (10 : UInt8) ∉ l) :
    lines (r ++ rs.flatMap fun l => 10 :: l) = r :: rs := by
  induction rs generalizing r with
  | nil =>
    simp only [List.flatMap_nil, List.append_nil]
    exact lines_noLf (h r List.mem_cons_self)
  | cons l rs ih =>
    rw [List.flatMap_cons, List.cons_append, lines_append (h r List.mem_cons_self),
      ih l (fun x hx => h x (List.mem_cons_of_mem _ hx))]

theorem mem_seqsToStr {c : UInt8} : ∀ (ss : List Sequence) (first : Bool), c ∈ seqsToStr first ss →
    c = 32 ∨ c = 124 ∨ ∃ s ∈ ss, ∃ y ∈ s.symbols, c ∈ y.toStr
  | [], _, h => by simp [seqsToStr] at h
  | s :: ss, first, h => by
    simp only [seqsToStr, List.mem_append, Sequence.toStr, List.mem_flatMap, List.mem_cons] at h
    rcases h with (h | ⟨y, hy, h | h⟩) | h
    · cases first
      · simp only [Bool.false_eq_true, if_false, List.mem_cons, List.not_mem_nil, or_false] at h
        rcases h with h | h
        · exact .inl h
        · exact .inr (.inl h)
      · simp at h
    · exact .inl h
    · exact .inr (.inr ⟨s, List.mem_cons_self, y, hy, h⟩)
    · rcases mem_seqsToStr ss false h with h | h | ⟨s', hs', h⟩
      · exact .inl h
      · exact .inr (.inl h)
      · exact .inr (.inr ⟨s', List.mem_cons_of_mem _ hs', h⟩)

end LL1
