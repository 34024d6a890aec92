import Verif.Spec.AnySymbol
import Verif.Props.EndToEnd
import Verif.Props.Ast

/-!
# C89: printing and comparing grammars with symbols of any type
-/

namespace LL1
namespace AnySym

/-! ## Printing -/

/-- The text of a symbol, nothing if `String` panics. -/
def w (y : Sym) : Str := match y.string with | .ok t => t | .error _ => []

/-- The panic of a symbol's `String`. -/
def pan (y : Sym) : Option Panic := match y.string with | .ok _ => none | .error p => some p

/-- The first panic, or the text. -/
def res (p : Option Panic) (t : Str) : Except Panic Str := match p with | some p => .error p | none => .ok t

def altsText : Nat → List (List Sym) → Str
  | _, [] => []
  | i, s :: ss => (if i > 0 then [32, 124] else []) ++ ((s.flatMap fun y => 32 :: w y) ++ altsText (i + 1) ss)

theorem symbolsLoop_eq (ys : List Sym) : ∀ sb,
    symbolsLoop sb ys = res (ys.findSome? pan) (sb ++ ys.flatMap fun y => 32 :: w y) := by
  induction ys with
  | nil => intro sb; simp [symbolsLoop, res]
  | cons x xs ih =>
    intro sb
    simp only [symbolsLoop]
    cases h : x.string with
    | error p => simp [List.findSome?_cons, pan, h, res]
    | ok t =>
      simp only [ih]
      simp [List.findSome?_cons, pan, h, w]

theorem sequencesLoop_eq (ss : List (List Sym)) : ∀ sb i,
    sequencesLoop sb i ss = res (ss.flatten.findSome? pan) (sb ++ altsText i ss) := by
  induction ss with
  | nil => intro sb i; simp [sequencesLoop, res, altsText]
  | cons s ss ih =>
    intro sb i
    simp only [sequencesLoop, symbolsLoop_eq, List.flatten_cons, List.findSome?_append]
    cases h : s.findSome? pan with
    | some p => simp [res]
    | none =>
      simp only [res, Option.none_or]
      rw [ih]
      simp only [altsText]
      split <;> simp [res, List.append_assoc]

/-- The text of a rule when nothing panics. -/
def ruleText (r : Rule) : Str := ntString r.head ++ [32, 58, 58, 61] ++ altsText 0 r.sequences

theorem rule_string (r : Rule) : r.string = res (r.sequences.flatten.findSome? pan) (ruleText r) := sequencesLoop_eq _ _ _

theorem rulesLoop_eq (rs : List Rule) : ∀ sb,
    rulesLoop sb rs = res ((rs.flatMap fun r => r.sequences.flatten).findSome? pan)
      (sb ++ rs.flatMap fun r => 10 :: ruleText r) := by
  induction rs with
  | nil => intro sb; simp [rulesLoop, res]
  | cons r rs ih =>
    intro sb
    simp only [rulesLoop, rule_string, List.flatMap_cons, List.findSome?_append]
    cases h : r.sequences.flatten.findSome? pan with
    | some p => simp [res]
    | none =>
      simp only [res, Option.none_or]
      rw [ih]
      simp [res, List.append_assoc]

theorem altsText_words (write : Sym → Str) (ss : List (List Sym)) (h : ∀ y ∈ ss.flatten, write y = w y) :
    (∀ i, 0 < i → altsText i ss = ss.flatMap fun s => [32, 124] ++ s.flatMap fun y => 32 :: write y) ∧
    altsText 0 ss = (([[124]] : List Str).intercalate (ss.map fun s => s.map write)).flatMap fun x => 32 :: x := by
  have h1 : ∀ (ss : List (List Sym)), (∀ y ∈ ss.flatten, write y = w y) → ∀ i, 0 < i →
      altsText i ss = ss.flatMap fun s => [32, 124] ++ s.flatMap fun y => 32 :: write y := by
    intro ss
    induction ss with
    | nil => intro _ i _; rfl
    | cons s ss ih =>
      intro h i hi
      have hs : (s.flatMap fun y => 32 :: w y) = s.flatMap fun y => 32 :: write y :=
        List.flatMap_congr fun y hy => by rw [h y (by simp [hy])]
      rw [altsText, if_pos hi, ih (fun y hy => h y (by rw [List.flatten_cons]; exact List.mem_append_right _ hy)) (i + 1) (by omega),
        List.flatMap_cons, hs, List.append_assoc]
  refine ⟨h1 ss h, ?_⟩
  cases ss with
  | nil => rfl
  | cons s ss =>
    have hs : (s.flatMap fun y => 32 :: w y) = s.flatMap fun y => 32 :: write y :=
        List.flatMap_congr fun y hy => by rw [h y (by simp [hy])]
    have key : ∀ (s : List Sym) (ss : List (List Sym)),
        (([[124]] : List Str).intercalate ((s :: ss).map fun s => s.map write)).flatMap (fun x => 32 :: x) =
        (s.flatMap fun y => 32 :: write y) ++ ss.flatMap fun s => [32, 124] ++ s.flatMap fun y => 32 :: write y := by
      intro s ss
      induction ss generalizing s with
      | nil => simp [List.intercalate, List.flatMap_map]
      | cons s' ss ih =>
        have := ih s'
        simp only [List.intercalate, List.map_cons, List.intersperse, List.flatten_cons, List.flatMap_append,
          List.flatMap_cons, List.flatMap_map, List.flatMap_nil] at this ⊢
        rw [this]
        simp
    rw [key, altsText, if_neg (by omega), hs,
      h1 ss (fun y hy => h y (by rw [List.flatten_cons]; exact List.mem_append_right _ hy)) 1 (by omega)]
    simp

theorem ruleText_words (write : Sym → Str) (r : Rule) (h : ∀ y ∈ r.sequences.flatten, write y = w y) :
    ruleText r = [32].intercalate (r.words write) := by
  unfold ruleText Rule.words
  rw [List.cons_append, intercalate_blank, (altsText_words write _ h).2]
  simp [ntString]

theorem intercalate_lines (l : Str) (ls : List Str) : [10].intercalate (l :: ls) = l ++ ls.flatMap (10 :: ·) := by
  induction ls generalizing l with
  | nil => simp [List.intercalate]
  | cons k ls ih =>
    have := ih k
    simp only [List.intercalate, List.intersperse, List.flatten_cons, List.flatMap_cons] at this ⊢
    rw [this]
    simp

/-- The text of the grammar when nothing panics. -/
def text (g : Grammar) : Str := [10].intercalate (g.rules.map ruleText)

theorem grammar_string (g : Grammar) : g.string = res (g.symbols.findSome? pan) (text g) := by
  unfold Grammar.string Grammar.symbols text
  cases g.rules with
  | nil => rfl
  | cons r rs =>
    simp only [rule_string, List.flatMap_cons, List.findSome?_append, List.map_cons, intercalate_lines]
    cases h : r.sequences.flatten.findSome? pan with
    | some p => simp [res]
    | none =>
      simp only [res, Option.none_or]
      rw [rulesLoop_eq]
      simp [res, List.flatMap_map]

theorem w_of {y : Sym} {t : Str} (h : y.string = .ok t) : w y = t := by simp [w, h]

theorem text_written (g : Grammar) (write : Sym → Str) (h : ∀ y ∈ g.symbols, write y = w y) : text g = g.written write := by
  unfold text Grammar.written
  congr 1
  refine List.map_congr_left fun r hr => ruleText_words write r fun y hy => h y ?_
  exact List.mem_flatMap.2 ⟨r, hr, hy⟩

/-- **C89.** `String` returns iff `String` of every symbol in the grammar does, and then its text is made of theirs: one
line per rule, head, `::=` and alternatives with `|` between them, everything separated by single blanks. -/
theorem C89_string (g : Grammar) :
    ((∃ t, g.string = .ok t) ↔ ∀ y ∈ g.symbols, ∃ u, y.string = .ok u) ∧
    (∀ write : Sym → Str, (∀ y ∈ g.symbols, y.string = .ok (write y)) → g.string = .ok (g.written write)) := by
  have key : ∀ write : Sym → Str, (∀ y ∈ g.symbols, y.string = .ok (write y)) → g.string = .ok (g.written write) := by
    intro write h
    rw [grammar_string, text_written g write fun y hy => (w_of (h y hy)).symm,
      List.findSome?_eq_none_iff.2 fun y hy => by simp [pan, h y hy]]
    rfl
  refine ⟨⟨?_, fun h => ⟨_, key w fun y hy => ?_⟩⟩, key⟩
  · rintro ⟨t, ht⟩ y hy
    rw [grammar_string] at ht
    cases hf : g.symbols.findSome? pan with
    | some p => rw [hf] at ht; cases ht
    | none =>
      have := List.findSome?_eq_none_iff.1 hf y hy
      unfold pan at this
      split at this
      · rename_i u hu; exact ⟨u, hu⟩
      · cases this
  · obtain ⟨u, hu⟩ := h y hy
    rw [w_of hu, hu]

/-- **C89.** Otherwise it panics, with the panic of the first symbol, in the order of the text, whose `String` does. -/
theorem C89_string_panic (g : Grammar) (p : Panic) : g.string = .error p ↔
    ∃ pre y post, g.symbols = pre ++ y :: post ∧ (∀ z ∈ pre, ∃ u, z.string = .ok u) ∧ y.string = .error p := by
  rw [grammar_string]
  have : res (g.symbols.findSome? pan) (text g) = .error p ↔ g.symbols.findSome? pan = some p := by
    cases g.symbols.findSome? pan <;> simp [res]
  rw [this, List.findSome?_eq_some_iff]
  have hp : ∀ y, pan y = some p ↔ y.string = .error p := by
    intro y; unfold pan; split <;> simp [*]
  have hn : ∀ y, pan y = none ↔ ∃ u, y.string = .ok u := by
    intro y; unfold pan; split <;> simp [*]
  simp only [hp, hn]
  constructor
  · rintro ⟨pre, y, post, h1, h2, h3⟩; exact ⟨pre, y, post, h1, h3, h2⟩
  · rintro ⟨pre, y, post, h1, h2, h3⟩; exact ⟨pre, y, post, h1, h3, h2⟩

theorem altsText_like (i : Nat) {ss : List (List Sym)} {ss₀ : List Sequence}
    (h : List.Forall₂ (fun s (s₀ : Sequence) => List.Forall₂ (fun y y₀ => Sym.string y = .ok y₀.toStr) s s₀.symbols) ss ss₀) :
    altsText i ss = seqsToStr (i == 0) ss₀ ∧ ∀ y ∈ ss.flatten, ∃ u, y.string = .ok u := by
  induction h generalizing i with
  | nil => exact ⟨by cases i <;> rfl, by simp⟩
  | @cons s s₀ ss ss₀ h1 h2 ih =>
    have hs : (s.flatMap fun y => 32 :: w y) = s₀.toStr ∧ ∀ y ∈ s, ∃ u, y.string = .ok u := by
      unfold Sequence.toStr
      generalize s₀.symbols = l at h1
      clear ih h2
      induction h1 with
      | nil => simp
      | cons h _ ih => refine ⟨by simp [w_of h, ih.1], fun y hy => ?_⟩; rcases List.mem_cons.1 hy with rfl | hy; exacts [⟨_, h⟩, ih.2 y hy]
    refine ⟨?_, fun y hy => ?_⟩
    · rw [altsText, (ih (i + 1)).1, hs.1, seqsToStr]
      cases i <;> simp
    · rw [List.flatten_cons] at hy
      rcases List.mem_append.1 hy with h | h
      · exact hs.2 y h
      · exact (ih 0).2 y h

/-- **C89.** Values that print like the package's symbols, such as pointers to them, can stand in their places: the text is
the text of the grammar, -/
theorem C89_like (g : Grammar) (g₀ : LL1.Grammar) (h : g.Like g₀) : g.string = .ok g₀.toStr := by
  obtain ⟨rs⟩ := g
  obtain ⟨rs₀⟩ := g₀
  have key : ∀ rs (rs₀ : List LL1.Rule), List.Forall₂ Rule.Like rs rs₀ → rs.map ruleText = rs₀.map LL1.Rule.toStr ∧
      ∀ y ∈ rs.flatMap fun r => r.sequences.flatten, ∃ u, y.string = .ok u := by
    intro rs rs₀ h
    induction h with
    | nil => exact ⟨rfl, by simp⟩
    | @cons r r₀ rs rs₀ h _ ih =>
      have ha := altsText_like 0 h.2
      refine ⟨?_, fun y hy => ?_⟩
      · rw [List.map_cons, List.map_cons, ih.1]
        unfold ruleText LL1.Rule.toStr
        rw [ha.1, h.1]
        rfl
      · rw [List.flatMap_cons] at hy
        rcases List.mem_append.1 hy with h' | h'
        · exact ha.2 y h'
        · exact ih.2 y h'
  have hk := key rs rs₀ h
  have hs := (C89_string ⟨rs⟩).1.2 hk.2
  obtain ⟨t, ht⟩ := hs
  rw [grammar_string] at ht ⊢
  cases hf : (Grammar.symbols ⟨rs⟩).findSome? pan with
  | some p => rw [hf] at ht; cases ht
  | none =>
    simp only [res, text, hk.1, LL1.Grammar.toStr]
    cases rs₀ with
    | nil => rfl
    | cons r rs => simp [intercalate_lines, List.flatMap_map]

/-- **C89.** so parsing that text with the BNF parser and converting the tree gives the grammar with the package's own
symbols. -/
theorem C89_round_trip (order : Order) (tbl : Table) (names : Names)
    (hf : fromGrammar order selfGrammar = .ok (tbl, names)) (m : Names) (g : Grammar) (g₀ : LL1.Grammar)
    (h : g.Like g₀) (hl : g₀.Legal) : ∃ t, g.string = .ok t ∧
      ∃ n m', (Parser.mk tbl (some m)).Returns (.string t) (.ok n m') ∧ FC.selfBindings.toAST n t = .ok g₀ :=
  ⟨_, C89_like g g₀ h, C39_round_trip order tbl names hf m g₀ hl⟩

/-! ## Comparing -/

theorem asNonTerminal_other {a : Sym} (h : ∀ s, a ≠ .own s) : asNonTerminal a = .error .conversion := by
  cases a with
  | own s => exact (h s rfl).elim
  | nil => rfl
  | other => rfl

theorem asTerminal_other {a : Sym} (h : ∀ s, a ≠ .own s) : asTerminal a = .error .conversion := by
  cases a with
  | own s => exact (h s rfl).elim
  | nil => rfl
  | other => rfl

theorem own_or (a : Sym) : (∃ s, a = .own s) ∨ ∀ s, a ≠ .own s := by
  cases a with
  | own s => exact .inl ⟨s, rfl⟩
  | nil => exact .inr nofun
  | other => exact .inr nofun

theorem own_zero {s : Symbol} (h : (Sym.own s).type = .ok 0) : ∃ n, s = .nonTerminal n := by
  cases s with
  | nonTerminal n => exact ⟨n, rfl⟩
  | terminal n => simp [Sym.type] at h
  | nothing => simp [Sym.type] at h

theorem own_one {s : Symbol} (h : (Sym.own s).type = .ok 1) : ∃ n, s = .terminal n := by
  cases s with
  | nonTerminal n => simp [Sym.type] at h
  | terminal n => exact ⟨n, rfl⟩
  | nothing => simp [Sym.type] at h

theorem symCmp_eq {a b : Sym} {c : Cmp} (h : SymCmp a b c) : isSymbolsEqual a b = c := by
  cases h with
  | left h => simp [isSymbolsEqual, h]
  | right h1 h2 => simp [isSymbolsEqual, h1, h2]
  | types h1 h2 h3 => simp [isSymbolsEqual, h1, h2, h3]
  | nonTerminals => simp [isSymbolsEqual, Sym.type, asNonTerminal]
  | terminals => simp [isSymbolsEqual, Sym.type, asTerminal]
  | nothing h1 h2 => simp [isSymbolsEqual, h1, h2]
  | pretends h1 h2 ht ho =>
    rcases ht with rfl | rfl
    · rcases own_or a with ⟨s, rfl⟩ | ha
      · obtain ⟨n, rfl⟩ := own_zero h1
        rcases ho with ho | ho
        · exact (ho _ rfl).elim
        · simp [isSymbolsEqual, h1, h2, asNonTerminal_other ho, show asNonTerminal (.own (.nonTerminal n)) = .ok n from rfl]
      · simp [isSymbolsEqual, h1, h2, asNonTerminal_other ha]
    · rcases own_or a with ⟨s, rfl⟩ | ha
      · obtain ⟨n, rfl⟩ := own_one h1
        rcases ho with ho | ho
        · exact (ho _ rfl).elim
        · simp [isSymbolsEqual, h1, h2, asTerminal_other ho, show asTerminal (.own (.terminal n)) = .ok n from rfl]
      · simp [isSymbolsEqual, h1, h2, asTerminal_other ha]
  | unknown h1 h2 ht =>
    simp only [isSymbolsEqual, h1, h2, ne_eq, not_true_eq_false, if_false]
    rw [if_neg (by omega), if_neg (by omega), if_neg (by omega)]

theorem symCmp_total (a b : Sym) : ∃ c, SymCmp a b c := by
  cases ha : a.type with
  | error p => exact ⟨_, .left ha⟩
  | ok t =>
    cases hb : b.type with
    | error p => exact ⟨_, .right ha hb⟩
    | ok u =>
      by_cases h : t = u
      · subst h
        by_cases h2 : t = 2
        · subst h2; exact ⟨_, .nothing ha hb⟩
        · by_cases h01 : t = 0 ∨ t = 1
          · rcases own_or a with ⟨s, rfl⟩ | hna
            · rcases own_or b with ⟨s', rfl⟩ | hnb
              · rcases h01 with rfl | rfl
                · obtain ⟨n, rfl⟩ := own_zero ha
                  obtain ⟨m, rfl⟩ := own_zero hb
                  exact ⟨_, .nonTerminals⟩
                · obtain ⟨n, rfl⟩ := own_one ha
                  obtain ⟨m, rfl⟩ := own_one hb
                  exact ⟨_, .terminals⟩
              · exact ⟨_, .pretends ha hb h01 (.inr hnb)⟩
            · exact ⟨_, .pretends ha hb h01 (.inl hna)⟩
          · exact ⟨_, .unknown ha hb (by omega)⟩
      · exact ⟨_, .types ha hb h⟩

theorem symCmp_iff (a b : Sym) (c : Cmp) : isSymbolsEqual a b = c ↔ SymCmp a b c := by
  refine ⟨?_, symCmp_eq⟩
  rintro rfl
  obtain ⟨c, h⟩ := symCmp_total a b
  rwa [symCmp_eq h]

theorem compareLoop_iff {α : Type} {eq : α → α → Cmp} {R : α → α → Cmp → Prop} (hR : ∀ x y c, eq x y = c ↔ R x y c)
    (a b : List α) (c : Cmp) : (if a.length ≠ b.length then .result false else compareLoop eq a b) = c ↔ Lockstep R a b c := by
  constructor
  · rintro rfl
    split
    · rename_i h; exact .lengths h
    · rename_i h
      have h : a.length = b.length := Classical.not_not.1 h
      induction a generalizing b with
      | nil =>
        cases b with
        | nil => exact .same .nil
        | cons y b => cases h
      | cons x a ih =>
        cases b with
        | nil => cases h
        | cons y b =>
          have h' : a.length = b.length := by simpa using h
          simp only [compareLoop]
          split
          · rename_i he
            have hxy := (hR _ _ _).1 he
            have := ih b (by simp [h']) h'
            generalize compareLoop eq a b = c at this
            cases this with
            | lengths hl => exact (hl h').elim
            | same hs => exact .same (.cons hxy hs)
            | first h1 h2 h3 h4 => exact .first (.cons hxy h1) h2 h3 h4
          · rename_i hne
            exact .first (pre := []) (pre' := []) .nil ((hR _ _ _).1 rfl) hne h'
  · intro h
    cases h with
    | lengths h => rw [if_pos h]
    | same h =>
      rw [if_neg (by simp [h.length_eq])]
      induction h with
      | nil => rfl
      | cons h _ ih => simp only [compareLoop, (hR _ _ _).2 h]; exact ih
    | @first pre pre' post post' x y c h1 h2 h3 h4 =>
      rw [if_neg (by simp [h1.length_eq, h4])]
      induction h1 with
      | nil =>
        simp only [List.nil_append, compareLoop]
        split
        · rename_i he; exact (h3 ((hR _ _ _).2 h2 ▸ he)).elim
        · exact (hR _ _ _).2 h2
      | cons h _ ih => simp only [List.cons_append, compareLoop, (hR _ _ _).2 h]; exact ih

/-- **C89.** Comparing any two grammars ends as the specification says: in lockstep, the first difference decides, be it
`false`, a panic, or the exit for an unknown type. -/
theorem C89_compare (a b : Grammar) (c : Cmp) : isGrammarsEqual a b = c ↔ GrammarCmp a b c := by
  refine compareLoop_iff (fun r s c => ?_) a.rules b.rules c
  unfold isRulesEqual RuleCmp
  have := compareLoop_iff (compareLoop_iff symCmp_iff) r.sequences s.sequences c
  split
  · rename_i h
    simp [h, eq_comm]
  · rename_i h
    have h : r.head = s.head := Classical.not_not.1 h
    simp only [h, ne_eq, not_true_eq_false, false_and, true_and, false_or]
    exact this

theorem lockstep_true {α : Type} {R : α → α → Cmp → Prop} {a b : List α} :
    Lockstep R a b (.result true) ↔ List.Forall₂ (fun x y => R x y (.result true)) a b := by
  refine ⟨fun h => ?_, .same⟩
  generalize hc : Cmp.result true = c at h
  cases h with
  | lengths => cases hc
  | same h => exact h
  | first _ _ h => exact (h hc.symm).elim

theorem symCmp_true {a b : Sym} : SymCmp a b (.result true) ↔ SymAlike a b := by
  constructor
  · intro h
    generalize hc : Cmp.result true = c at h
    cases h with
    | nonTerminals =>
      have : _ = _ := of_decide_eq_true (Cmp.result.inj hc).symm
      subst this; exact .inl ⟨_, rfl, rfl⟩
    | terminals =>
      have : _ = _ := of_decide_eq_true (Cmp.result.inj hc).symm
      subst this; exact .inl ⟨_, rfl, rfl⟩
    | nothing h1 h2 => exact .inr ⟨h1, h2⟩
    | _ => cases hc
  · rintro (⟨s, rfl, rfl⟩ | ⟨h1, h2⟩)
    · cases s with
      | nonTerminal n => simpa using SymCmp.nonTerminals (n := n) (m := n)
      | terminal n => simpa using SymCmp.terminals (n := n) (m := n)
      | nothing => exact .nothing rfl rfl
    · exact .nothing h1 h2

/-- **C89.** It says "equal" exactly for grammars of the same shape with the same heads and, place by place, the same
symbols of the package's own types or two values of the empty-string type. -/
theorem C89_equal_iff (a b : Grammar) : isGrammarsEqual a b = .result true ↔ GrammarAlike a b := by
  rw [C89_compare, GrammarCmp, lockstep_true, GrammarAlike]
  have : ∀ r s : Rule, RuleCmp r s (.result true) ↔
      r.head = s.head ∧ List.Forall₂ (List.Forall₂ SymAlike) r.sequences s.sequences := by
    intro r s
    unfold RuleCmp
    have h2 : (fun (x y : List Sym) => Lockstep SymCmp x y (.result true)) = List.Forall₂ SymAlike := by
      funext x y
      rw [lockstep_true]
      congr 1
      funext x y
      rw [symCmp_true]
    rw [lockstep_true, h2]
    simp
  simp only [this]

theorem lockstep_symm {α : Type} {R : α → α → Cmp → Prop} (hR : ∀ x y c, (∀ p, c ≠ .panic p) → R x y c → R y x c)
    {a b : List α} {c : Cmp} (hc : ∀ p, c ≠ .panic p) (h : Lockstep R a b c) : Lockstep R b a c := by
  have hs : ∀ {a b : List α}, List.Forall₂ (fun x y => R x y (.result true)) a b →
      List.Forall₂ (fun x y => R x y (.result true)) b a := by
    intro a b h
    induction h with
    | nil => exact .nil
    | cons h _ ih => exact .cons (hR _ _ _ nofun h) ih
  cases h with
  | lengths h => exact .lengths fun h' => h h'.symm
  | same h => exact .same (hs h)
  | first h1 h2 h3 h4 => exact .first (hs h1) (hR _ _ _ hc h2) h3 h4.symm

theorem symCmp_symm (a b : Sym) (c : Cmp) (hc : ∀ p, c ≠ .panic p) (h : SymCmp a b c) : SymCmp b a c := by
  cases h with
  | left => exact (hc _ rfl).elim
  | right => exact (hc _ rfl).elim
  | types h1 h2 h3 => exact .types h2 h1 fun h => h3 h.symm
  | @nonTerminals n m => rw [show decide (n = m) = decide (m = n) by simp [eq_comm]]; exact .nonTerminals
  | @terminals n m => rw [show decide (n = m) = decide (m = n) by simp [eq_comm]]; exact .terminals
  | nothing h1 h2 => exact .nothing h2 h1
  | pretends => exact (hc _ rfl).elim
  | unknown h1 h2 h3 => exact .unknown h2 h1 h3

theorem nil_not_alike (y : Sym) : ¬ SymAlike .nil y ∧ ¬ SymAlike y .nil := by
  constructor
  · rintro (⟨s, h, _⟩ | ⟨h, _⟩) <;> cases h
  · rintro (⟨s, _, h⟩ | ⟨_, h⟩) <;> cases h

theorem forall₂_mem_left {α : Type} {R : α → α → Prop} {a b : List α} (h : List.Forall₂ R a b) {x : α} (hx : x ∈ a) :
    ∃ y ∈ b, R x y := by
  induction h with
  | nil => cases hx
  | cons h1 _ ih =>
    rcases List.mem_cons.1 hx with rfl | hx
    · exact ⟨_, List.mem_cons_self, h1⟩
    · obtain ⟨y, hy, hr⟩ := ih hx
      exact ⟨y, List.mem_cons_of_mem _ hy, hr⟩

/-- **C89.** The order of the two grammars does not matter, except for which of two panics it is. -/
theorem C89_symmetric (a b : Grammar) :
    (∀ r, isGrammarsEqual a b = .result r ↔ isGrammarsEqual b a = .result r) ∧
    (∀ t, isGrammarsEqual a b = .exit t ↔ isGrammarsEqual b a = .exit t) ∧
    ((∃ p, isGrammarsEqual a b = .panic p) ↔ ∃ p, isGrammarsEqual b a = .panic p) := by
  have key : ∀ (a b : Grammar) (c : Cmp), (∀ p, c ≠ .panic p) → isGrammarsEqual a b = c → isGrammarsEqual b a = c := by
    intro a b c hc h
    rw [C89_compare] at h ⊢
    refine lockstep_symm (fun r s c hc h => ?_) hc h
    rcases h with ⟨h, rfl⟩ | ⟨h, h'⟩
    · exact .inl ⟨fun e => h e.symm, rfl⟩
    · exact .inr ⟨h.symm, lockstep_symm (fun _ _ _ hc h => lockstep_symm symCmp_symm hc h) hc h'⟩
  have hp : ∀ a b : Grammar, (∃ p, isGrammarsEqual a b = .panic p) → ∃ p, isGrammarsEqual b a = .panic p := by
    rintro a b ⟨p, h⟩
    cases h' : isGrammarsEqual b a with
    | panic q => exact ⟨q, rfl⟩
    | result r => rw [key b a (.result r) nofun h'] at h; cases h
    | exit t => rw [key b a (.exit t) nofun h'] at h; cases h
  exact ⟨fun r => ⟨key a b _ nofun, key b a _ nofun⟩, fun t => ⟨key a b _ nofun, key b a _ nofun⟩, hp a b, hp b a⟩

/-- **C89.** A grammar with a nil symbol is equal to no grammar, not even to itself: where the nil symbol is reached, the
comparison panics with a nil dereference. -/
theorem C89_nil :
    (∀ a b : Grammar, Sym.nil ∈ a.symbols ∨ Sym.nil ∈ b.symbols → isGrammarsEqual a b ≠ .result true) ∧
    (∀ y, isSymbolsEqual .nil y = .panic .nilMethod) ∧ (∀ s, isSymbolsEqual (.own s) .nil = .panic .nilMethod) ∧
    ∀ t u, isSymbolsEqual (.other (.ok t) u) .nil = .panic .nilMethod := by
  have key : ∀ a b : Grammar, Sym.nil ∈ a.symbols → isGrammarsEqual a b ≠ .result true := by
    intro a b hm h
    rw [C89_equal_iff] at h
    unfold Grammar.symbols at hm
    obtain ⟨r, hr, hm⟩ := List.mem_flatMap.1 hm
    obtain ⟨s, hs, hm⟩ := List.mem_flatten.1 hm
    obtain ⟨r', _, _, h1⟩ := forall₂_mem_left h hr
    obtain ⟨s', _, h2⟩ := forall₂_mem_left h1 hs
    obtain ⟨y, _, h3⟩ := forall₂_mem_left h2 hm
    exact (nil_not_alike y).1 h3
  refine ⟨?_, fun y => rfl, fun s => by cases s <;> rfl, fun t u => rfl⟩
  rintro a b (h | h)
  · exact key a b h
  · intro he
    exact key b a h (((C89_symmetric a b).1 true).1 he)

/-- **C89, concrete cases.** A pointer to a terminal in a grammar: it prints as the terminal; comparing the grammar with
itself panics.  A nil symbol: printing panics.  Two foreign symbols of type 7: the comparison ends the program.  A foreign
symbol that calls itself the empty string is equal to `""`. -/
theorem C89_examples :
    let ptr : Sym := .other (.ok 1) (.ok b!"\"a\"")
    let g (y : Sym) : Grammar := ⟨[⟨b!"S", [[.own (.nonTerminal b!"S"), y], [.own .nothing]]⟩]⟩
    (g ptr).Like ⟨[⟨b!"S", ⟨[⟨[.nonTerminal b!"S", .terminal b!"a"]⟩, ⟨[.nothing]⟩]⟩⟩]⟩ ∧
    (g ptr).string = .ok b!"<S> ::= <S> \"a\" | \"\"" ∧
    isGrammarsEqual (g ptr) (g ptr) = .panic .conversion ∧
    (g .nil).string = .error .nilMethod ∧
    isGrammarsEqual (g (.other (.ok 7) (.ok []))) (g (.other (.ok 7) (.error b!"x"))) = .exit 7 ∧
    isGrammarsEqual (g (.other (.ok 2) (.ok b!"?"))) (g (.own .nothing)) = .result true := by
  refine ⟨.cons ⟨rfl, .cons (.cons rfl (.cons rfl .nil)) (.cons (.cons rfl .nil) .nil)⟩ .nil, rfl, rfl, rfl, rfl, rfl⟩

end AnySym
end LL1
