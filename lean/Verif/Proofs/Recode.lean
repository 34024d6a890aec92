import Verif.Spec.Recode
import Verif.Spec.Acceptance
import Verif.Proofs.ParserTop

/-!
# Proofs for C92
-/

namespace LL1
namespace Recoding

theorem map_self {α : Type} {f : α → α} (h : ∀ y, f y = y) {l : List α} : l.map f = l :=
  (List.map_congr_left fun y _ => h y).trans (List.map_id _)

variable (c : Recoding)

theorem inj {a b : UInt8} (h : c.enc a = c.enc b) : a = b := by rw [← c.dec_enc a, h, c.dec_enc]

theorem enc_eq_zero {b : UInt8} : c.enc b = 0 ↔ b = 0 :=
  ⟨fun h => c.inj (h.trans c.zero.symm), fun h => by rw [h, c.zero]⟩

/-- The exchange backwards. -/
def inv : Recoding := ⟨c.dec, c.enc, c.enc_dec, c.dec_enc, by rw [← c.zero, c.dec_enc, c.zero]⟩

theorem map_inv (s : Str) : (s.map c.enc).map c.inv.enc = s := by
  rw [List.map_map]
  exact map_self fun b => c.dec_enc b

theorem symbol_inv (y : Symbol) : (y.recode c).recode c.inv = y := by
  cases y <;> simp only [Symbol.recode, map_inv]

theorem sequence_inv (s : Sequence) : (s.recode c).recode c.inv = s := by
  simp only [Sequence.recode, List.map_map]
  have : List.map (Symbol.recode c.inv ∘ Symbol.recode c) s.symbols = s.symbols := map_self fun y => c.symbol_inv y
  rw [this]

theorem rule_inv (r : Rule) : (r.recode c).recode c.inv = r := by
  simp only [Rule.recode, List.map_map]
  have : List.map (Sequence.recode c.inv ∘ Sequence.recode c) r.tail.sequences = r.tail.sequences := by
    exact map_self fun y => c.sequence_inv y
  rw [this]

theorem grammar_inv (g : Grammar) : (g.recode c).recode c.inv = g := by
  simp only [Grammar.recode, List.map_map]
  have : List.map (Rule.recode c.inv ∘ Rule.recode c) g.rules = g.rules := by
    exact map_self fun y => c.rule_inv y
  rw [this]

variable {c} {g : Grammar}

theorem get_rule {i : Nat} {r : Rule} (h : g.rules[i]? = some r) : (g.recode c).rules[i]? = some (r.recode c) := by
  simp [Grammar.recode, h]

theorem rule_back {i : Nat} {r' : Rule} (h : (g.recode c).rules[i]? = some r') :
    ∃ r, g.rules[i]? = some r ∧ r.recode c = r' := by
  simpa [Grammar.recode, List.getElem?_map, Option.map_eq_some_iff] using h

theorem alt {i : Nat} {a : Sequence} (h : g.Alt i a) : (g.recode c).Alt i (a.recode c) := by
  obtain ⟨r, h1, h2⟩ := h
  exact ⟨_, get_rule h1, List.mem_map_of_mem h2⟩

theorem alt_back {i : Nat} {a' : Sequence} (h : (g.recode c).Alt i a') : ∃ a, g.Alt i a ∧ a.recode c = a' := by
  obtain ⟨r', h1, h2⟩ := h
  obtain ⟨r, h3, rfl⟩ := rule_back h1
  obtain ⟨a, h4, h5⟩ := List.mem_map.1 h2
  exact ⟨a, ⟨r, h3, h4⟩, h5⟩

theorem head_iff {i : Nat} {name : Str} : (g.recode c).Head i name ↔ g.Head i name := by
  constructor
  · rintro ⟨r', h1, rfl⟩
    obtain ⟨r, h3, rfl⟩ := rule_back h1
    exact ⟨r, h3, rfl⟩
  · rintro ⟨r, h1, rfl⟩
    exact ⟨_, get_rule h1, rfl⟩

theorem refers_iff {i : Nat} {name : Str} : (g.recode c).Refers name i ↔ g.Refers name i := by
  simp only [Grammar.Refers, head_iff]

theorem defines_iff {name : Str} : (g.recode c).Defines name ↔ g.Defines name := by
  simp only [Grammar.Defines, head_iff]

theorem gen {ys : List Symbol} {w : Str} (h : Gen g ys w) : Gen (g.recode c) (ys.map (Symbol.recode c)) (w.map c.enc) := by
  induction h with
  | nil => exact .nil
  | terminal _ ih => simpa [Symbol.recode] using Gen.terminal ih
  | nothing _ ih => exact .nothing ih
  | nonTerminal hr ha _ _ ih1 ih2 =>
    simpa [Symbol.recode] using Gen.nonTerminal (refers_iff.2 hr) (alt ha) ih1 ih2

theorem rnullable {ys : List Symbol} (h : RNullable g ys) : RNullable (g.recode c) (ys.map (Symbol.recode c)) := by
  induction h with
  | nil => exact .nil
  | nothing _ ih => exact .nothing ih
  | emptyTerminal _ ih => exact .emptyTerminal ih
  | nul => simp only [List.map_cons, Symbol.recode, c.zero]; exact .nul
  | nonTerminal hr ha _ _ ih1 ih2 => exact .nonTerminal (refers_iff.2 hr) (alt ha) ih1 ih2

theorem not_nul {x : Symbol} (h : ∀ t, x ≠ .terminal (0 :: t)) : ∀ t, x.recode c ≠ .terminal (0 :: t) := by
  intro t he
  cases x with
  | terminal s =>
    cases s with
    | nil => simp [Symbol.recode] at he
    | cons b s =>
      simp only [Symbol.recode, List.map_cons, Symbol.terminal.injEq, List.cons.injEq] at he
      exact h s (by rw [c.enc_eq_zero.1 he.1])
  | nonTerminal n => cases he
  | nothing => cases he

theorem rfirst {ys : List Symbol} {b : UInt8} (h : RFirst g ys b) :
    RFirst (g.recode c) (ys.map (Symbol.recode c)) (c.enc b) := by
  induction h with
  | terminal hb => exact .terminal fun h => hb (c.enc_eq_zero.1 h)
  | head hr ha _ ih => exact .head (refers_iff.2 hr) (alt ha) ih
  | skip hx hn _ ih => exact .skip (not_nul hx) (rnullable hn) ih

theorem split {a : Sequence} {pre post : List Symbol} (h : a.symbols = pre ++ post) :
    (a.recode c).symbols = pre.map (Symbol.recode c) ++ post.map (Symbol.recode c) := by
  simp [Sequence.recode, h]

theorem rnextFollow {i : Nat} {b : UInt8} (h : RNextFollow g i b) : RNextFollow (g.recode c) i (c.enc b) := by
  induction h with
  | start => rw [c.zero]; exact .start
  | last ha hs hh _ ih => exact .last (alt ha) (split hs) (head_iff.2 hh) ih
  | next ha hs hh hf => exact .next (alt ha) (split hs) (head_iff.2 hh) (rfirst hf)
  | nextNullable ha hs hh hn _ ih => exact .nextNullable (alt ha) (split hs) (head_iff.2 hh) (rnullable hn) ih

/-! ## Backwards -/

theorem symbols_inv (ys : List Symbol) : (ys.map (Symbol.recode c)).map (Symbol.recode c.inv) = ys := by
  rw [List.map_map]
  exact map_self fun y => c.symbol_inv y

theorem gen_iff {ys : List Symbol} {w : Str} :
    Gen (g.recode c) (ys.map (Symbol.recode c)) (w.map c.enc) ↔ Gen g ys w := by
  refine ⟨fun h => ?_, gen⟩
  have := gen (c := c.inv) h
  rwa [grammar_inv, symbols_inv, map_inv] at this

theorem rnullable_iff {ys : List Symbol} : RNullable (g.recode c) (ys.map (Symbol.recode c)) ↔ RNullable g ys := by
  refine ⟨fun h => ?_, rnullable⟩
  have := rnullable (c := c.inv) h
  rwa [grammar_inv, symbols_inv] at this

theorem rfirst_iff {ys : List Symbol} {b : UInt8} :
    RFirst (g.recode c) (ys.map (Symbol.recode c)) (c.enc b) ↔ RFirst g ys b := by
  refine ⟨fun h => ?_, rfirst⟩
  have := rfirst (c := c.inv) h
  rw [grammar_inv, symbols_inv] at this
  exact (c.dec_enc b) ▸ this

theorem rnextFollow_iff {i : Nat} {b : UInt8} : RNextFollow (g.recode c) i (c.enc b) ↔ RNextFollow g i b := by
  refine ⟨fun h => ?_, rnextFollow⟩
  have := rnextFollow (c := c.inv) h
  rw [grammar_inv] at this
  exact (c.dec_enc b) ▸ this

theorem rclash {i : Nat} (h : RClash g i) : RClash (g.recode c) i := by
  obtain ⟨r, pre, a, post, b, hr, hs, hn, hf, e, he, hor⟩ := h
  refine ⟨r.recode c, pre.map (Sequence.recode c), a.recode c, post.map (Sequence.recode c), c.enc b, get_rule hr,
    by simp [Rule.recode, hs], rnullable hn, rnextFollow hf, e.recode c, List.mem_map_of_mem he, ?_⟩
  exact hor.imp rfirst rnullable

theorem rclash_iff {i : Nat} : RClash (g.recode c) i ↔ RClash g i := by
  refine ⟨fun h => ?_, rclash⟩
  have := rclash (c := c.inv) h
  rwa [grammar_inv] at this

theorem looksAt {ys : List Symbol} {x : Symbol} (h : FirstLooksAt g ys x) :
    FirstLooksAt (g.recode c) (ys.map (Symbol.recode c)) (x.recode c) := by
  induction h with
  | first => exact .first
  | past hr hn _ ih =>
    obtain ⟨a, ha, hn⟩ := hn
    exact .past (refers_iff.2 hr) ⟨_, alt ha, rnullable hn⟩ ih

theorem looksAt_back {ys : List Symbol} {x' : Symbol} (h : FirstLooksAt (g.recode c) (ys.map (Symbol.recode c)) x') :
    ∃ x, FirstLooksAt g ys x ∧ x.recode c = x' := by
  have := looksAt (c := c.inv) h
  rw [grammar_inv, symbols_inv] at this
  exact ⟨_, this, c.inv.symbol_inv x'⟩

theorem recode_nothing {x : Symbol} : x.recode c = .nothing ↔ x = .nothing := by cases x <;> simp [Symbol.recode]
theorem recode_empty {x : Symbol} : x.recode c = .terminal [] ↔ x = .terminal [] := by cases x <;> simp [Symbol.recode]
theorem recode_nonTerminal {x : Symbol} {n : Str} : x.recode c = .nonTerminal n ↔ x = .nonTerminal n := by
  cases x <;> simp [Symbol.recode]

theorem examined (h : Examined g) : Examined (g.recode c) := by
  refine ⟨?_, ?_, ?_, ?_, ?_⟩
  · simpa [Grammar.recode] using h.rules
  · intro i a' ha0
    obtain ⟨a, ha, rfl⟩ := alt_back ha0
    simpa [Sequence.recode] using h.alternatives i a ha
  · intro i a' x' ha0 hx0
    obtain ⟨a, ha, rfl⟩ := alt_back ha0
    obtain ⟨x, hx, rfl⟩ := looksAt_back hx0
    obtain ⟨h1, h2, h3⟩ := h.firsts i a x ha hx
    refine ⟨fun e => h1 (recode_empty.1 e), fun n e => defines_iff.2 (h2 n (recode_nonTerminal.1 e)), fun e => ?_⟩
    simp [Sequence.recode, h3 (recode_nothing.1 e), Symbol.recode]
  · intro i a' pre name next post ha0 hs hd
    obtain ⟨a, ha, rfl⟩ := alt_back ha0
    have hs' : a.symbols = pre.map (Symbol.recode c.inv) ++ .nonTerminal name :: next.recode c.inv :: post.map (Symbol.recode c.inv) := by
      have := congrArg (List.map (Symbol.recode c.inv)) hs
      simpa only [Sequence.recode, symbols_inv, List.map_append, List.map_cons, Symbol.recode] using this
    obtain ⟨h1, h2⟩ := h.follows i a _ name _ _ ha hs' (defines_iff.1 hd)
    exact ⟨fun e => h1 (recode_empty.2 e), fun n e => defines_iff.2 (h2 n (recode_nonTerminal.2 e))⟩
  · intro i a' b' x' ha0 hf hx0
    obtain ⟨a, ha, rfl⟩ := alt_back ha0
    obtain ⟨x, hx, rfl⟩ := List.mem_map.1 hx0
    rw [← c.enc_dec b'] at hf
    obtain ⟨h1, h2⟩ := h.cells i a _ x ha (rfirst_iff.1 hf) hx
    exact ⟨fun e => h1 (recode_nothing.1 e), fun n e => defines_iff.2 (h2 n (recode_nonTerminal.1 e))⟩

theorem examined_iff : Examined (g.recode c) ↔ Examined g := by
  refine ⟨fun h => ?_, examined⟩
  have := examined (c := c.inv) h
  rwa [grammar_inv] at this

/-! ## The parser -/

theorem peek_map (src : Str) (off : Nat) : peek (src.map c.enc) off = c.enc (peek src off) := by
  unfold peek
  simp only [List.length_map, List.getElem_map]
  split
  · exact c.zero.symm
  · rfl

/-- The state with the bytes exchanged. -/
def state (c : Recoding) (s : PState) : PState := ⟨s.offset, s.opStack.map (ParserOp.recode c), s.prodStack⟩

def res (c : Recoding) : StepRes → StepRes
  | .next s => .next (state c s)
  | .done o => .done (o.recode c)

theorem step {tbl tbl' : Table} (ht : Table.Recoded c tbl tbl') (heol : tbl.UsesEOL → c.enc 10 = 10 ∧ c.enc 13 = 13)
    (nm : Option Names) (src : Str) (s : PState)
    (hs : ParserOp.nonTerminal (-2) ∈ s.opStack → c.enc 10 = 10 ∧ c.enc 13 = 13) :
    LL1.step tbl' nm (src.map c.enc) (state c s) = res c (LL1.step tbl nm src s) ∧
    ∀ s', LL1.step tbl nm src s = .next s' → ParserOp.nonTerminal (-2) ∈ s'.opStack → c.enc 10 = 10 ∧ c.enc 13 = 13 := by
  obtain ⟨off, ops, prods⟩ := s
  cases ops with
  | nil => exact ⟨rfl, fun s' h' => by cases h'⟩
  | cons op rest =>
    have hs' : ParserOp.nonTerminal (-2) ∈ rest → c.enc 10 = 10 ∧ c.enc 13 = 13 := fun h => hs (List.mem_cons_of_mem _ h)
    cases op with
    | nonTerminal n =>
      simp only [LL1.step, state, List.map_cons, ParserOp.recode, processNonTerminal]
      by_cases hn : n < 0
      · simp only [hn, if_true, processBuiltinNonTerminal]
        by_cases h2 : n = -2
        · subst h2
          obtain ⟨e1, e2⟩ := hs (by simp)
          have i1 : c.enc (peek src off) = 10 ↔ peek src off = 10 :=
            ⟨fun h => c.inj (h.trans e1.symm), fun h => by rw [h, e1]⟩
          have i2 : c.enc (peek src off) = 13 ↔ peek src off = 13 :=
            ⟨fun h => c.inj (h.trans e2.symm), fun h => by rw [h, e2]⟩
          simp only [if_true, peek_map, i1, i2]
          refine ⟨?_, fun _ _ _ => ⟨e1, e2⟩⟩
          split
          · simp [res, state, ParserOp.recode, e1]
          · split
            · simp [res, state, ParserOp.recode, e1, e2]
            · rfl
        · simp only [h2, if_false]
          exact ⟨rfl, fun s' h' => by cases h'⟩
      · simp only [hn, if_false, processTableNonTerminal]
        have hrow := ht n
        cases hr : tbl.get n with
        | none =>
          rw [hr] at hrow
          simp only [hrow]
          exact ⟨rfl, fun s' h' => by cases h'⟩
        | some row =>
          rw [hr] at hrow
          obtain ⟨row', hr', hc⟩ := hrow
          simp only [hr', peek_map, hc]
          cases hg : GoMap.get row (peek src off) with
          | none => exact ⟨rfl, fun s' h' => by cases h'⟩
          | some body =>
            simp only [Option.map_some]
            refine ⟨?_, fun s' h' => ?_⟩
            · simp [res, state, ParserOp.recode]
            · cases h'
              intro hk
              simp only [List.mem_append, List.mem_cons, reduceCtorEq, false_or] at hk
              rcases hk with hk | hk
              · exact heol ⟨n, row, _, body, hr, hg, hk⟩
              · exact hs' hk
    | terminal value =>
      refine ⟨?_, fun s' h' => ?_⟩
      · simp only [LL1.step, state, List.map_cons, ParserOp.recode, processTerminal, res, List.map_append, List.map_map,
          List.length_map]
        congr 3
      · cases h'
        intro hk
        simp only [processTerminal, List.mem_append, List.mem_map, List.mem_cons, reduceCtorEq, and_false, exists_false,
          false_or] at hk
        exact hs' hk
    | function n pos amount =>
      simp only [LL1.step, state, List.map_cons, ParserOp.recode, processFunction]
      split
      · refine ⟨rfl, fun s' h' => ?_⟩
        cases h'; exact hs'
      · split
        · exact ⟨rfl, fun s' h' => by cases h'⟩
        · refine ⟨rfl, fun s' h' => ?_⟩
          cases h'; exact hs'
    | eos =>
      refine ⟨?_, fun s' h' => by cases h'⟩
      simp only [LL1.step, state, List.map_cons, ParserOp.recode, processEOS, res, peek_map, ne_eq, c.enc_eq_zero]
      split
      · rfl
      · cases prods with
        | nil => rfl
        | cons p ps => cases nm <;> rfl
    | char b =>
      simp only [LL1.step, state, List.map_cons, ParserOp.recode, processChar, peek_map]
      by_cases hb : b = peek src off
      · simp only [hb, ne_eq, not_true, if_false]
        refine ⟨rfl, fun s' h' => ?_⟩
        cases h'; exact hs'
      · have : c.enc b ≠ c.enc (peek src off) := fun h => hb (c.inj h)
        simp only [hb, this, ne_eq, not_false_eq_true, if_true]
        exact ⟨rfl, fun s' h' => by cases h'⟩
    | nil => exact ⟨rfl, fun s' h' => by cases h'⟩

theorem runFuel {tbl tbl' : Table} (ht : Table.Recoded c tbl tbl') (heol : tbl.UsesEOL → c.enc 10 = 10 ∧ c.enc 13 = 13)
    (nm : Option Names) (src : Str) : ∀ (fuel : Nat) (s : PState)
    (_ : ParserOp.nonTerminal (-2) ∈ s.opStack → c.enc 10 = 10 ∧ c.enc 13 = 13),
    LL1.runFuel tbl' nm (src.map c.enc) fuel (state c s) = (LL1.runFuel tbl nm src fuel s).map (Outcome.recode c)
  | 0, _, _ => rfl
  | fuel + 1, s, hs => by
    obtain ⟨h1, h2⟩ := step ht heol nm src s hs
    unfold LL1.runFuel
    rw [h1]
    cases hst : LL1.step tbl nm src s with
    | next s' => exact runFuel ht heol nm src fuel s' (h2 s' hst)
    | done o => rfl

theorem parseFuel {tbl tbl' : Table} (ht : Table.Recoded c tbl tbl') (heol : tbl.UsesEOL → c.enc 10 = 10 ∧ c.enc 13 = 13)
    (he : tbl.HasEntry) (nm : Option Names) (src src' : Source) (text : Str) (hr : readSource src = .ok text)
    (hr' : readSource src' = .ok (text.map c.enc)) (fuel : Nat) :
    (Parser.mk tbl' nm).parseFuel fuel src' = ((Parser.mk tbl nm).parseFuel fuel src).map (Outcome.recode c) := by
  obtain ⟨row, h0⟩ := he
  have h0' := ht 0
  rw [h0] at h0'
  obtain ⟨row', h0', _⟩ := h0'
  unfold Parser.parseFuel
  simp only [hasEntry_length ⟨row, h0⟩, hasEntry_length ⟨row', h0'⟩, h0, h0', if_false, hr, hr']
  exact runFuel ht heol nm text fuel initState (by simp [initState])

end Recoding
end LL1
