import Verif.Proofs.Recode
import Verif.Props.Acceptance
import Verif.Props.Reading

/-!
# C92: no byte but NUL is special

Exchanging the bytes of the terminals and of the text in the same way changes nothing.
-/

namespace LL1
open Recoding

/-- **C92.** The language: the exchanged grammar derives the exchanged strings. -/
theorem C92_language (c : Recoding) (g : Grammar) (w : Str) : Sentence (g.recode c) (w.map c.enc) ↔ Sentence g w := by
  constructor
  · rintro ⟨a', ha', h⟩
    obtain ⟨a, ha, rfl⟩ := alt_back ha'
    exact ⟨a, ha, gen_iff.1 h⟩
  · rintro ⟨a, ha, h⟩
    exact ⟨_, alt ha, gen h⟩

/-- **C92.** `FromGrammar` accepts both or neither, and reports a conflict for both or neither (if nothing else is wrong
with the grammar). -/
theorem C92_accepted (c : Recoding) (o o' : Order) (g : Grammar) :
    ((∃ tbl m, fromGrammar o (g.recode c) = .ok (tbl, m)) ↔ ∃ tbl m, fromGrammar o' g = .ok (tbl, m)) ∧
    (Examined g → (fromGrammar o (g.recode c) = .err .conflict ↔ fromGrammar o' g = .err .conflict)) := by
  refine ⟨?_, fun he => ?_⟩
  · rw [C85_accepted_iff, C85_accepted_iff, examined_iff]
    simp only [rclash_iff]
  · rw [C85_conflict_iff o _ (examined he), C85_conflict_iff o' _ he]
    simp only [rclash_iff]

theorem opOf_recode {c : Recoding} {g : Grammar} {y : Symbol} {a : ParserOp} (h : OpOf g y a) :
    OpOf (g.recode c) (y.recode c) (a.recode c) := by
  cases y with
  | terminal t => cases h; rfl
  | nonTerminal n =>
    obtain ⟨i, hi, rfl⟩ := h
    exact ⟨i, refers_iff.2 hi, rfl⟩
  | nothing => exact h.elim

theorem ops_recode {c : Recoding} {g : Grammar} {ys : List Symbol} {a : List ParserOp} (h : AllPairs (OpOf g) ys a) :
    AllPairs (OpOf (g.recode c)) (ys.map (Symbol.recode c)) (a.map (ParserOp.recode c)) := by
  induction h with
  | nil => exact .nil
  | cons h1 _ ih => exact .cons (opOf_recode h1) ih

theorem rpredicted_recode {c : Recoding} {g : Grammar} {b : UInt8} {alts : List Sequence} {x : List ParserOp}
    (h : RPredicted g b alts x) :
    RPredicted (g.recode c) (c.enc b) (alts.map (Sequence.recode c)) (x.map (ParserOp.recode c)) := by
  induction h with
  | nil => exact .nil
  | take hf ha _ ih =>
    rw [List.map_append]
    exact .take (rfirst hf) (ops_recode ha) ih
  | skip hn _ ih => exact .skip (fun h => hn (rfirst_iff.1 h)) ih

/-- **C92.** The table of the exchanged grammar is the exchanged table. -/
theorem C92_generated (c : Recoding) (o o' : Order) (g : Grammar) (tbl tbl' : Table) (m m' : Names)
    (e : fromGrammar o g = .ok (tbl, m)) (e' : fromGrammar o' (g.recode c) = .ok (tbl', m')) :
    Table.Recoded c tbl tbl' := by
  intro n
  have k := fromGrammar_closedTable e
  have k' := fromGrammar_closedTable e'
  have hlen : (g.recode c).rules.length = g.rules.length := by simp [Grammar.recode]
  cases hn : tbl.get n with
  | none =>
    show tbl'.get n = none
    cases hn' : tbl'.get n with
    | none => rfl
    | some row =>
      obtain ⟨i, hi, rfl⟩ := (k'.rows n).1 ⟨row, hn'⟩
      obtain ⟨row2, h2⟩ := (k.rows i).2 ⟨i, by omega, rfl⟩
      rw [hn] at h2
      cases h2
  | some row =>
    obtain ⟨i, hi, rfl⟩ := (k.rows n).1 ⟨row, hn⟩
    have hr := List.getElem?_eq_getElem hi
    obtain ⟨row1, a1, a2⟩ := C74_cells o g tbl m e i _ hr
    obtain ⟨row2, b1, b2⟩ := C74_cells o' _ tbl' m' e' i _ (get_rule hr)
    rw [hn] at a1
    cases a1
    refine ⟨row2, b1, fun b => ?_⟩
    have hex : (∃ ops, GoMap.get row2 (c.enc b) = some ops) ↔ ∃ ops, GoMap.get row b = some ops := by
      rw [(a2 b).1, (b2 (c.enc b)).1]
      simp only [Rule.recode, List.mem_map, exists_exists_and_eq_and, Sequence.recode, rfirst_iff, rnullable_iff,
        rnextFollow_iff]
    cases h1 : GoMap.get row b with
    | none =>
      cases h2 : GoMap.get row2 (c.enc b) with
      | none => rfl
      | some ops =>
        obtain ⟨x, hx⟩ := hex.1 ⟨ops, h2⟩
        rw [h1] at hx
        cases hx
    | some ops =>
      obtain ⟨x, hx⟩ := hex.2 ⟨ops, h1⟩
      rw [hx]
      have p1 := rpredicted_recode (c := c) ((a2 b).2 ops h1)
      have p2 := (b2 (c.enc b)).2 x hx
      rw [Option.map_some, TG.rpredicted_det p2 p1]

/-- **C92.** For any table that a caller may write: on the exchanged text the parser with the exchanged table does in the
same number of steps what the other does - unless the table uses the built-in non-terminal for line ends, for which LF and
CR are special; then it does if these two are not exchanged. -/
theorem C92_any_table (c : Recoding) (tbl tbl' : Table) (ht : Table.Recoded c tbl tbl') (he : tbl.HasEntry)
    (heol : tbl.UsesEOL → c.enc 10 = 10 ∧ c.enc 13 = 13) (nm : Option Names) (src src' : Source) (text : Str)
    (hr : readSource src = .ok text) (hr' : readSource src' = .ok (text.map c.enc)) (fuel : Nat) :
    (Parser.mk tbl' nm).parseFuel fuel src' = ((Parser.mk tbl nm).parseFuel fuel src).map (Outcome.recode c) :=
  parseFuel ht heol he nm src src' text hr hr' fuel

theorem recode_injective (c : Recoding) {a b : PErr} (h : a.recode c = b.recode c) : a = b := by
  cases a <;> cases b <;> simp_all [PErr.recode] <;> first | exact c.inj h | exact ⟨c.inj h.1, c.inj h.2⟩ | exact c.inj h.1

/-- **C92.** The parser for the exchanged grammar returns for the exchanged text the tree and names the other parser returns
for the text, or the same error about the exchanged bytes, or runs forever if the other does. -/
theorem C92_parse (c : Recoding) (o o' : Order) (g : Grammar) (tbl tbl' : Table) (m m' : Names)
    (e : fromGrammar o g = .ok (tbl, m)) (e' : fromGrammar o' (g.recode c) = .ok (tbl', m')) (nm : Option Names)
    (src src' : Source) (text : Str) (hr : readSource src = .ok text) (hr' : readSource src' = .ok (text.map c.enc)) :
    (∀ t n, (Parser.mk tbl' nm).Returns src' (.ok t n) ↔ (Parser.mk tbl nm).Returns src (.ok t n)) ∧
    (∀ err, (Parser.mk tbl' nm).Returns src' (.err (err.recode c)) ↔ (Parser.mk tbl nm).Returns src (.err err)) ∧
    (∀ p, (Parser.mk tbl' nm).Returns src' (.panic p) ↔ (Parser.mk tbl nm).Returns src (.panic p)) ∧
    ((Parser.mk tbl' nm).Diverges src' ↔ (Parser.mk tbl nm).Diverges src) := by
  have k := fromGrammar_closedTable e
  have key : ∀ fuel, (Parser.mk tbl' nm).parseFuel fuel src' = ((Parser.mk tbl nm).parseFuel fuel src).map (Outcome.recode c) :=
    C92_any_table c tbl tbl' (C92_generated c o o' g tbl tbl' m m' e e') k.hasEntry (by
      rintro ⟨n, row, b, ops, h1, h2, h3⟩
      obtain ⟨i, hi, hi2⟩ := k.ops n row b ops h1 h2 _ h3
      omega) nm src src' text hr hr'
  unfold Parser.Returns Parser.Diverges
  simp only [key, Option.map_eq_some_iff, Option.map_eq_none_iff]
  refine ⟨fun t n => ?_, fun err => ?_, fun p => ?_, trivial⟩
  · constructor
    · rintro ⟨f, x, hx, hx2⟩
      cases x <;> cases hx2
      exact ⟨f, hx⟩
    · rintro ⟨f, hf⟩
      exact ⟨f, _, hf, rfl⟩
  · constructor
    · rintro ⟨f, x, hx, hx2⟩
      cases x with
      | err e2 =>
        simp only [Outcome.recode, Outcome.err.injEq] at hx2
        exact ⟨f, recode_injective c hx2 ▸ hx⟩
      | ok t n => cases hx2
      | panic p => cases hx2
    · rintro ⟨f, hf⟩
      exact ⟨f, _, hf, rfl⟩
  · constructor
    · rintro ⟨f, x, hx, hx2⟩
      cases x <;> cases hx2
      exact ⟨f, hx⟩
    · rintro ⟨f, hf⟩
      exact ⟨f, _, hf, rfl⟩

/-- The exchange of two bytes other than NUL. -/
def swapBytes (x y : UInt8) (hx : x ≠ 0) (hy : y ≠ 0) : Recoding where
  enc b := if b = x then y else if b = y then x else b
  dec b := if b = x then y else if b = y then x else b
  dec_enc b := by by_cases h : b = x <;> by_cases h' : b = y <;> simp_all
  enc_dec b := by by_cases h : b = x <;> by_cases h' : b = y <;> simp_all
  zero := by rw [if_neg (Ne.symm hx), if_neg (Ne.symm hy)]

/-- Round brackets written as LF and `x` as it is: the exchanged nested-brackets grammar and text. -/
example : let c := swapBytes 40 10 (by decide) (by decide)
    (∃ r, fromGrammar id (Ex.nested.recode c) = .ok r) ∧ b!"(x),x".map c.enc = [10, 120, 41, 44, 120] :=
  ⟨by
    obtain ⟨a, b, h⟩ := (C92_accepted (swapBytes 40 10 (by decide) (by decide)) id id Ex.nested).1.2 ⟨_, _, Ex.nested_ok⟩
    exact ⟨_, h⟩, by decide +kernel⟩

/-- **C92.** NUL is special: `S ::= "a"` does not accept the empty text, `S ::= "\x00"` does.  And so are LF and CR in a
table that uses the built-in −2: with it the text LF is accepted, and no other byte in its place. -/
theorem C92_special :
    (∃ tbl m e, fromGrammar id ⟨[rule b!"S" [[.terminal b!"a"]]]⟩ = .ok (tbl, m) ∧
      (Parser.mk tbl (some m)).Returns (.string []) (.err e)) ∧
    (∃ tbl m t n, fromGrammar id ⟨[rule b!"S" [[.terminal [0]]]]⟩ = .ok (tbl, m) ∧
      (Parser.mk tbl (some m)).Returns (.string []) (.ok t n)) ∧
    (∃ t n, (Parser.mk [(0, [(10, [.nonTerminal (-2)])])] (some [])).Returns (.string [10]) (.ok t n)) ∧
    (∃ e, (Parser.mk [(0, [(97, [.nonTerminal (-2)])])] (some [])).Returns (.string [97]) (.err e)) :=
  ⟨⟨_, _, _, rfl, 20, rfl⟩, ⟨_, _, _, _, rfl, 20, rfl⟩, ⟨_, _, 20, rfl⟩, ⟨_, 20, rfl⟩⟩

end LL1
