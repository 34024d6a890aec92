import Verif.Proofs.Messages
import Verif.Props.Parser
import Verif.Props.TableGen

/-!
# The text of errors (C49)
-/

namespace LL1

/-- What can be wrong at a place where the next byte is `b`, and the message for it. -/
inductive Complaint (tbl : Table) (names : Option Names) (b : UInt8) : Str → Prop
  /-- The table has no such row. -/
  | noRow (n : Int) : 0 ≤ n → tbl.get n = none →
      Complaint tbl names b (b!"no rules for non terminal: " ++ called names n)
  /-- The row has no cell for the next byte. -/
  | noCell (n : Int) (row : Row) : 0 ≤ n → tbl.get n = some row → GoMap.get row b = none →
      Complaint tbl names b
        (b!"no rules for " ++ shown b ++ b!" and non terminal op <" ++ called names n ++ b!">")
  /-- An end of line is wanted. -/
  | noEol : b ≠ 10 → b ≠ 13 →
      Complaint tbl names b (b!"no rules for " ++ shown b ++ b!" and builtin terminal op <EOL>")
  /-- A negative row number other than -2. -/
  | builtin (n : Int) : n < 0 → n ≠ -2 →
      Complaint tbl names b (b!"unknown built in type: " ++ decimalInt n)
  /-- The derivation is complete but the input goes on. -/
  | trailing : b ≠ 0 → Complaint tbl names b (b!"expected end of input got " ++ shown b)
  /-- Another character of a literal is wanted. -/
  | char (c : UInt8) : c ≠ b →
      Complaint tbl names b (b!"expected char " ++ shown c ++ b!", got " ++ shown b)

theorem FailsAt.complaint {tbl : Table} {names : Option Names} {src : Str} {ops : List ParserOp} {i k : Nat}
    {e : PErr} (h : FailsAt tbl names src ops i k e) : Complaint tbl names (byteAt src k) e.render := by
  induction h with
  | lit _ _ h => simp only [PErr.render, charCode_eq]; exact .char _ h
  | afterLit _ _ ih => exact ih
  | inside _ _ ih => exact ih
  | afterNt _ _ _ ih => exact ih
  | @noBody n ops i hb =>
    unfold bodyFor at hb
    unfold whyNot
    by_cases hn : 0 ≤ n
    · simp only [hn, if_true] at hb ⊢
      cases hr : tbl.get n with
      | none => simp only [PErr.render, rowName_render]; exact .noRow n hn hr
      | some row =>
        simp only [PErr.render, rowName_render, charCode_eq]
        rw [hr, Option.bind_some] at hb
        exact .noCell n row hn hr hb
    · simp only [hn, if_false] at hb ⊢
      by_cases h2 : n = -2
      · simp only [h2, if_true] at hb ⊢
        simp only [PErr.render, charCode_eq]
        refine .noEol ?_ ?_
        · intro h; simp [h] at hb
        · intro h; simp [h] at hb
      · simp only [h2, if_false, PErr.render, fmtInt_eq]
        exact .builtin n (by omega) h2

/-- **C49.** When parsing fails, it fails at some offset `k` (see C18 for what the later bytes can change:
nothing), and the message says what is wrong there, showing the byte at `k`. -/
theorem C49_message (p : Parser) (he : p.table.HasEntry) (hpub : p.table.Public) (src : Source) (text : Str)
    (hr : readSource src = .ok text) (e : PErr) (h : p.Returns src (.err e)) :
    ∃ k, StuckAt p.table p.names text k e ∧ Complaint p.table p.names (byteAt text k) e.render := by
  obtain ⟨k, hk⟩ := (C13_error_iff_stuck p.table p.names he hpub src text hr e).1.1 h
  refine ⟨k, hk, ?_⟩
  rcases hk with hk | ⟨t, _, hb, rfl⟩
  · exact hk.complaint
  · simp only [PErr.render, charCode_eq]; exact .trailing hb

/-- What a generated parser can complain about, in the terms of its grammar. -/
inductive GrammarComplaint (g : Grammar) (b : UInt8) : Str → Prop
  /-- No alternative of rule `r` can begin with the next byte. -/
  | rule (i : Nat) (r : Rule) : g.rules[i]? = some r → (∀ alt ∈ r.tail.sequences, ¬ First g alt.symbols b) →
      GrammarComplaint g b (b!"no rules for " ++ shown b ++ b!" and non terminal op <" ++ r.head ++ b!">")
  | trailing : b ≠ 0 → GrammarComplaint g b (b!"expected end of input got " ++ shown b)
  | char (c : UInt8) : c ≠ b →
      GrammarComplaint g b (b!"expected char " ++ shown c ++ b!", got " ++ shown b)

/-- **C49.** A generated parser names the rule by its head. -/
theorem C49_generated (order : Order) (ho : ∀ l, (order l).Perm l) (g : Grammar) (hd : DistinctHeads g)
    (hz : g.NulStartFree) (tbl : Table) (names : Names) (h : fromGrammar order g = .ok (tbl, names)) (src : Source) (text : Str)
    (hr : readSource src = .ok text) (e : PErr) (he : (Parser.mk tbl (some names)).Returns src (.err e)) :
    ∃ k, StuckAt tbl (some names) text k e ∧ GrammarComplaint g (byteAt text k) e.render := by
  have hc := fromGrammar_closedTable h
  obtain ⟨k, hk, hm⟩ := C49_message _ hc.hasEntry hc.public src text hr e he
  refine ⟨k, hk, ?_⟩
  have hx := (C24_closed order g tbl names h).2.2 src (.err e) he
  rcases hx with ⟨t, m, hx⟩ | ⟨e', hx, hx'⟩
  · cases hx
  cases hx
  have hcases : (∃ c, c ≠ byteAt text k ∧ e = .expectedChar c (byteAt text k)) ∨
      (byteAt text k ≠ 0 ∧ e = .expectedEnd (byteAt text k)) ∨
      ∃ n, bodyFor tbl n (byteAt text k) = none ∧ e = whyNot tbl (some names) n (byteAt text k) := by
    rcases hk with hk | ⟨_, _, h1, h2⟩
    · generalize hops : [ParserOp.nonTerminal 0] = ops at hk
      generalize 0 = i at hk
      clear hops hx' hm he
      induction hk with
      | lit _ _ h => exact .inl ⟨_, h, rfl⟩
      | afterLit _ _ ih => exact ih
      | inside _ _ ih => exact ih
      | afterNt _ _ _ ih => exact ih
      | noBody hb => exact .inr (.inr ⟨_, hb, rfl⟩)
    · exact .inr (.inl ⟨h1, h2⟩)
  rcases hcases with ⟨c, h1, rfl⟩ | ⟨h1, rfl⟩ | ⟨n, h1, rfl⟩
  · simp only [PErr.render, charCode_eq]; exact .char c h1
  · simp only [PErr.render, charCode_eq]; exact .trailing h1
  · unfold whyNot at hx' ⊢
    by_cases hn : 0 ≤ n
    · simp only [hn, if_true] at hx' ⊢
      cases hrow : tbl.get n with
      | none => rw [hrow] at hx'; cases hx'
      | some row =>
        simp only [PErr.render, charCode_eq, rowName_render]
        obtain ⟨i, hi, rfl⟩ := (hc.rows n).1 ⟨row, hrow⟩
        obtain ⟨r, hri⟩ : ∃ r, g.rules[i]? = some r := ⟨_, List.getElem?_eq_getElem hi⟩
        have := (C25_names order ho g tbl names h).2 hd i r hri
        have e : called (some names) (i : Int) = r.head := by
          unfold called; rw [Option.bind_some, this]
        rw [e]
        refine .rule i r hri fun alt ha hf => ?_
        obtain ⟨row', h1', h2⟩ := C26_cells order g tbl names hz h i r hri
        rw [hrow] at h1'
        cases h1'
        obtain ⟨ops, hops⟩ := (h2 (byteAt text k)).1.2 (.inl ⟨alt, ha, hf⟩)
        simp only [bodyFor, hn, if_true, hrow, Option.bind_some, hops] at h1
        cases h1
    · simp only [hn, if_false] at hx'
      split at hx' <;> cases hx'

/-- A complete message. -/
example : ∃ e, (Parser.mk parenTable (some [(0, b!"pairs")])).Returns (.string b!"(]") (.err e) ∧
    e.render = b!"no rules for ']' (93) and non terminal op <pairs>" := ⟨_, ⟨50, rfl⟩, by decide +kernel⟩

end LL1
