import Verif.Proofs.Truth
import Verif.Spec.Complaint
import Verif.Props.Reading

/-!
# C76: the complaints of `FromGrammar` are true
-/

namespace LL1

/-- **C76.** Whatever error `FromGrammar` returns, for whatever grammar, it is true of that grammar: the name it gives is
used and not defined, there is an alternative with `""` beside other symbols, with an empty terminal, without symbols, or
a clash in the sense the generator reads the grammar.  "ruleIndex exceeding grammar rules" is never returned. -/
theorem C76_errors_true (order : Order) (g : Grammar) (e : TG.Err) (h : fromGrammar order g = .err e) :
    GrammarFault g e := by
  cases e with
  | conflict => exact C74_conflict_clash order g h
  | _ => exact (TG.Blame.fromGrammar order g).1 _ h

/-- **C76.** The panics: "index out of range" only without rules or with an empty terminal somewhere, "unreachable" only
with `""` beside other symbols. -/
theorem C76_panics_true (order : Order) (g : Grammar) (p : TG.Panic) (h : fromGrammar order g = .panic p) :
    (p = .indexOutOfRange ∧ (g.rules = [] ∨ ∃ i alt, g.Alt i alt ∧ .terminal [] ∈ alt.symbols)) ∨
    (p = .unreachable ∧ ∃ i alt, g.Alt i alt ∧ .nothing ∈ alt.symbols ∧ alt.symbols ≠ [.nothing]) := by
  cases p with
  | unreachable => exact .inr ⟨rfl, (TG.Blame.fromGrammar order g).2 h⟩
  | indexOutOfRange =>
    refine .inl ⟨rfl, ?_⟩
    by_cases h0 : g.rules = []
    · exact .inl h0
    · refine .inr (Classical.byContradiction fun hn => TG.fromGrammar_no_index order h0 ?_ h)
      intro i alt t ha ht he
      exact hn ⟨i, alt, ha, he ▸ ht⟩

/-- **C76.** A grammar that has an alternative without symbols is never accepted. -/
theorem C76_empty_alternative (order : Order) (g : Grammar) (i : Nat) (alt : Sequence) (ha : g.Alt i alt)
    (he : alt.symbols = []) (tbl : Table) (names : Names) : fromGrammar order g ≠ .ok (tbl, names) :=
  fun h => (TG.fromGrammar_rok h).nonempty i alt ha he

/-- **C76.** So every grammar ends in one of four ways, each with its reason. -/
theorem C76_cases (order : Order) (g : Grammar) :
    (∃ tbl names, fromGrammar order g = .ok (tbl, names)) ∨
    (∃ e, fromGrammar order g = .err e ∧ GrammarFault g e) ∨
    (fromGrammar order g = .panic .indexOutOfRange ∧ (g.rules = [] ∨ ¬ g.NoEmptyTerminal)) ∨
    (fromGrammar order g = .panic .unreachable ∧ ¬ g.NothingAlone) := by
  rcases C22_terminates order g with h | ⟨e, h⟩ | ⟨p, h⟩
  · exact .inl h
  · exact .inr (.inl ⟨e, h, C76_errors_true order g e h⟩)
  · rcases C76_panics_true order g p h with ⟨rfl, hr⟩ | ⟨rfl, i, alt, ha, h1, h2⟩
    · refine .inr (.inr (.inl ⟨h, hr.imp id ?_⟩))
      rintro ⟨i, alt, ha, ht⟩ hn
      exact hn i alt [] ha ht rfl
    · exact .inr (.inr (.inr ⟨h, fun hn => h2 (hn i alt ha h1)⟩))

/-- **C76.** Each of them occurs. -/
theorem C76_witness :
    fromGrammar id ⟨[rule b!"S" [[.nothing, .terminal b!"a"]]]⟩ = .err .nothingNotAlone ∧
    fromGrammar id ⟨[rule b!"S" [[.terminal b!"a", .nonTerminal b!"T"]]]⟩ = .err (.undefined b!"T") ∧
    fromGrammar id ⟨[rule b!"S" [[.nonTerminal b!"S", .terminal []]]]⟩ = .err .emptyTerminal ∧
    fromGrammar id ⟨[rule b!"S" [[]]]⟩ = .err .emptySequence ∧
    fromGrammar id ⟨[rule b!"S" [[.nothing], [.nothing]]]⟩ = .err .conflict := by decide +kernel

end LL1
