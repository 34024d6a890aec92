import Verif.Proofs.Stdout
import Verif.Props.TableGen

/-!
# C64: what `FromGrammar` writes to standard output
-/

namespace LL1

/-- **C64.** Recording the output changes nothing else: verdict, table and names are those of `fromGrammar`. -/
theorem C64_same_results (order : Order) (g : Grammar) : (fromGrammarOut order g).2 = fromGrammar order g :=
  TG.fromGrammarOut_snd order g

/-- **C64.** For every grammar: `FromGrammar` prints exactly when it reports "multiple parser op sets", and then exactly
one cell in Go's format; in all other cases (success, other errors, panics) it prints nothing. -/
theorem C64_prints_iff_conflict (order : Order) (g : Grammar) :
    ((fromGrammarOut order g).1 ≠ [] ↔ fromGrammar order g = .err .conflict) ∧
    (fromGrammar order g = .err .conflict → ∃ ops, (fromGrammarOut order g).1 = TG.println ops) := by
  have h := TG.good_any order g
  unfold TG.Good at h
  rw [TG.fromGrammarOut_snd] at h
  rcases h with ⟨h1, h2⟩ | ⟨h1, ops, -, h2⟩
  · exact ⟨⟨fun h => (h h1).elim, fun h => (h2 h).elim⟩, fun h => (h2 h).elim⟩
  · refine ⟨⟨fun _ => h1, fun _ => ?_⟩, fun _ => ⟨ops, h2⟩⟩
    rw [h2]; simp [TG.println]

/-- Alternative `alt` of rule `i`, coming after `pre`, clashes at the byte `b`: `alt` is nullable, `b` can follow the
rule, and an earlier alternative begins with `b` or is nullable. -/
def ClashAt (g : Grammar) (i : Nat) (pre : List Sequence) (alt : Sequence) (b : UInt8) : Prop :=
  Nullable g alt.symbols ∧ NextFollow g i b ∧ ∃ earlier ∈ pre, First g earlier.symbols b ∨ Nullable g earlier.symbols

/-- **C64.** The printed line is the cell of the first clash: the first rule with a clash, its first clashing
alternative, the smallest byte; it shows the operations of the earlier alternatives that begin with that byte, in order
(`[]` if none does). -/
theorem C64_printed_cell (order : Order) (g : Grammar) (hz : g.NulStartFree)
    (h : fromGrammar order g = .err .conflict) :
    ∃ i r pre alt post b ops, g.rules[i]? = some r ∧ r.tail.sequences = pre ++ alt :: post ∧
      ClashAt g i pre alt b ∧ Predicted g b pre ops ∧ (fromGrammarOut order g).1 = TG.println ops ∧
      (∀ j, j < i → ¬ Clash g j) ∧
      (∀ pre' alt' post' b', pre = pre' ++ alt' :: post' → ¬ ClashAt g i pre' alt' b') ∧
      (∀ b', b' < b → ¬ ClashAt g i pre alt b') := by
  have hg := TG.good_fromGrammar order g
  unfold TG.Good at hg
  rw [TG.fromGrammarOut_snd] at hg
  rcases hg with ⟨_, h2⟩ | ⟨-, ops, ⟨i, r, hr, ⟨pre, alt, post, hp, ⟨hn, b, hb, hsel, hpred, hmin⟩, hfirst⟩, hi⟩, ho⟩
  · exact (h2 h).elim
  · rw [List.nil_append] at hsel hpred
    have halt : ∀ a ∈ r.tail.sequences, g.Alt i a := fun a ha => ⟨r, hr, ha⟩
    have hpre : ∀ a ∈ pre, g.Alt i a := fun a ha => halt a (by rw [hp]; simp [ha])
    have hA := halt alt (by rw [hp]; simp)
    have hb' := (TG.rnextFollow_iff hz i b).1 hb
    refine ⟨i, r, pre, alt, post, b, ops, hr, hp, ⟨(TG.rnullable_alt hz hA).1 hn, hb', ?_⟩,
      (TG.rpredicted_iff hz hpre).1 hpred, ho, fun j hj hc => hi j hj ((TG.rclash_iff hz j).2 hc), ?_, ?_⟩
    · obtain ⟨e, he, hf⟩ := (TG.rselects_iff hb).1 hsel
      exact ⟨e, he, hf.imp (TG.rfirst_alt hz (hpre e he) b).1 (TG.rnullable_alt hz (hpre e he)).1⟩
    · rintro pre' alt' post' b' hsplit ⟨hn', hb', e, he, hf⟩
      have hb' := (TG.rnextFollow_iff hz i b').2 hb'
      have hA' : g.Alt i alt' := hpre alt' (by rw [hsplit]; simp)
      have he' : g.Alt i e := hpre e (by rw [hsplit]; simp [he])
      have := hfirst pre' alt' post' hsplit ((TG.rnullable_alt hz hA').2 hn') b' hb'
      rw [List.nil_append] at this
      exact this ((TG.rselects_iff hb').2 ⟨e, he, hf.imp (TG.rfirst_alt hz he' b').2 (TG.rnullable_alt hz he').2⟩)
    · rintro b' hlt ⟨_, hb', e, he, hf⟩
      have hb' := (TG.rnextFollow_iff hz i b').2 hb'
      have := hmin b' hlt hb'
      rw [List.nil_append] at this
      exact this ((TG.rselects_iff hb').2
        ⟨e, he, hf.imp (TG.rfirst_alt hz (hpre e he) b').2 (TG.rnullable_alt hz (hpre e he)).2⟩)

/-- `A ::= "a" | "" ` followed by `"a"`: the line `[{a}]`. -/
example : fromGrammarOut id Ex.emptyLast = (b!"[{a}]\n", .err .conflict) := by decide +kernel

/-- A longer cell, with a non-terminal. -/
example : (fromGrammarOut id ⟨[⟨b!"S", ⟨[⟨[.nonTerminal b!"A", .terminal b!"xy"]⟩]⟩⟩,
      ⟨b!"A", ⟨[⟨[.terminal b!"xy", .nonTerminal b!"S"]⟩, ⟨[.nothing]⟩]⟩⟩]⟩).1 = b!"[{xy} {0}]\n" := by decide +kernel

/-- Two empty alternatives: the cell is empty. -/
example : (fromGrammarOut id ⟨[⟨b!"S", ⟨[⟨[.nothing]⟩, ⟨[.nothing]⟩]⟩⟩]⟩) = (b!"[]\n", .err .conflict) := by
  decide +kernel

end LL1
