import Verif.Proofs.Steered
import Verif.Props.Acceptance
import Verif.Props.Exact

/-!
# C86: what a generated parser does, for every grammar that is accepted
-/

namespace LL1

/-- **C86.** Trees: for every grammar `FromGrammar` accepts (alternatives may begin alike, names may be undefined,
terminals may be empty or hold NUL bytes) and every source, `Parse` returns the tree `t` iff the grammar, read as in
`Spec/Steered`, matches the text with `t`; the returned names are the given ones and the two built-ins. -/
theorem C86_trees (order : Order) (g : Grammar) (tbl : Table) (names : Names)
    (h : fromGrammar order g = .ok (tbl, names)) (m : Names) (src : Source) (text : Str)
    (hr : readSource src = .ok text) (t : Node) (m' : Names) :
    (Parser.mk tbl (some m)).Returns src (.ok t m') ↔ Accepts g text t ∧ m' = addBuiltinNames m := by
  have hc := fromGrammar_closedTable h
  rw [returns_ok_iff (p := Parser.mk tbl (some m)) hc.hasEntry hc.public hr]
  refine and_congr (isParse_iff_accepts (TG.fromGrammar_rok h)) ⟨?_, fun h => ⟨m, rfl, h⟩⟩
  rintro ⟨_, h, rfl⟩
  cases h; rfl

/-- **C86.** Errors: `Parse` returns the error `e` iff the grammar read that way fails on the text with `e`. -/
theorem C86_errors (order : Order) (g : Grammar) (tbl : Table) (names : Names)
    (h : fromGrammar order g = .ok (tbl, names)) (nm : Option Names) (src : Source) (text : Str)
    (hr : readSource src = .ok text) (e : PErr) :
    (Parser.mk tbl nm).Returns src (.err e) ↔ ∃ k, Rejects g nm text k e := by
  have hc := fromGrammar_closedTable h
  rw [returns_err_iff (p := Parser.mk tbl nm) hc.hasEntry hc.public hr]
  exact exists_congr fun k => stuckAt_iff_rejects (TG.fromGrammar_rok h)

/-- **C86.** Hanging: `Parse` never returns iff the grammar read that way neither matches nor fails. -/
theorem C86_hangs (order : Order) (g : Grammar) (tbl : Table) (names : Names)
    (h : fromGrammar order g = .ok (tbl, names)) (nm : Option Names) (src : Source) (text : Str)
    (hr : readSource src = .ok text) :
    (Parser.mk tbl nm).Diverges src ↔ (∀ t, ¬ Accepts g text t) ∧ ∀ k e, ¬ Rejects g nm text k e := by
  have hc := fromGrammar_closedTable h
  rw [C13_diverges_iff tbl nm hc.hasEntry hc.public src text hr]
  exact and_congr (forall_congr' fun t => not_congr (isParse_iff_accepts (TG.fromGrammar_rok h)))
    (forall_congr' fun k => forall_congr' fun e => not_congr (stuckAt_iff_rejects (TG.fromGrammar_rok h)))

/-- **C86.** Together with C85, without mentioning tables: a grammar with nothing amiss where the generator looks and no
clash gives a parser that returns exactly the trees and the errors the grammar prescribes. -/
theorem C86_grammar_only (order : Order) (g : Grammar) (he : Examined g) (hc : ∀ i, ¬ RClash g i) :
    ∃ tbl names, fromGrammar order g = .ok (tbl, names) ∧
      ∀ (m : Names) (src : Source) (text : Str), readSource src = .ok text →
        (∀ t, (∃ m', (Parser.mk tbl (some m)).Returns src (.ok t m')) ↔ Accepts g text t) ∧
        (∀ e, (Parser.mk tbl (some m)).Returns src (.err e) ↔ ∃ k, Rejects g (some m) text k e) := by
  obtain ⟨tbl, names, h⟩ := (C85_accepted_iff order g).2 ⟨he, hc⟩
  refine ⟨tbl, names, h, fun m src text hr => ⟨fun t => ?_, fun e => C86_errors order g tbl names h _ src text hr e⟩⟩
  constructor
  · rintro ⟨m', hp⟩; exact ((C86_trees order g tbl names h m src text hr t m').1 hp).1
  · intro ha; exact ⟨_, (C86_trees order g tbl names h m src text hr t _).2 ⟨ha, rfl⟩⟩

theorem steered_nodes {g : Grammar} {text : Str} {syms : List Symbol} {a b : Nat} {ns : List Node}
    (h : Steered g text syms a b ns) : ∀ n ∈ (ns.map preorder).flatten, 0 ≤ n.type →
      ∃ (i : Nat) (syms : List Symbol) (ks : List Node), StandsFor g i (byteAt text n.pos) syms ∧
        Steered g text syms n.pos n.stop ks ∧ n = ruleNode i n.pos n.stop ks := by
  induction h with
  | nil a => intro n hn; simp at hn
  | @terminal t rest a b ns hl _ ih =>
    intro n hn h0
    rw [List.map_cons, List.flatten_cons, List.mem_append] at hn
    rcases hn with hn | hn
    · exfalso
      unfold literalNode at hn
      split at hn
      · simp [preorder, nothingNode] at hn
        rcases hn with rfl | rfl <;> simp [Node.type] at h0
      · simp [preorder] at hn
        subst hn; simp [Node.type] at h0
    · exact ih n hn h0
  | @nonTerminal name i syms rest a b c ks ns hr hs hS _ ih1 ih2 =>
    intro n hn h0
    rw [List.map_cons, List.flatten_cons, List.mem_append] at hn
    rcases hn with hn | hn
    · unfold ruleNode at hn
      rw [preorder, List.mem_cons] at hn
      rcases hn with rfl | hn
      · exact ⟨i, syms, ks, hs, hS, rfl⟩
      · split at hn
        · simp [preorder, nothingNode] at hn
          subst hn; simp [Node.type] at h0
        · exact ih1 n hn h0
    · exact ih2 n hn h0

/-- **C86.** Every node of a returned tree that is about a rule shows, child by child, everything the rule stands for
there: all its alternatives that begin with the next byte, one after the other, or nothing. -/
theorem C86_every_node (g : Grammar) (text : Str) (t : Node) (h : Accepts g text t) :
    ∀ n ∈ preorder t, 0 ≤ n.type →
      ∃ (i : Nat) (syms : List Symbol) (ks : List Node), StandsFor g i (byteAt text n.pos) syms ∧
        Steered g text syms n.pos n.stop ks ∧ n = ruleNode i n.pos n.stop ks := by
  obtain ⟨syms, b, ks, hs, hS, rfl, _⟩ := h
  intro n hn h0
  unfold ruleNode at hn
  rw [preorder, List.mem_cons] at hn
  rcases hn with rfl | hn
  · exact ⟨0, syms, ks, hs, hS, rfl⟩
  · split at hn
    · simp [preorder, nothingNode] at hn
      subst hn; simp [Node.type] at h0
    · exact steered_nodes hS n hn h0

/-- **C86.** Alternatives that begin alike are all demanded: `S ::= "a" "b" | "a" "c"` is accepted, read this way it
matches `abac`, which is no sentence, and fails on the sentence `ab`. -/
theorem C86_alike :
    (∃ tbl names, fromGrammar id Ex.firstFirst = .ok (tbl, names)) ∧ (∃ t, Accepts Ex.firstFirst b!"abac" t) ∧
    ¬ Sentence Ex.firstFirst b!"abac" ∧ Sentence Ex.firstFirst b!"ab" ∧
    ∃ names k e, Rejects Ex.firstFirst (some names) b!"ab" k e := by
  obtain ⟨tbl, names, h, ⟨t, m, ht⟩, h1, h2, e, he⟩ := C32_needs_disjoint
  obtain ⟨k, hk⟩ := (C86_errors id _ tbl names h _ _ _ rfl e).1 he
  exact ⟨⟨tbl, names, h⟩, ⟨t, ((C86_trees id _ tbl names h _ _ _ rfl _ _).1 ht).1⟩, h1, h2, names, k, e, hk⟩

end LL1
