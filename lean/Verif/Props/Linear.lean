import Verif.Proofs.LinearTime
import Verif.Props.Language

/-!
# Parsing takes linear time and gives trees of linear size (C52)

`parseFuel k src = some o` says that `Parse(src)` returns `o` after at most `k` iterations of the parser's
main loop.
-/

namespace LL1

/-- **C52.** For every table without left recursion (ranked as in C20) there is a constant `K`, depending on
the table only, such that `Parse` returns after at most `K * (len(src) + 1)` iterations of its loop, for
every source and every naming. -/
theorem C52_linear_time (tbl : Table) (he : tbl.HasEntry) (hpub : tbl.Public) (hnf : tbl.NulStartFree)
    (rank : Int → UInt8 → Nat)
    (hrank : ∀ n row b body, tbl.get n = some row → GoMap.get row b = some body →
      ∀ m, 0 ≤ m → .nonTerminal m ∈ untilLiteral body → rank m b < rank n b) :
    ∃ K, ∀ (names : Option Names) (src : Source) (text : Str), readSource src = .ok text →
      ∃ o, (Parser.mk tbl names).parseFuel (K * (text.length + 1)) src = some o := by
  obtain ⟨rank', hrank'⟩ := untilLiteral_rank hnf hrank
  exact Lin.linear_of_rank hnf hpub he (Sure := fun _ _ => False) (fun _ _ _ h => h.elim) hrank'

/-- **C52.** The same for the parser generated from an LL(1) grammar. -/
theorem C52_linear_time_ll1 (order : Order) (g : Grammar) (tbl : Table) (names : Names)
    (h : fromGrammar order g = .ok (tbl, names)) (hz : g.NulStartFree) (hll : IsLL1 g) :
    ∃ K, ∀ (nm : Option Names) (src : Source) (text : Str), readSource src = .ok text →
      ∃ o, (Parser.mk tbl nm).parseFuel (K * (text.length + 1)) src = some o := by
  have hc := fromGrammar_closedTable h
  have key := ll1_rank hz (TG.fromGrammar_ok hz h) hll hc
  exact Lin.linear_of_rank (fromGrammar_tableStartFree h hz) hc.public hc.hasEntry
    (fun n b body hs hb => (key n b body hb).2 hs) (fun n b body hb => (key n b body hb).1)

/-- `nested` meets the hypotheses. -/
example : ∃ tbl names, fromGrammar id Ex.nested = .ok (tbl, names) ∧ Ex.nested.NulFree ∧ IsLL1 Ex.nested :=
  ⟨_, _, Ex.nested_ok, nulFree_of (by decide +kernel), Ex.nested_ll1⟩

/-! ## Tree size -/

/-- Number of nodes of the trees on a stack. -/
def nodesOn (st : List Node) : Nat := (st.map fun n => (preorder n).length).sum

@[simp] theorem nodesOn_cons (n : Node) (st : List Node) : nodesOn (n :: st) = (preorder n).length + nodesOn st := by
  simp [nodesOn]

@[simp] theorem nodesOn_nil : nodesOn [] = 0 := rfl

theorem preorder_mk_length (t : Int) (a b : Nat) (cs : List Node) :
    (preorder (.mk t a b cs)).length = 1 + nodesOn cs := by
  rw [preorder_mk]
  simp [nodesOn, List.length_flatten, Function.comp_def]
  omega

theorem popChilds_nodes {d : Bool} {k : Nat} {st acc cs st' : List Node}
    (h : popChilds d k st acc = .ok (cs, st')) : nodesOn cs + nodesOn st' ≤ nodesOn acc + nodesOn st := by
  induction k generalizing st acc with
  | zero => simp only [popChilds] at h; cases h; exact Nat.le_refl _
  | succ k ih =>
    cases st with
    | nil => simp [popChilds] at h
    | cons n st =>
      simp only [popChilds] at h
      split at h
      · have := ih h; simp at this ⊢; omega
      · split at h
        · cases h
        · have := ih h; simp at this ⊢; omega

theorem step_nodes {tbl : Table} {names : Option Names} {src : Str} {s s' : PState}
    (h : step tbl names src s = .next s') : nodesOn s'.prodStack ≤ nodesOn s.prodStack + 2 := by
  unfold step at h
  split at h
  · cases h
  · split at h
    · simp only [processNonTerminal, processBuiltinNonTerminal, processTableNonTerminal] at h
      repeat' split at h
      all_goals first | (cases h; simp) | cases h
    · cases h; simp [processTerminal]
    · simp only [processFunction] at h
      split at h
      · cases h
        simp only [nodesOn_cons, preorder_mk_length, nodesOn_nil]; omega
      · split at h
        · cases h
        · rename_i hp
          cases h
          have := popChilds_nodes hp
          simp only [nodesOn_cons, preorder_mk_length, nodesOn_nil] at this ⊢; omega
    · cases h
    · simp only [processChar] at h
      split at h
      · cases h
      · cases h
        simp only [nodesOn_cons, preorder_mk_length, nodesOn_nil]; omega
    · cases h

theorem runFuel_nodes {tbl : Table} {names : Option Names} {src : Str} {fuel : Nat} {s : PState} {t : Node}
    {m : Names} (h : runFuel tbl names src fuel s = some (.ok t m)) :
    (preorder t).length ≤ nodesOn s.prodStack + 2 * fuel := by
  induction fuel generalizing s with
  | zero => simp [runFuel] at h
  | succ f ih =>
    rw [runFuel] at h
    split at h
    · rename_i s' hs
      have := step_nodes hs
      have := ih h
      omega
    · rename_i o hs
      cases h
      unfold step at hs
      split at hs
      · cases hs
      · split at hs
        · simp only [processNonTerminal, processBuiltinNonTerminal, processTableNonTerminal] at hs
          repeat' split at hs
          all_goals cases hs
        · cases hs
        · simp only [processFunction] at hs
          repeat' split at hs
          all_goals cases hs
        · simp only [processEOS, StepRes.done.injEq] at hs
          split at hs
          · cases hs
          · split at hs
            · cases hs
            · rename_i n st hp
              split at hs
              · cases hs
              · cases hs
                rw [hp, nodesOn_cons]; omega
        · simp only [processChar] at hs
          repeat' split at hs
          all_goals cases hs
        · cases hs

/-- **C52.** A tree returned after `k` iterations has at most `2 * k` nodes. -/
theorem C52_tree_size (p : Parser) (k : Nat) (src : Source) (t : Node) (m : Names)
    (h : p.parseFuel k src = some (.ok t m)) : (preorder t).length ≤ 2 * k := by
  unfold Parser.parseFuel at h
  split at h
  · cases h
  · split at h
    · cases h
    · split at h
      · cases h
      · have := runFuel_nodes h
        simpa [initState] using this

/-- **C52.** The trees returned by the parser of an LL(1) grammar have a number of nodes linear in the
length of the source. -/
theorem C52_linear_tree_ll1 (order : Order) (g : Grammar) (tbl : Table) (names : Names)
    (h : fromGrammar order g = .ok (tbl, names)) (hz : g.NulStartFree) (hll : IsLL1 g) :
    ∃ K, ∀ (nm : Option Names) (src : Source) (text : Str) (t : Node) (m : Names), readSource src = .ok text →
      (Parser.mk tbl nm).Returns src (.ok t m) → (preorder t).length ≤ K * (text.length + 1) := by
  obtain ⟨K, hK⟩ := C52_linear_time_ll1 order g tbl names h hz hll
  refine ⟨2 * K, fun nm src text t m hr hp => ?_⟩
  obtain ⟨o, ho⟩ := hK nm src text hr
  cases returns_det ⟨_, ho⟩ hp
  have := C52_tree_size _ _ src t m ho
  rw [Nat.mul_assoc]; exact this

/-- The tree of `(x)` in `nested` has 9 nodes and is built in at most 40 iterations. -/
example : (∃ m, (Parser.mk Ex.nestedTable (some Ex.nestedNames)).parseFuel 40 (.string b!"(x)") = some (.ok
      (.mk 0 0 3 [.mk (-1) 0 1 [], .mk 0 1 2 [.mk (-1) 1 2 [], .mk 1 2 2 [.mk (-2) 2 2 []]],
        .mk (-1) 2 3 [], .mk 1 3 3 [.mk (-2) 3 3 []]]) m)) ∧
    (preorder (.mk 0 0 3 [.mk (-1) 0 1 [], .mk 0 1 2 [.mk (-1) 1 2 [], .mk 1 2 2 [.mk (-2) 2 2 []]],
        .mk (-1) 2 3 [], .mk 1 3 3 [.mk (-2) 3 3 []]])).length = 9 :=
  ⟨⟨_, rfl⟩, by simp⟩

end LL1
