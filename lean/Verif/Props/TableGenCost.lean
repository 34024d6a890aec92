import Verif.Proofs.TableGenSlow
import Verif.Props.Reading

/-!
# C82: how long `FromGrammar` runs
-/

namespace LL1

/-- The size of a grammar: its rules, its alternatives and its symbols, all counted. -/
def Grammar.size (g : Grammar) : Nat :=
  g.rules.length + (g.rules.map fun r => r.tail.sequences.length).sum +
    (g.rules.map fun r => (r.tail.sequences.map fun s => s.symbols.length).sum).sum

theorem size_eq (g : Grammar) : g.size = g.rules.length + TG.rulesW g.rules := by
  unfold Grammar.size TG.rulesW
  rw [Nat.add_assoc]
  congr 1
  generalize g.rules = rs
  have h1 : ∀ ss : List Sequence, TG.seqsW ss = ss.length + (ss.map fun s => s.symbols.length).sum := by
    intro ss
    induction ss with
    | nil => rfl
    | cons s ss ih => rw [TG.seqsW_cons, ih]; simp only [List.length_cons, List.map_cons, List.sum_cons]; omega
  induction rs with
  | nil => rfl
  | cons r rs ih => simp only [List.map_cons, List.sum_cons, TG.ruleW, h1] at ih ⊢; omega

/-- **C82.** The model that counts loop iterations computes what `FromGrammar` computes. -/
theorem C82_same_results (order : Order) (g : Grammar) : (fromGrammarC order g).res = fromGrammar order g :=
  fromGrammarC_res order g

/-- **C82.** Whatever the grammar, and whether it is accepted, rejected or makes `FromGrammar` panic: all loops together
make at most `1031 * (rules + 1)² * (size + 1)` iterations. -/
theorem C82_cubic (order : Order) (ho : ∀ l, (order l).Perm l) (g : Grammar) :
    (fromGrammarC order g).steps ≤ 1031 * (g.rules.length + 1) ^ 2 * (g.size + 1) := by
  have h1 := fromGrammarC_steps order (fun l => Nat.le_of_eq (ho l).length_eq) g
  have h2 := cubic_arith g.rules.length (TG.rulesW g.rules)
  rw [size_eq]
  omega

/-- **C82.** It does take that long: for every `n` there is a grammar with `n + 2` rules of one symbol each that is
accepted, and for which the loops make at least `(n + 1)³` iterations. -/
theorem C82_cubic_needed (order : Order) (n : Nat) :
    ∃ g : Grammar, g.rules.length = n + 2 ∧ g.size = 3 * (n + 2) ∧
      (∃ tbl names, fromGrammar order g = .ok (tbl, names)) ∧ (n + 1) ^ 3 ≤ (fromGrammarC order g).steps := by
  have hok := ((C30_conflict_iff order (slow n) (slow_nulStartFree n) (slow_wellFormed n)).2).2 (slow_no_clash n)
  refine ⟨slow n, slow_length n, ?_, hok, ?_⟩
  · have h1 : ((slow n).rules.map fun r => r.tail.sequences.length).sum = n + 2 := by
      simp only [slow, List.map_map, Function.comp_def]
      rw [show (fun x : Nat => [(⟨[slowSymbol n x]⟩ : Sequence)].length) = fun _ => 1 from rfl, TG.sum_const]
      omega
    have h2 : ((slow n).rules.map fun r => (r.tail.sequences.map fun s => s.symbols.length).sum).sum = n + 2 := by
      simp only [slow, List.map_map, Function.comp_def]
      rw [show (fun x : Nat => ([(⟨[slowSymbol n x]⟩ : Sequence)].map fun s => s.symbols.length).sum) = fun _ => 1
        from rfl, TG.sum_const]
      omega
    rw [Grammar.size, h1, h2, slow_length]
    omega
  · obtain ⟨tbl, names, h⟩ := hok
    refine Nat.le_trans ?_ (slow_lower order n h)
    have : (n + 1) ^ 3 = (n + 1) * ((n + 1) * (n + 1)) := by
      rw [Nat.pow_succ, Nat.pow_two, Nat.mul_assoc]
    rw [this]
    exact Nat.mul_le_mul_left _ (Nat.mul_le_mul (by omega) (by omega))

/-- Four rules in the slow order: 231 iterations (at least 27, at most 335075); and a rejected grammar. -/
example : (fromGrammarC id (slow 2)).steps = 231 ∧ succeeds (fromGrammar id (slow 2)) = true ∧
    (fromGrammarC id Ex.gapRejected).steps = 245 ∧ Ex.gapRejected.size = 19 := by decide +kernel

/-- **C82.** The table does not get larger than the grammar makes it: no cell of row `i` holds more operations than rule
`i` has symbols in all its alternatives, so all cells together hold at most 256 operations per symbol of the grammar. -/
theorem C82_cell_size (order : Order) (g : Grammar) (tbl : Table) (names : Names)
    (h : fromGrammar order g = .ok (tbl, names)) (i : Nat) (r : Rule) (hr : g.rules[i]? = some r) :
    ∃ row, tbl.get (i : Int) = some row ∧ ∀ b ops, GoMap.get row b = some ops →
      ops.length ≤ (r.tail.sequences.map fun s => s.symbols.length).sum := by
  obtain ⟨row, h1, h2⟩ := C74_cells order g tbl names h i r hr
  refine ⟨row, h1, fun b ops ho => ?_⟩
  have h3 := (h2 b).2 ops ho
  have hlen : ∀ (ss : List Symbol) (os : List ParserOp), AllPairs (OpOf g) ss os → os.length = ss.length := by
    intro ss os hp
    induction hp with
    | nil => rfl
    | cons _ _ ih => simp [ih]
  clear ho h2 hr
  generalize r.tail.sequences = ss at h3 ⊢
  induction h3 with
  | nil => simp
  | take _ hp _ ih =>
    simp only [List.length_append, List.map_cons, List.sum_cons, hlen _ _ hp]
    omega
  | skip _ _ ih => simp only [List.map_cons, List.sum_cons]; omega

end LL1
