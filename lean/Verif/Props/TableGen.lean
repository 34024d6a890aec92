import Verif.Proofs.Checker
import Verif.Proofs.Language
import Verif.Golden.TestGrammars
import Verif.Golden.Tables

/-!
# Properties of the table generator (C22 – C31, C46)

`order` is the order in which the run iterates over Go maps.  Grammars used as examples and
counter-examples are evaluated by the kernel.
-/

namespace LL1

abbrev Order := List (Str × Nat) → List (Str × Nat)

instance : DecidableEq (Table × Names) := @instDecidableEqProd _ _ inferInstance inferInstance

/-- For examples: the run succeeds. -/
def succeeds (x : TG.R (Table × Names)) : Bool := match x with | .ok _ => true | _ => false

theorem succeeds_iff {x : TG.R (Table × Names)} : succeeds x = true ↔ ∃ tbl names, x = .ok (tbl, names) := by
  cases x with
  | ok r => exact ⟨fun _ => ⟨r.1, r.2, rfl⟩, fun _ => rfl⟩
  | err e => simp [succeeds]
  | panic e => simp [succeeds]
  | diverge => simp [succeeds]

/-- A rule from its head and alternatives. -/
abbrev rule (head : Str) (alts : List (List Symbol)) : Rule := ⟨head, ⟨alts.map Sequence.mk⟩⟩

namespace Ex

/-- Nested pairs of brackets around an optional `x`, then an optional tail:
`S ::= "(" S ")" T | "x" T ; T ::= "," S | ""`. -/
def nested : Grammar := ⟨[
  rule b!"S" [[.terminal b!"(", .nonTerminal b!"S", .terminal b!")", .nonTerminal b!"T"],
    [.terminal b!"x", .nonTerminal b!"T"]],
  rule b!"T" [[.terminal b!",", .nonTerminal b!"S"], [.nothing]]]⟩

/-- `S ::= A B "d" ; A ::= "a" | "" ; B ::= "b" | "" ; T` -/
def gap : Grammar := ⟨[
  rule b!"S" [[.nonTerminal b!"A", .nonTerminal b!"B", .terminal b!"d"]],
  rule b!"A" [[.terminal b!"a"], [.nothing]],
  rule b!"B" [[.terminal b!"b"], [.nothing]]]⟩

/-- `R ::= S "a" ; S ::= A B "d" ; A ::= "a" | "" ; B ::= "b" | ""` -/
def gapRejected : Grammar := ⟨[
  rule b!"R" [[.nonTerminal b!"S", .terminal b!"a"]],
  rule b!"S" [[.nonTerminal b!"A", .nonTerminal b!"B", .terminal b!"d"]],
  rule b!"A" [[.terminal b!"a"], [.nothing]],
  rule b!"B" [[.terminal b!"b"], [.nothing]]]⟩

/-- `S ::= "a" "b" | "a" "c"` -/
def firstFirst : Grammar := ⟨[rule b!"S" [[.terminal b!"a", .terminal b!"b"], [.terminal b!"a", .terminal b!"c"]]]⟩

/-- `S ::= A "a" ; A ::= "" | "a"` -/
def emptyFirst : Grammar := ⟨[rule b!"S" [[.nonTerminal b!"A", .terminal b!"a"]],
  rule b!"A" [[.nothing], [.terminal b!"a"]]]⟩

/-- `S ::= A "a" ; A ::= "a" | ""` — the same language, alternatives swapped. -/
def emptyLast : Grammar := ⟨[rule b!"S" [[.nonTerminal b!"A", .terminal b!"a"]],
  rule b!"A" [[.terminal b!"a"], [.nothing]]]⟩

/-- `A ::= A "x" <undef>` -/
def hiddenUndefined : Grammar := ⟨[rule b!"A" [[.nonTerminal b!"A", .terminal b!"x", .nonTerminal b!"undef"]]]⟩

/-- Two rules with head `A`. -/
def twice : Grammar := ⟨[rule b!"A" [[.terminal b!"x", .nonTerminal b!"A"]], rule b!"A" [[.terminal b!"y"]]]⟩

end Ex

/-! ## C22, C23 -/

/-- **C22.** `FromGrammar` returns a table, an error, or panics: the loops never run forever, whatever
the grammar (each fix-point loop makes at most `256 * rules + 1` passes). -/
theorem C22_terminates (order : Order) (g : Grammar) :
    (∃ tbl names, fromGrammar order g = .ok (tbl, names)) ∨ (∃ e, fromGrammar order g = .err e) ∨
    (∃ p, fromGrammar order g = .panic p) := by
  cases h : fromGrammar order g with
  | ok r => exact .inl ⟨r.1, r.2, rfl⟩
  | err e => exact .inr (.inl ⟨e, rfl⟩)
  | panic p => exact .inr (.inr ⟨p, rfl⟩)
  | diverge => exact (TG.fromGrammar_ne_diverge order g h).elim

/-- A left-recursive, self-referring, partly undefined grammar is handled too. -/
example : fromGrammar id Ex.hiddenUndefined = .ok ([(0, [])], [(0, b!"A")]) := by decide +kernel

/-- **C23.** No panic when there is a rule, no terminal is empty and the empty-string symbol stands
alone. -/
theorem C23_no_panic (order : Order) (g : Grammar) (h0 : g.rules ≠ []) (ht : g.NoEmptyTerminal)
    (hn : g.NothingAlone) :
    (∃ tbl names, fromGrammar order g = .ok (tbl, names)) ∨ (∃ e, fromGrammar order g = .err e) := by
  rcases C22_terminates order g with h | h | ⟨p, h⟩
  · exact .inl h
  · exact .inr h
  · exact (TG.fromGrammar_np order h0 ht hn p h).elim

example : Ex.nested.rules ≠ [] ∧ Ex.nested.NoEmptyTerminal ∧ Ex.nested.NothingAlone :=
  have h := wellFormed_of (g := Ex.nested) (by decide +kernel)
  ⟨h.rules, h.term, h.nothing⟩

/-- **C23.** Each hypothesis is needed: the empty grammar, an empty terminal, and the sequence
`"a" ""` make `FromGrammar` panic. -/
theorem C23_panics :
    (∀ order, fromGrammar order ⟨[]⟩ = .panic .indexOutOfRange) ∧
    (∀ order, fromGrammar order ⟨[rule b!"S" [[.terminal []]]]⟩ = .panic .indexOutOfRange) ∧
    (∀ order, fromGrammar order ⟨[rule b!"S" [[.terminal b!"a", .nothing]]]⟩ = .panic .unreachable) := by
  have key : ∀ g p, TG.run (TG.newGen g) (TG.newSets (TG.newGen g).ruleCount)
      (TG.newSets (TG.newGen g).ruleCount) = .panic p → ∀ order, fromGrammar order g = .panic p := by
    intro g p h order
    unfold fromGrammar
    simp only [h, Res.panic_bind]
  exact ⟨key _ _ (by decide +kernel), key _ _ (by decide +kernel), key _ _ (by decide +kernel)⟩

/-! ## C24 -/

/-- The errors a user of a generated parser can see. -/
inductive ExpectedError (g : Grammar) (names : Names) : PErr → Prop
  | emptySource : ExpectedError g names .emptySource
  | invalidSource : ExpectedError g names .invalidSource
  | reader (e : Str) : ExpectedError g names (.reader e)
  | char (want got : UInt8) : want ≠ got → ExpectedError g names (.expectedChar want got)
  | noRule (c : UInt8) (i : Nat) : i < g.rules.length →
      ExpectedError g names (.noRule c (rowName (some names) i))
  | trailing (c : UInt8) : c ≠ 0 → ExpectedError g names (.expectedEnd c)

theorem FailsAt.expectedChar_ne {tbl : Table} {names : Option Names} {src : Str} {ops : List ParserOp}
    {i k : Nat} {e : PErr} (h : FailsAt tbl names src ops i k e) : ∀ c d, e = .expectedChar c d → c ≠ d := by
  induction h with
  | lit _ _ h => intro c d he; cases he; exact h
  | noBody =>
    intro c d he
    unfold whyNot at he
    split at he
    · split at he <;> cases he
    · split at he <;> cases he
  | afterLit _ _ ih => exact ih
  | inside _ _ ih => exact ih
  | afterNt _ _ _ ih => exact ih

/-- **C24.** A generated table has exactly the rows `0 .. rules-1`, its operations are literals and
references to these rows, and a parser for it never panics and never reports a broken table: only
source errors, an unexpected byte, or trailing input. -/
theorem C24_closed (order : Order) (g : Grammar) (tbl : Table) (names : Names)
    (h : fromGrammar order g = .ok (tbl, names)) :
    (∀ n : Int, (∃ row, tbl.get n = some row) ↔ ∃ i : Nat, i < g.rules.length ∧ n = i) ∧
    (∀ n row b ops, tbl.get n = some row → GoMap.get row b = some ops → ∀ op ∈ ops,
      (∃ s, op = .terminal s) ∨ ∃ i : Nat, i < g.rules.length ∧ op = .nonTerminal i) ∧
    (∀ src o, (Parser.mk tbl (some names)).Returns src o →
      (∃ t m, o = .ok t m) ∨ ∃ e, o = .err e ∧ ExpectedError g names e) := by
  have hc := fromGrammar_closedTable h
  refine ⟨hc.rows, ?_, ?_⟩
  · intro n row b ops hn hb op hop
    have := hc.ops n row b ops hn hb op hop
    cases op with
    | terminal s => exact .inl ⟨s, rfl⟩
    | nonTerminal k => obtain ⟨i, hi, rfl⟩ := this; exact .inr ⟨i, hi, rfl⟩
    | function _ _ _ => exact this.elim
    | eos => exact this.elim
    | char _ => exact this.elim
    | nil => exact this.elim
  · intro src o ho
    have he := hc.hasEntry
    cases hr : readSource src with
    | error e =>
      obtain ⟨row, hrow⟩ := he
      obtain ⟨f, hf⟩ := ho
      have : o = .err e := by
        simp only [Parser.parseFuel, hasEntry_length ⟨row, hrow⟩, hrow, hr, if_false,
          Option.some.injEq] at hf
        exact hf.symm
      subst this
      refine .inr ⟨e, rfl, ?_⟩
      cases src with
      | nil => cases hr; exact .emptySource
      | string s => cases hr
      | bytes s => cases hr
      | buffer b =>
        cases b with
        | none => cases hr; exact .invalidSource
        | some s => cases hr
      | reader c e =>
        cases e with
        | none => cases hr
        | some e => cases hr; exact .reader e
      | other => cases hr; exact .invalidSource
    | ok text =>
      cases o with
      | ok t m => exact .inl ⟨t, m, rfl⟩
      | panic p =>
        rcases returns_cases (p := Parser.mk tbl (some names)) he hc.public hr ho with
          ⟨t, _, h⟩ | ⟨_, _, _, h⟩
        · simp [finish] at h
        · cases h
      | err e =>
        obtain ⟨k, hk⟩ := (returns_err_iff (p := Parser.mk tbl (some names)) he hc.public hr).1 ho
        refine .inr ⟨e, rfl, ?_⟩
        rcases hk with hk | ⟨t, _, hb, rfl⟩
        · rcases hc.fails hk (by simp only [List.mem_singleton]; rintro _ rfl; exact ⟨0, hc.pos, rfl⟩) with
            ⟨c, d, rfl⟩ | ⟨j, hj, rfl, _⟩
          · exact .char c d (hk.expectedChar_ne c d rfl)
          · exact .noRule _ j hj
        · exact .trailing _ hb

/-- The table of `nested`. -/
def Ex.nestedTable : Table :=
  [(1, [(41, []), (0, []), (44, [.terminal b!",", .nonTerminal 0])]),
   (0, [(120, [.terminal b!"x", .nonTerminal 1]),
        (40, [.terminal b!"(", .nonTerminal 0, .terminal b!")", .nonTerminal 1])])]

/-- The naming of `nested`. -/
def Ex.nestedNames : Names := [(0, b!"S"), (1, b!"T")]

theorem Ex.nested_ok : fromGrammar id Ex.nested = .ok (Ex.nestedTable, Ex.nestedNames) := by decide +kernel

/-! ## C25 -/

/-- **C25.** The naming map names row `i` by `name` iff rule `i` is the last rule with head `name`, and
names nothing else.  With distinct heads every row is named by its rule's head. -/
theorem C25_names (order : Order) (ho : ∀ l, (order l).Perm l) (g : Grammar) (tbl : Table) (names : Names)
    (h : fromGrammar order g = .ok (tbl, names)) :
    (∀ (n : Int) (name : Str), names.get n = some name ↔ ∃ i : Nat, n = i ∧ g.Refers name i) ∧
    (DistinctHeads g → ∀ (i : Nat) r, g.rules[i]? = some r → names.get i = some r.head) := by
  have hn := TG.fromGrammar_names ho h
  refine ⟨hn, fun hd i r hr => (hn i r.head).2 ⟨i, rfl, ?_⟩⟩
  exact refers_of_distinct hd ⟨r, hr, rfl⟩

/-- **C25.** Two runs that iterate over the map in different orders end alike: same table and same
naming, or the same error, or the same panic. -/
theorem C25_order_irrelevant (o₁ o₂ : Order) (h₁ : ∀ l, (o₁ l).Perm l) (h₂ : ∀ l, (o₂ l).Perm l)
    (g : Grammar) :
    (∃ tbl n₁ n₂, fromGrammar o₁ g = .ok (tbl, n₁) ∧ fromGrammar o₂ g = .ok (tbl, n₂) ∧
      ∀ k, n₁.get k = n₂.get k) ∨
    (∃ e, fromGrammar o₁ g = .err e ∧ fromGrammar o₂ g = .err e) ∨
    (∃ p, fromGrammar o₁ g = .panic p ∧ fromGrammar o₂ g = .panic p) := by
  cases hr : TG.run (TG.newGen g) (TG.newSets (TG.newGen g).ruleCount)
      (TG.newSets (TG.newGen g).ruleCount) with
  | ok tbl =>
    have e : ∀ o : Order, fromGrammar o g = .ok (tbl, TG.rowNames (o (TG.newGen g).ruleMap) []) := by
      intro o; unfold fromGrammar; simp only [hr, Res.ok_bind, Res.pure_eq]
    refine .inl ⟨tbl, _, _, e o₁, e o₂, fun k => ?_⟩
    apply Option.ext
    intro name
    rw [TG.fromGrammar_names h₁ (e o₁), TG.fromGrammar_names h₂ (e o₂)]
  | err x => exact .inr (.inl ⟨x, by unfold fromGrammar; simp only [hr, Res.err_bind],
      by unfold fromGrammar; simp only [hr, Res.err_bind]⟩)
  | panic x => exact .inr (.inr ⟨x, by unfold fromGrammar; simp only [hr, Res.panic_bind],
      by unfold fromGrammar; simp only [hr, Res.panic_bind]⟩)
  | diverge =>
    refine (TG.fromGrammar_ne_diverge o₁ g ?_).elim
    unfold fromGrammar; simp only [hr, Res.diverge_bind]

/-- Reversing the iteration order is such an order; the grammar is accepted. -/
example : (∀ l : List (Str × Nat), (l.reverse).Perm l) ∧ (∃ tbl names, fromGrammar List.reverse Ex.nested = .ok (tbl, names)) ∧
    DistinctHeads Ex.nested :=
  ⟨fun l => l.reverse_perm, succeeds_iff.1 (by decide +kernel), distinctHeads_of (by decide +kernel)⟩

/-- With a duplicate head the first of the two rows is not named. -/
example : fromGrammar id Ex.twice = .ok ([(1, [(121, [.terminal b!"y"])]),
    (0, [(120, [.terminal b!"x", .nonTerminal 1])])], [(1, b!"A")]) := by decide +kernel

/-! ## C26 -/

/-- **C26.** Cell `(i, b)` is present iff some alternative of rule `i` can begin with `b`, or the rule is
nullable and `b` can follow (in the package's sense).  What is in it are the operations of all the
alternatives that can begin with `b`, in order, one after the other (nothing if there is none). -/
theorem C26_cells (order : Order) (g : Grammar) (tbl : Table) (names : Names) (hz : g.NulStartFree)
    (h : fromGrammar order g = .ok (tbl, names)) (i : Nat) (r : Rule) (hr : g.rules[i]? = some r) :
    ∃ row, tbl.get (i : Int) = some row ∧ ∀ b,
      ((∃ ops, GoMap.get row b = some ops) ↔
        (∃ alt ∈ r.tail.sequences, First g alt.symbols b) ∨
        ((∃ alt ∈ r.tail.sequences, Nullable g alt.symbols) ∧ NextFollow g i b)) ∧
      (∀ ops, GoMap.get row b = some ops → Predicted g b r.tail.sequences ops) := by
  have ht := TG.fromGrammar_ok hz h
  have hi := (List.getElem?_eq_some_iff.1 hr).1
  obtain ⟨row, hrow, hok⟩ := ht.rows i hi
  refine ⟨row, hrow, fun b => ?_⟩
  obtain ⟨h1, h2⟩ := hok.spec r hr b
  refine ⟨⟨fun ⟨ops, ho⟩ => (h2 ops ho).1, fun hs => ?_⟩, fun ops ho => (h2 ops ho).2⟩
  cases hg : GoMap.get row b with
  | none => exact (h1 hg hs).elim
  | some ops => exact ⟨ops, rfl⟩

/-- **C26.** If exactly one alternative (at one place) of the rule can begin with `b`, the cell is that
alternative, symbol by symbol. -/
theorem C26_single (order : Order) (g : Grammar) (tbl : Table) (names : Names) (hz : g.NulStartFree)
    (h : fromGrammar order g = .ok (tbl, names)) (i : Nat) (r : Rule) (hr : g.rules[i]? = some r)
    (k : Nat) (alt : Sequence) (b : UInt8) (hk : r.tail.sequences[k]? = some alt)
    (hf : First g alt.symbols b)
    (hu : ∀ (l : Nat) (a : Sequence), r.tail.sequences[l]? = some a → First g a.symbols b → l = k) :
    ∃ row ops, tbl.get (i : Int) = some row ∧ GoMap.get row b = some ops ∧
      AllPairs (OpOf g) alt.symbols ops := by
  obtain ⟨row, hrow, hc⟩ := C26_cells order g tbl names hz h i r hr
  obtain ⟨ops, ho⟩ := (hc b).1.2 (.inl ⟨alt, List.mem_of_getElem? hk, hf⟩)
  refine ⟨row, ops, hrow, ho, ?_⟩
  rcases predicted_single ((hc b).2 ops ho) (fun m l a c hm hl ha hc => by
    rw [hu m a hm ha, hu l c hl hc]) with ⟨h1, _⟩ | ⟨a, hm, hfa, ha⟩
  · exact (h1 alt (List.mem_of_getElem? hk) hf).elim
  · obtain ⟨l, hl⟩ := List.getElem?_of_mem hm
    rw [hu l a hl hfa, hk] at hl
    cases hl
    exact ha

example : Ex.nested.NulStartFree ∧ (∃ tbl names, fromGrammar id Ex.nested = .ok (tbl, names)) ∧
    First Ex.nested [.terminal b!",", .nonTerminal b!"S"] 44 :=
  ⟨nulStartFree_of (by decide +kernel), succeeds_iff.1 (by decide +kernel), .terminal⟩

/-! ## C27 -/

/-- **C27.** The textbook FIRST and nullability used in these statements are the semantic ones: a
sequence is nullable iff it derives the empty string; the bytes that begin derived strings are in
FIRST; and when every non-terminal derives some string, FIRST has no other byte. -/
theorem C27_first_semantic (g : Grammar) (i : Nat) :
    (RuleNullable g i ↔ GenRule g i []) ∧
    (∀ b w, GenRule g i (b :: w) → RuleFirst g i b) ∧
    (g.Productive → ∀ b, RuleFirst g i b → ∃ w, GenRule g i (b :: w)) := by
  refine ⟨⟨fun ⟨a, ha, hn⟩ => ⟨a, ha, nullable_iff_gen.1 hn⟩, fun ⟨a, ha, hn⟩ => ⟨a, ha, nullable_iff_gen.2 hn⟩⟩,
    fun b w ⟨a, ha, hg⟩ => ⟨a, ha, first_of_gen hg⟩, fun hp b ⟨a, ha, hf⟩ => ?_⟩
  obtain ⟨w, hw⟩ := gen_of_first hp hf (fun name hn => hp i a name ha hn)
  exact ⟨w, a, ha, hw⟩

/-- **C27.** On success, with productive non-terminals: cell `(i, b)` is present and non-empty iff rule
`i` derives a string beginning with `b`; it is present and empty iff rule `i` derives the empty string,
no string beginning with `b`, and `b` can follow. -/
theorem C27_first_exact (order : Order) (g : Grammar) (tbl : Table) (names : Names) (hz : g.NulStartFree)
    (hp : g.Productive) (h : fromGrammar order g = .ok (tbl, names)) (i : Nat) (hi : i < g.rules.length)
    (b : UInt8) :
    ((∃ row ops, tbl.get (i : Int) = some row ∧ GoMap.get row b = some ops ∧ ops ≠ []) ↔
      ∃ w, GenRule g i (b :: w)) ∧
    ((∃ row, tbl.get (i : Int) = some row ∧ GoMap.get row b = some []) ↔
      GenRule g i [] ∧ (¬ ∃ w, GenRule g i (b :: w)) ∧ NextFollow g i b) := by
  obtain ⟨r, hr⟩ : ∃ r, g.rules[i]? = some r := ⟨_, List.getElem?_eq_getElem hi⟩
  have ht := TG.fromGrammar_ok hz h
  obtain ⟨row, hrow, hc⟩ := C26_cells order g tbl names hz h i r hr
  obtain ⟨hs1, hs2, hs3⟩ := C27_first_semantic g i
  have hne : ∀ alt ∈ r.tail.sequences, alt.symbols ≠ [] := fun a ha => ht.nonempty i a ⟨r, hr, ha⟩
  have hrf : (∃ alt ∈ r.tail.sequences, First g alt.symbols b) ↔ ∃ w, GenRule g i (b :: w) := by
    constructor
    · rintro ⟨a, ha, hf⟩; exact hs3 hp b ⟨a, ⟨r, hr, ha⟩, hf⟩
    · rintro ⟨w, hw⟩
      obtain ⟨a, ⟨r', hr', ha⟩, hf⟩ := hs2 b w hw
      rw [hr] at hr'; cases hr'
      exact ⟨a, ha, hf⟩
  have hrn : (∃ alt ∈ r.tail.sequences, Nullable g alt.symbols) ↔ GenRule g i [] := by
    rw [← hs1]
    constructor
    · rintro ⟨a, ha, hf⟩; exact ⟨a, ⟨r, hr, ha⟩, hf⟩
    · rintro ⟨a, ⟨r', hr', ha⟩, hf⟩
      rw [hr] at hr'; cases hr'
      exact ⟨a, ha, hf⟩
  obtain ⟨hc1, hc2⟩ := hc b
  rw [hrf, hrn] at hc1
  refine ⟨⟨?_, fun hw => ?_⟩, ⟨?_, ?_⟩⟩
  · rintro ⟨row', ops, hr', ho, hn⟩
    rw [hrow] at hr'; cases hr'
    exact hrf.1 (((hc2 ops ho).nonempty hne).1 hn)
  · obtain ⟨ops, ho⟩ := hc1.2 (.inl hw)
    exact ⟨row, ops, hrow, ho, ((hc2 ops ho).nonempty hne).2 (hrf.2 hw)⟩
  · rintro ⟨row', hr', ho⟩
    rw [hrow] at hr'; cases hr'
    have hn : ¬ ∃ w, GenRule g i (b :: w) := fun hw => ((hc2 [] ho).nonempty hne).2 (hrf.2 hw) rfl
    rcases hc1.1 ⟨[], ho⟩ with hw | hw
    · exact (hn hw).elim
    · exact ⟨hw.1, hn, hw.2⟩
  · rintro ⟨h1, h2, h3⟩
    obtain ⟨ops, ho⟩ := hc1.2 (.inr ⟨h1, h3⟩)
    have : ops = [] := by
      apply Classical.byContradiction
      intro hn
      exact h2 (hrf.1 (((hc2 ops ho).nonempty hne).1 hn))
    subst this
    exact ⟨row, hrow, ho⟩

theorem Ex.nested_productive : Ex.nested.Productive := by
  have hS : Ex.nested.Refers b!"S" 0 := (TG.get_ruleMap _ _ _).1 (by decide +kernel)
  have hT : Ex.nested.Refers b!"T" 1 := (TG.get_ruleMap _ _ _).1 (by decide +kernel)
  have gT : GenRule Ex.nested 1 [] := ⟨⟨[.nothing]⟩, ⟨_, rfl, by decide⟩, .nothing .nil⟩
  have gS : GenRule Ex.nested 0 b!"x" := by
    obtain ⟨a, ha, hg⟩ := gT
    exact ⟨⟨[.terminal b!"x", .nonTerminal b!"T"]⟩, ⟨_, rfl, by decide⟩, .terminal (.nonTerminal hT ha hg .nil)⟩
  intro i alt name ⟨r, hr, ha⟩ hn
  have : ∀ r ∈ Ex.nested.rules, ∀ alt ∈ r.tail.sequences, ∀ x ∈ alt.symbols,
      x = .nonTerminal b!"S" ∨ x = .nonTerminal b!"T" ∨ (∀ n, x ≠ .nonTerminal n) := by
    simp [Ex.nested, rule]
  rcases this r (List.mem_of_getElem? hr) alt ha _ hn with h | h | h
  · cases h; exact ⟨0, _, hS, gS⟩
  · cases h; exact ⟨1, _, hT, gT⟩
  · exact (h name rfl).elim

/-- The hypotheses of C27 hold for `Ex.nested`. -/
example : Ex.nested.NulStartFree ∧ Ex.nested.Productive ∧
    (∃ tbl names, fromGrammar id Ex.nested = .ok (tbl, names)) :=
  ⟨nulStartFree_of (by decide +kernel), Ex.nested_productive, succeeds_iff.1 (by decide +kernel)⟩

/-! ## C28 -/

/-- **C28.** For a nullable rule and a byte it cannot begin with, the empty cell is there exactly for
the bytes of the least sets closed under the package's rules. -/
theorem C28_empty_cells (order : Order) (g : Grammar) (tbl : Table) (names : Names) (hz : g.NulStartFree)
    (h : fromGrammar order g = .ok (tbl, names)) (i : Nat) (hn : RuleNullable g i) (b : UInt8)
    (hf : ¬ RuleFirst g i b) :
    (∃ row, tbl.get (i : Int) = some row ∧ GoMap.get row b = some []) ↔ NextFollow g i b := by
  obtain ⟨a, ha, han⟩ := hn
  obtain ⟨r, hr, hm⟩ := id ha
  obtain ⟨row, hrow, hc⟩ := C26_cells order g tbl names hz h i r hr
  have hnone : ∀ alt ∈ r.tail.sequences, ¬ First g alt.symbols b := fun a ha h => hf ⟨a, ⟨r, hr, ha⟩, h⟩
  constructor
  · rintro ⟨row', hr', ho⟩
    rw [hrow] at hr'; cases hr'
    rcases (hc b).1.1 ⟨_, ho⟩ with ⟨a, ha, h⟩ | h
    · exact (hnone a ha h).elim
    · exact h.2
  · intro hb
    obtain ⟨ops, ho⟩ := (hc b).1.2 (.inr ⟨⟨a, hm, han⟩, hb⟩)
    have : ops = [] := TG.predicted_det ((hc b).2 ops ho) (TG.predicted_none hnone)
    subst this
    exact ⟨row, hrow, ho⟩

/-- **C28.** Without nullable gaps and with distinct heads these sets are the textbook FOLLOW sets. -/
theorem C28_textbook (g : Grammar) (hg : NoNullableGap g) (hd : DistinctHeads g) (i : Nat) (b : UInt8) :
    NextFollow g i b ↔ Follow g i b :=
  ⟨follow_of_nextFollow hg hd, nextFollow_of_follow hg⟩

/-- A decidable sufficient condition for the absence of nullable gaps: the bound `seqNull` of a
certificate (any certificate that passes the LL(1) check) says so. -/
def noGapB (g : Grammar) (c : Cert) : List Symbol → Bool
  | .nonTerminal _ :: next :: rest =>
    (!seqNull g c [next] || rest.isEmpty) && noGapB g c (next :: rest)
  | _ :: rest => noGapB g c rest
  | [] => true

theorem noGapB_at {g : Grammar} {c : Cert} : ∀ (syms pre : List Symbol) (name : Str) (next : Symbol)
    (post : List Symbol), noGapB g c syms = true → syms = pre ++ .nonTerminal name :: next :: post →
    seqNull g c [next] = true → post = [] := by
  intro syms
  induction syms with
  | nil => intro pre name next post _ h; simp at h
  | cons x rest ih =>
    intro pre name next post h hs hn
    cases pre with
    | nil =>
      simp only [List.nil_append, List.cons.injEq] at hs
      obtain ⟨rfl, rfl⟩ := hs
      simp only [noGapB, hn, Bool.not_true, Bool.false_or, Bool.and_eq_true, List.isEmpty_iff] at h
      exact h.1
    | cons y pre =>
      simp only [List.cons_append, List.cons.injEq] at hs
      obtain ⟨rfl, rfl⟩ := hs
      refine ih pre name next post ?_ rfl hn
      cases x with
      | terminal t => simpa only [noGapB] using h
      | nothing => simpa only [noGapB] using h
      | nonTerminal n =>
        cases hp : pre ++ Symbol.nonTerminal name :: next :: post with
        | nil => simp at hp
        | cons z zs =>
          rw [hp] at h
          simp only [noGapB, Bool.and_eq_true] at h
          exact h.2

theorem noNullableGap_of {g : Grammar} {c : Cert} (hc : ll1Check g c = true)
    (h : (g.rules.all fun r => r.tail.sequences.all fun a => noGapB g c a.symbols) = true) :
    NoNullableGap g := by
  intro i alt pre name next post ⟨r, hr, ha⟩ hs hn
  rw [List.all_eq_true] at h
  have := h r (List.mem_of_getElem? hr)
  rw [List.all_eq_true] at this
  exact noGapB_at _ pre name next post (this alt ha) hs (seqNull_of hc hn)

theorem Ex.nested_ll1 : IsLL1 Ex.nested :=
  isLL1_of_check (c := Cert.compute Ex.nested 4) (by decide +kernel)

theorem Ex.nested_noGap : NoNullableGap Ex.nested :=
  noNullableGap_of (c := Cert.compute Ex.nested 4) (by decide +kernel) (by decide +kernel)

example : NoNullableGap Ex.nested ∧ DistinctHeads Ex.nested ∧ RuleNullable Ex.nested 1 ∧
    Follow Ex.nested 1 41 ∧ ¬ RuleFirst Ex.nested 1 41 := by
  have hT : Ex.nested.Refers b!"T" 1 := (TG.get_ruleMap _ _ _).1 (by decide +kernel)
  have hS : Ex.nested.Refers b!"S" 0 := (TG.get_ruleMap _ _ _).1 (by decide +kernel)
  have hn : RuleNullable Ex.nested 1 := ⟨⟨[.nothing]⟩, ⟨_, rfl, by decide⟩, .nothing .nil⟩
  have hf : Follow Ex.nested 1 41 :=
    .last (j := 0) (alt := ⟨[.terminal b!"x", .nonTerminal b!"T"]⟩) (pre := [.terminal b!"x"]) (post := [])
      ⟨_, rfl, by decide⟩ rfl hT .nil
      (.first (j := 0) (alt := ⟨[.terminal b!"(", .nonTerminal b!"S", .terminal b!")", .nonTerminal b!"T"]⟩)
        (pre := [.terminal b!"("]) (post := [.terminal b!")", .nonTerminal b!"T"])
        ⟨_, rfl, by decide⟩ rfl hS .terminal)
  exact ⟨Ex.nested_noGap, distinctHeads_of (by decide +kernel), hn, hf,
    fun h => Ex.nested_ll1.2.2 1 41 hn h hf⟩

/-- **C28.** In general they are not the textbook sets.  In `gap` (LL(1), accepted by `FromGrammar`)
`d` follows `A` but is not predicted; in `gapRejected` `a` is predicted after `A` but does not follow. -/
theorem C28_differs :
    (IsLL1 Ex.gap ∧ (∃ tbl names, fromGrammar id Ex.gap = .ok (tbl, names)) ∧
      Follow Ex.gap 1 100 ∧ ¬ NextFollow Ex.gap 1 100) ∧
    (IsLL1 Ex.gapRejected ∧ NextFollow Ex.gapRejected 2 97 ∧ ¬ Follow Ex.gapRejected 2 97) := by
  have hok : ∃ tbl names, fromGrammar id Ex.gap = .ok (tbl, names) := succeeds_iff.1 (by decide +kernel)
  have hA : Ex.gap.Refers b!"A" 1 := (TG.get_ruleMap _ _ _).1 (by decide +kernel)
  have hB : Ex.gap.Refers b!"B" 2 := (TG.get_ruleMap _ _ _).1 (by decide +kernel)
  have hA' : Ex.gapRejected.Refers b!"A" 2 := (TG.get_ruleMap _ _ _).1 (by decide +kernel)
  have hB' : Ex.gapRejected.Refers b!"B" 3 := (TG.get_ruleMap _ _ _).1 (by decide +kernel)
  have hS' : Ex.gapRejected.Refers b!"S" 1 := (TG.get_ruleMap _ _ _).1 (by decide +kernel)
  have ll1 : IsLL1 Ex.gap := isLL1_of_check (c := Cert.compute Ex.gap 4) (by decide +kernel)
  have ll1' : IsLL1 Ex.gapRejected := isLL1_of_check (c := Cert.compute Ex.gapRejected 4) (by decide +kernel)
  have hfol : Follow Ex.gap 1 100 :=
    .first (j := 0) (alt := ⟨[.nonTerminal b!"A", .nonTerminal b!"B", .terminal b!"d"]⟩) (pre := [])
      ⟨_, rfl, by decide⟩ rfl hA
      (.skip (.nonTerminal (alt := ⟨[.nothing]⟩) hB ⟨_, rfl, by decide⟩ (.nothing .nil) .nil) .terminal)
  have hnA : RuleNullable Ex.gap 1 := ⟨⟨[.nothing]⟩, ⟨_, rfl, by decide⟩, .nothing .nil⟩
  have hnA' : RuleNullable Ex.gapRejected 2 := ⟨⟨[.nothing]⟩, ⟨_, rfl, by decide⟩, .nothing .nil⟩
  refine ⟨⟨ll1, hok, hfol, ?_⟩, ll1', ?_, ?_⟩
  · intro hnf
    obtain ⟨tbl, names, h⟩ := hok
    obtain ⟨row, hrow, hb⟩ := (C28_empty_cells id Ex.gap tbl names (nulStartFree_of (by decide +kernel)) h 1
      hnA 100 (fun hf => ll1.2.2 1 100 hnA hf hfol)).2 hnf
    have ht : fromGrammar id Ex.gap = .ok ([(2, [(100, []), (98, [.terminal b!"b"])]),
        (1, [(98, []), (0, []), (97, [.terminal b!"a"])]),
        (0, [(100, [.nonTerminal 1, .nonTerminal 2, .terminal b!"d"]),
             (98, [.nonTerminal 1, .nonTerminal 2, .terminal b!"d"]),
             (97, [.nonTerminal 1, .nonTerminal 2, .terminal b!"d"])])],
        [(0, b!"S"), (1, b!"A"), (2, b!"B")]) := by decide +kernel
    rw [ht] at h
    cases h
    revert hb
    cases hrow
    decide
  · exact .nextNullable (j := 1) (alt := ⟨[.nonTerminal b!"A", .nonTerminal b!"B", .terminal b!"d"]⟩)
      (pre := []) (next := .nonTerminal b!"B") (post := [.terminal b!"d"]) ⟨_, rfl, by decide⟩ rfl hA'.1
      (.nonTerminal (alt := ⟨[.nothing]⟩) hB' ⟨_, rfl, by decide⟩ (.nothing .nil) .nil)
      (.next (j := 0) (alt := ⟨[.nonTerminal b!"S", .terminal b!"a"]⟩) (pre := []) (post := [])
        ⟨_, rfl, by decide⟩ rfl hS'.1 .terminal)
  · intro hf
    exact ll1'.2.2 2 97 hnA' ⟨⟨[.terminal b!"a"]⟩, ⟨_, rfl, by decide⟩, .terminal⟩ hf

/-! ## C29, C30 -/

theorem not_clash {g : Grammar} (hll : IsLL1 g) (hsub : ∀ i b, RuleNullable g i → NextFollow g i b → Follow g i b)
    (i : Nat) : ¬ Clash g i := by
  rintro ⟨r, pre, alt, post, b, hr, hs, hn, hb, e, he, h⟩
  have ha : g.Alt i alt := ⟨r, hr, by rw [hs]; simp⟩
  have hm : g.Alt i e := ⟨r, hr, by rw [hs]; exact List.mem_append_left _ he⟩
  rcases h with h | h
  · exact hll.2.2 i b ⟨alt, ha, hn⟩ ⟨e, hm, h⟩ (hsub i b ⟨alt, ha, hn⟩ hb)
  · obtain ⟨k, hk⟩ := List.getElem?_of_mem he
    have hlt := (List.getElem?_eq_some_iff.1 hk).1
    have := hll.2.1 i r k pre.length e alt hr (by rw [hs, List.getElem?_append_left hlt]; exact hk)
      (by rw [hs]; simp) h hn
    omega

/-- **C29.** A well-formed grammar that is LL(1) in the textbook sense and has no nullable gap is
accepted. -/
theorem C29_ll1_accepted (order : Order) (g : Grammar) (hz : g.NulStartFree) (hw : g.WellFormed)
    (hd : DistinctHeads g) (hg : NoNullableGap g) (hll : IsLL1 g) :
    ∃ tbl names, fromGrammar order g = .ok (tbl, names) := by
  rcases TG.fromGrammar_cases order hz hw with ⟨⟨r, h⟩, _⟩ | ⟨_, i, h⟩
  · exact ⟨r.1, r.2, h⟩
  · exact (not_clash hll (fun i b _ hb => follow_of_nextFollow hg hd hb) i h).elim

example : Ex.nested.NulStartFree ∧ Ex.nested.WellFormed ∧ DistinctHeads Ex.nested ∧
    NoNullableGap Ex.nested ∧ IsLL1 Ex.nested :=
  ⟨nulStartFree_of (by decide +kernel), wellFormed_of (by decide +kernel), distinctHeads_of (by decide +kernel),
    Ex.nested_noGap, Ex.nested_ll1⟩

/-- **C29.** Without the gap condition an LL(1) grammar can be rejected as ambiguous. -/
theorem C29_gap_rejected : IsLL1 Ex.gapRejected ∧ Ex.gapRejected.WellFormed ∧ DistinctHeads Ex.gapRejected ∧
    fromGrammar id Ex.gapRejected = .err .conflict :=
  ⟨isLL1_of_check (c := Cert.compute Ex.gapRejected 4) (by decide +kernel), wellFormed_of (by decide +kernel),
    distinctHeads_of (by decide +kernel), by decide +kernel⟩

/-- **C30.** A well-formed grammar is rejected iff some rule has a clash: a nullable alternative, a byte
that can follow the rule, and an earlier alternative that is nullable or begins with that byte.  The
error is then "multiple parser op sets"; otherwise `FromGrammar` succeeds. -/
theorem C30_conflict_iff (order : Order) (g : Grammar) (hz : g.NulStartFree) (hw : g.WellFormed) :
    (fromGrammar order g = .err .conflict ↔ ∃ i, Clash g i) ∧
    ((∃ tbl names, fromGrammar order g = .ok (tbl, names)) ↔ ∀ i, ¬ Clash g i) := by
  rcases TG.fromGrammar_cases order hz hw with ⟨⟨r, h⟩, hc⟩ | ⟨h, i, hc⟩
  · refine ⟨⟨fun h' => ?_, fun ⟨i, hi⟩ => (hc i hi).elim⟩, fun _ => hc, fun _ => ⟨r.1, r.2, h⟩⟩
    rw [h] at h'; cases h'
  · refine ⟨⟨fun _ => ⟨i, hc⟩, fun _ => h⟩, fun ⟨t, n, h'⟩ => ?_, fun h' => (h' i hc).elim⟩
    rw [h] at h'; cases h'

/-- **C30.** Also for grammars that are not well-formed, "multiple parser op sets" is only reported for
a clash. -/
theorem C30_conflict_clash (order : Order) (g : Grammar) (hz : g.NulStartFree)
    (h : fromGrammar order g = .err .conflict) : ∃ i, Clash g i :=
  TG.fromGrammar_conflict hz h

/-- **C30.** FIRST/FIRST clashes are not reported: `S ::= "a" "b" | "a" "c"` is accepted and its cell is
the concatenation of both alternatives.  Nor is an empty alternative before one that begins with a
following byte; the same rule with the alternatives swapped is reported. -/
theorem C30_unreported :
    (¬ FirstDisjoint Ex.firstFirst ∧ fromGrammar id Ex.firstFirst =
      .ok ([(0, [(97, [.terminal b!"a", .terminal b!"b", .terminal b!"a", .terminal b!"c"])])],
        [(0, b!"S")])) ∧
    (¬ FirstFollowDisjoint Ex.emptyFirst ∧ fromGrammar id Ex.emptyFirst =
      .ok ([(1, [(97, [.terminal b!"a"])]), (0, [(97, [.nonTerminal 1, .terminal b!"a"])])],
        [(0, b!"S"), (1, b!"A")])) ∧
    fromGrammar id Ex.emptyLast = .err .conflict := by
  refine ⟨⟨?_, by decide +kernel⟩, ⟨?_, by decide +kernel⟩, by decide +kernel⟩
  · intro h
    have := h 0 _ 0 1 _ _ 97 rfl rfl rfl .terminal .terminal
    omega
  · intro h
    have hA : Ex.emptyFirst.Refers b!"A" 1 := (TG.get_ruleMap _ _ _).1 (by decide +kernel)
    exact h 1 97 ⟨⟨[.nothing]⟩, ⟨_, rfl, by decide⟩, .nothing .nil⟩
      ⟨⟨[.terminal b!"a"]⟩, ⟨_, rfl, by decide⟩, .terminal⟩
      (.first (j := 0) (alt := ⟨[.nonTerminal b!"A", .terminal b!"a"]⟩) (pre := []) (post := [.terminal b!"a"])
        ⟨_, rfl, by decide⟩ rfl hA .terminal)

example : Ex.emptyLast.NulStartFree ∧ Ex.emptyLast.WellFormed ∧ ∃ i, Clash Ex.emptyLast i :=
  have hz := nulStartFree_of (g := Ex.emptyLast) (by decide +kernel)
  have hw := wellFormed_of (g := Ex.emptyLast) (by decide +kernel)
  ⟨hz, hw, ((C30_conflict_iff id _ hz hw).1.1 (by decide +kernel))⟩

/-! ## C31 -/

/-- **C31.** If `FromGrammar` succeeds, an alternative that mentions an undefined non-terminal can never
be chosen: it is not nullable, begins with no byte, what stands before the undefined non-terminal
derives nothing at all, and the symbol just before it is not a defined non-terminal. -/
theorem C31_undefined_unreachable (order : Order) (g : Grammar) (tbl : Table) (names : Names)
    (hz : g.NulStartFree) (h : fromGrammar order g = .ok (tbl, names)) (i : Nat) (alt : Sequence)
    (ha : g.Alt i alt) (pre post : List Symbol) (name : Str)
    (hs : alt.symbols = pre ++ .nonTerminal name :: post) (hu : ∀ j, ¬ g.Head j name) :
    (∀ w, ¬ Gen g pre w) ∧ ¬ Nullable g alt.symbols ∧ (∀ b, ¬ First g alt.symbols b) ∧
    (∀ pre' n, pre = pre' ++ [.nonTerminal n] → ∀ j, ¬ g.Head j n) := by
  have ht := TG.fromGrammar_ok hz h
  have hnr : ∀ k, ¬ g.Refers name k := fun k hk => hu k hk.1
  have hfirst : ∀ b, ¬ First g alt.symbols b := by
    intro b hb
    obtain ⟨row, _, hok⟩ := ht.rows i ha.lt
    obtain ⟨ops, ho⟩ := hok.defined alt ha b hb
    obtain ⟨op, _, hop⟩ := ho.mem_left (a := .nonTerminal name) (by rw [hs]; simp)
    obtain ⟨k, hk, _⟩ := hop
    exact hnr k hk
  have hnull : ¬ Nullable g alt.symbols := by
    intro hn
    obtain ⟨k, hk⟩ := hn.refers name (by rw [hs]; simp)
    exact hnr k hk
  refine ⟨?_, hnull, hfirst, ?_⟩
  · intro w hw
    cases w with
    | cons b w => exact hfirst b (by rw [hs]; exact first_append.2 (.inl (first_of_gen hw)))
    | nil =>
      obtain ⟨firsts, hx⟩ := ht.exact
      have hread := hx.read i alt ha
      rw [hs] at hread
      have hn := nullable_iff_gen.2 hw
      clear hw hs
      induction pre with
      | nil => obtain ⟨k, hk, _⟩ := hread; exact hnr k hk
      | cons x pre ih =>
        obtain ⟨h1, h2⟩ := nullable_cons.1 hn
        cases h1 with
        | nothing => exact absurd hread (by simp [TG.ReadOk])
        | emptyTerminal => exact hread rfl
        | nonTerminal hr ha' hn' _ =>
          obtain ⟨k, hk, hk'⟩ := hread
          rw [hk.det hr] at hk'
          exact ih (hk' ((hx.null _).2 ⟨_, ha', TG.nullable_reads hn'⟩)) h2
  · rintro pre' n rfl j hj
    obtain ⟨k, hk⟩ := ht.nextDef i alt pre' n post name ha (by rw [hs]; simp) ⟨j, hj⟩
    exact hnr k hk

/-- **C31.** Hence a grammar in which some alternative mentions an undefined non-terminal after symbols
that derive some string is not accepted; with C23's conditions it is reported as an error. -/
theorem C31_undefined_reported (order : Order) (g : Grammar) (hz : g.NulStartFree) (i : Nat)
    (alt : Sequence) (ha : g.Alt i alt) (pre post : List Symbol) (name : Str)
    (hs : alt.symbols = pre ++ .nonTerminal name :: post) (hu : ∀ j, ¬ g.Head j name) (w : Str)
    (hw : Gen g pre w) (ht : g.NoEmptyTerminal) (hn : g.NothingAlone) :
    ∃ e, fromGrammar order g = .err e := by
  have h0 : g.rules ≠ [] := by
    obtain ⟨r, hr, _⟩ := ha
    intro h; rw [h] at hr; simp at hr
  rcases C23_no_panic order g h0 ht hn with ⟨tbl, names, h⟩ | h
  · exact ((C31_undefined_unreachable order g tbl names hz h i alt ha pre post name hs hu).1 w hw).elim
  · exact h

/-- `S ::= "x" <U>` is reported, `A ::= A "x" <undef>` is accepted without error. -/
example : fromGrammar id ⟨[rule b!"S" [[.terminal b!"x", .nonTerminal b!"U"]]]⟩ = .err (.undefined b!"U") := by
  decide +kernel
example : fromGrammar id Ex.hiddenUndefined = .ok ([(0, [])], [(0, b!"A")]) := by decide +kernel
example : ∃ alt, (⟨[rule b!"S" [[.terminal b!"x", .nonTerminal b!"U"]]]⟩ : Grammar).Alt 0 alt ∧
    alt.symbols = [.terminal b!"x"] ++ .nonTerminal b!"U" :: [] ∧
    (∀ j, ¬ (⟨[rule b!"S" [[.terminal b!"x", .nonTerminal b!"U"]]]⟩ : Grammar).Head j b!"U") ∧
    Gen ⟨[rule b!"S" [[.terminal b!"x", .nonTerminal b!"U"]]]⟩ [.terminal b!"x"] b!"x" := by
  refine ⟨_, ⟨_, rfl, List.mem_singleton.2 rfl⟩, rfl, ?_, .terminal .nil⟩
  rintro j ⟨r, hr, hn⟩
  have := List.mem_of_getElem? hr
  simp only [List.mem_singleton] at this
  subst this
  simp at hn

/-! ## C46 -/

/-- **C46.** References always go to the last rule with the head: no operation of the table refers to a
row whose head is used again by a later rule.  (Parsing still starts at row 0, see `initState` / C13.) -/
theorem C46_last_rule_wins (order : Order) (g : Grammar) (tbl : Table) (names : Names)
    (h : fromGrammar order g = .ok (tbl, names)) (i j : Nat) (name : Str) (hi : g.Head i name)
    (hj : g.Head j name) (hij : i < j) :
    (∀ n row b ops, tbl.get n = some row → GoMap.get row b = some ops →
      ParserOp.nonTerminal (i : Int) ∉ ops) ∧
    (∀ k, g.Refers name k → i < k) := by
  refine ⟨?_, fun k hk => Nat.lt_of_lt_of_le hij (hk.2 j hj)⟩
  intro n row b ops hn hb hop
  obtain ⟨_, _, hc⟩ := TG.fromGrammar_closed h
  obtain ⟨alt, x, _, hx, ho⟩ := hc n row b ops hn hb _ hop
  cases x with
  | terminal t => cases (ho : _ = _)
  | nothing => exact (ho : False).elim
  | nonTerminal n' =>
    obtain ⟨k, hk, he⟩ := ho
    have : k = i := by cases he; rfl
    subst this
    obtain ⟨r, hr, hn1⟩ := hi
    obtain ⟨r', hr', hn2⟩ := hk.1
    rw [hr] at hr'; cases hr'
    rw [hn1] at hn2; subst hn2
    have := hk.2 j hj
    omega

/-- `A ::= "x" A` and then `A ::= "y"`: accepted without error; the parser for it accepts `xy` (start at
the first rule, reference to the second) and rejects `xxy`. -/
theorem C46_witness :
    ∃ tbl names, fromGrammar id Ex.twice = .ok (tbl, names) ∧
      (∃ t m, (Parser.mk tbl (some names)).Returns (.string b!"xy") (.ok t m)) ∧
      (∃ e, (Parser.mk tbl (some names)).Returns (.string b!"xxy") (.err e)) :=
  ⟨[(1, [(121, [.terminal b!"y"])]), (0, [(120, [.terminal b!"x", .nonTerminal 1])])], [(1, b!"A")],
    by decide +kernel, ⟨_, _, 20, rfl⟩, ⟨_, 20, rfl⟩⟩

theorem derives_type_absent {tbl : Table} {text : Str} {x : Nat}
    (hx : ∀ n row b ops, tbl.get n = some row → GoMap.get row b = some ops → ParserOp.nonTerminal (x : Int) ∉ ops)
    {ops : List ParserOp} {i j : Nat} {cs : List Node} (h : Derives tbl text ops i j cs)
    (ho : ParserOp.nonTerminal (x : Int) ∉ ops) : ∀ c ∈ cs, ∀ n ∈ preorder c, n.type ≠ x := by
  have nothing : ∀ (k : Nat) (n : Node), n ∈ preorder (nothingNode k) → n.type ≠ x := by
    intro k n hn
    rw [mem_preorder_nothing hn]
    exact fun h => absurd h (by show (-2 : Int) ≠ (x : Int); omega)
  induction h with
  | nil => intro c hc; cases hc
  | @lit s ops i j cs hl hd ih =>
    intro c hc n hn
    rcases List.mem_cons.1 hc with rfl | hc
    · rw [literalNode, preorder_mk] at hn
      rcases List.mem_cons.1 hn with rfl | hn
      · show (-1 : Int) ≠ (x : Int); omega
      · split at hn
        · simp only [List.map_cons, List.map_nil, List.flatten_cons, List.flatten_nil, List.append_nil] at hn
          exact nothing _ n hn
        · simp at hn
    · exact ih (fun h => ho (.tail _ h)) c hc n hn
  | @nt m body ops i j k cs ds hb hd1 hd2 ih1 ih2 =>
    intro c hc n hn
    rcases List.mem_cons.1 hc with rfl | hc
    · rw [ntNode, preorder_mk] at hn
      rcases List.mem_cons.1 hn with rfl | hn
      · intro h
        exact ho (by rw [show (x : Int) = m from h.symm]; exact .head _)
      · split at hn
        · simp only [List.map_cons, List.map_nil, List.flatten_cons, List.flatten_nil, List.append_nil] at hn
          exact nothing _ n hn
        · obtain ⟨l, hl, hn⟩ := List.mem_flatten.1 hn
          obtain ⟨c, hc, rfl⟩ := List.mem_map.1 hl
          refine ih1 ?_ c hc n hn
          intro hm
          unfold bodyFor at hb
          split at hb
          · cases hr : tbl.get m with
            | none => simp [hr] at hb
            | some row => exact hx m row _ body hr (by simpa [hr] using hb) hm
          · split at hb
            · split at hb
              · cases hb; simp at hm
              · split at hb
                · cases hb; simp at hm
                · cases hb
            · cases hb
    · exact ih2 (fun h => ho (.tail _ h)) c hc n hn

/-- **C46.** What one sees in the trees: parsing starts at the first rule, also when a later rule has the same head; a
rule whose head a later rule redefines labels no other node than, if it is the first rule, the root. -/
theorem C46_starts_first (order : Order) (g : Grammar) (tbl : Table) (names : Names)
    (h : fromGrammar order g = .ok (tbl, names)) (nm : Option Names) (src : Source) (t : Node) (m' : Names)
    (hp : (Parser.mk tbl nm).Returns src (.ok t m')) :
    t.type = 0 ∧
    ∀ i j name, g.Head i name → g.Head j name → i < j → ∀ c ∈ t.childs, ∀ n ∈ preorder c, n.type ≠ i := by
  have hc := fromGrammar_closedTable h
  cases hr : readSource src with
  | error e =>
    obtain ⟨row, hrow⟩ := hc.hasEntry
    obtain ⟨f, hf⟩ := hp
    simp [Parser.parseFuel, hasEntry_length ⟨row, hrow⟩, hrow, hr] at hf
  | ok text =>
    obtain ⟨⟨k, hD, _⟩, _⟩ := (returns_ok_iff (p := Parser.mk tbl nm) hc.hasEntry hc.public hr).1 hp
    cases hD with
    | @nt _ body _ _ _ _ cs _ hb hD1 hD2 =>
      cases hD2
      refine ⟨rfl, fun i j name hi hj hij c hcm n hn => ?_⟩
      have hx := (C46_last_rule_wins order g tbl names h i j name hi hj hij).1
      simp only [ntNode, Node.childs] at hcm
      split at hcm
      · rw [List.mem_singleton] at hcm
        subst hcm
        rw [mem_preorder_nothing hn]
        show (-2 : Int) ≠ (i : Int)
        omega
      · next hne =>
        refine derives_type_absent hx hD1 ?_ c hcm n hn
        cases hr0 : tbl.get 0 with
        | none => simp [bodyFor, hr0] at hb
        | some row => exact hx 0 row _ body hr0 (by simpa [bodyFor, hr0] using hb)

/-- With `A ::= "x" A`, `A ::= "y"`: the root of `xy` is of type 0, the node below of type 1. -/
example : (∃ m', (Parser.mk [(1, [(121, [.terminal b!"y"])]), (0, [(120, [.terminal b!"x", .nonTerminal 1])])]
      (some [(1, b!"A")])).Returns (.string b!"xy")
      (.ok (.mk 0 0 2 [.mk (-1) 0 1 [], .mk 1 1 2 [.mk (-1) 1 2 []]]) m')) ∧
    Ex.twice.Head 0 b!"A" ∧ Ex.twice.Head 1 b!"A" :=
  ⟨⟨_, 30, rfl⟩, ⟨_, rfl, rfl⟩, ⟨_, rfl, rfl⟩⟩

end LL1
