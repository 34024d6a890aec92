import Verif.Spec.Join
import Verif.Props.EndToEnd

/-!
# Grammars inside other grammars
-/

namespace LL1

/-- The rules of `g` are those of `big` from number `k` on. -/
structure RulesFrom (k : Nat) (g big : Grammar) : Prop where
  rule : ∀ i, i < g.rules.length → big.rules[i + k]? = g.rules[i]?
  distinct : DistinctHeads big
  defined : g.AllDefined

/-- All non-terminals among the symbols are defined by `g`. -/
def Grammar.Owns (g : Grammar) (ys : List Symbol) : Prop :=
  ∀ name, Symbol.nonTerminal name ∈ ys → ∃ i, g.Head i name

theorem Grammar.Owns.tail {g : Grammar} {y : Symbol} {ys : List Symbol} (h : g.Owns (y :: ys)) : g.Owns ys :=
  fun n hn => h n (List.mem_cons_of_mem _ hn)

theorem Grammar.Owns.one {g : Grammar} {y : Symbol} {ys : List Symbol} (h : g.Owns (y :: ys)) : g.Owns [y] :=
  fun n hn => h n (by simp at hn; simp [hn])

/-- The condition of `FirstDisjoint` for one rule. -/
def FDRow (g : Grammar) (i : Nat) : Prop :=
  ∀ (r : Rule) (k l : Nat) (a c : Sequence) (b : UInt8), g.rules[i]? = some r →
    r.tail.sequences[k]? = some a → r.tail.sequences[l]? = some c →
    First g a.symbols b → First g c.symbols b → k = l

/-- The condition of `OneNullable` for one rule. -/
def ONRow (g : Grammar) (i : Nat) : Prop :=
  ∀ (r : Rule) (k l : Nat) (a c : Sequence), g.rules[i]? = some r →
    r.tail.sequences[k]? = some a → r.tail.sequences[l]? = some c →
    Nullable g a.symbols → Nullable g c.symbols → k = l

namespace RulesFrom
variable {k : Nat} {g big : Grammar}

theorem lt_of_alt {i : Nat} {a : Sequence} (ha : g.Alt i a) : i < g.rules.length := by
  obtain ⟨r, hr, _⟩ := ha
  exact (List.getElem?_eq_some_iff.1 hr).1

theorem lt_of_head {i : Nat} {n : Str} (ha : g.Head i n) : i < g.rules.length := by
  obtain ⟨r, hr, _⟩ := ha
  exact (List.getElem?_eq_some_iff.1 hr).1

theorem alt (h : RulesFrom k g big) {i : Nat} {a : Sequence} (ha : g.Alt i a) : big.Alt (i + k) a := by
  obtain ⟨r, hr, hm⟩ := id ha
  exact ⟨r, by rw [h.rule i (lt_of_alt ha), hr], hm⟩

theorem alt_back (h : RulesFrom k g big) {i : Nat} (hi : i < g.rules.length) {a : Sequence} (ha : big.Alt (i + k) a) : g.Alt i a := by
  obtain ⟨r, hr, hm⟩ := ha
  exact ⟨r, by rw [← h.rule i hi, hr], hm⟩

theorem head (h : RulesFrom k g big) {i : Nat} {n : Str} (ha : g.Head i n) : big.Head (i + k) n := by
  obtain ⟨r, hr, hm⟩ := id ha
  exact ⟨r, by rw [h.rule i (lt_of_head ha), hr], hm⟩

theorem distinct_self (h : RulesFrom k g big) : DistinctHeads g := by
  intro i j n hi hj
  have := h.distinct _ _ n (h.head hi) (h.head hj)
  omega

theorem refers (h : RulesFrom k g big) {i : Nat} {n : Str} (ha : g.Refers n i) : big.Refers n (i + k) :=
  refers_of_distinct h.distinct (h.head ha.1)

theorem refers_back (h : RulesFrom k g big) {ys : List Symbol} {n : Str} (ho : g.Owns ys) (hn : Symbol.nonTerminal n ∈ ys)
    {j : Nat} (hj : big.Refers n j) : ∃ i, j = i + k ∧ i < g.rules.length ∧ g.Refers n i := by
  obtain ⟨i, hi⟩ := ho n hn
  exact ⟨i, h.distinct _ _ n hj.1 (h.head hi), lt_of_head hi, refers_of_distinct h.distinct_self hi⟩

theorem owns (h : RulesFrom k g big) {i : Nat} {a : Sequence} (ha : g.Alt i a) : g.Owns a.symbols :=
  fun n hn => h.defined i a n ha hn

theorem nullable (h : RulesFrom k g big) {ys : List Symbol} (hn : Nullable g ys) : Nullable big ys := by
  induction hn with
  | nil => exact .nil
  | nothing _ ih => exact .nothing ih
  | emptyTerminal _ ih => exact .emptyTerminal ih
  | nonTerminal hr ha _ _ ih1 ih2 => exact .nonTerminal (h.refers hr) (h.alt ha) ih1 ih2

theorem nullable_back (h : RulesFrom k g big) {ys : List Symbol} (hn : Nullable big ys) (ho : g.Owns ys) : Nullable g ys := by
  induction hn with
  | nil => exact .nil
  | nothing _ ih => exact .nothing (ih ho.tail)
  | emptyTerminal _ ih => exact .emptyTerminal (ih ho.tail)
  | nonTerminal hr ha _ _ ih1 ih2 =>
    obtain ⟨i, rfl, hi, hr'⟩ := h.refers_back ho List.mem_cons_self hr
    have ha' := h.alt_back hi ha
    exact .nonTerminal hr' ha' (ih1 (h.owns ha')) (ih2 ho.tail)

theorem first (h : RulesFrom k g big) {ys : List Symbol} {b : UInt8} (hf : First g ys b) : First big ys b := by
  induction hf with
  | terminal => exact .terminal
  | head hr ha _ ih => exact .head (h.refers hr) (h.alt ha) ih
  | skip hn _ ih => exact .skip (h.nullable hn) ih

theorem first_back (h : RulesFrom k g big) {ys : List Symbol} {b : UInt8} (hf : First big ys b) (ho : g.Owns ys) : First g ys b := by
  induction hf with
  | terminal => exact .terminal
  | head hr ha _ ih =>
    obtain ⟨i, rfl, hi, hr'⟩ := h.refers_back ho List.mem_cons_self hr
    have ha' := h.alt_back hi ha
    exact .head hr' ha' (ih (h.owns ha'))
  | skip hn _ ih => exact .skip (h.nullable_back hn ho.one) (ih ho.tail)

theorem gen (h : RulesFrom k g big) {ys : List Symbol} {w : Str} (hg : Gen g ys w) : Gen big ys w := by
  induction hg with
  | nil => exact .nil
  | terminal _ ih => exact .terminal ih
  | nothing _ ih => exact .nothing ih
  | nonTerminal hr ha _ _ ih1 ih2 => exact .nonTerminal (h.refers hr) (h.alt ha) ih1 ih2

theorem gen_back (h : RulesFrom k g big) {ys : List Symbol} {w : Str} (hg : Gen big ys w) (ho : g.Owns ys) : Gen g ys w := by
  induction hg with
  | nil => exact .nil
  | terminal _ ih => exact .terminal (ih ho.tail)
  | nothing _ ih => exact .nothing (ih ho.tail)
  | nonTerminal hr ha _ _ ih1 ih2 =>
    obtain ⟨i, rfl, hi, hr'⟩ := h.refers_back ho List.mem_cons_self hr
    have ha' := h.alt_back hi ha
    exact .nonTerminal hr' ha' (ih1 (h.owns ha')) (ih2 ho.tail)

theorem genRule (h : RulesFrom k g big) {i : Nat} (hi : i < g.rules.length) {w : Str} : GenRule big (i + k) w ↔ GenRule g i w := by
  constructor
  · rintro ⟨a, ha, hg⟩
    have ha' := h.alt_back hi ha
    exact ⟨a, ha', h.gen_back hg (h.owns ha')⟩
  · rintro ⟨a, ha, hg⟩
    exact ⟨a, h.alt ha, h.gen hg⟩

theorem ruleFirst (h : RulesFrom k g big) {i : Nat} (hi : i < g.rules.length) {b : UInt8} :
    RuleFirst big (i + k) b ↔ RuleFirst g i b := by
  constructor
  · rintro ⟨a, ha, hg⟩
    have ha' := h.alt_back hi ha
    exact ⟨a, ha', h.first_back hg (h.owns ha')⟩
  · rintro ⟨a, ha, hg⟩
    exact ⟨a, h.alt ha, h.first hg⟩

theorem ruleNullable (h : RulesFrom k g big) {i : Nat} (hi : i < g.rules.length) :
    RuleNullable big (i + k) ↔ RuleNullable g i := by
  constructor
  · rintro ⟨a, ha, hg⟩
    have ha' := h.alt_back hi ha
    exact ⟨a, ha', h.nullable_back hg (h.owns ha')⟩
  · rintro ⟨a, ha, hg⟩
    exact ⟨a, h.alt ha, h.nullable hg⟩

theorem follow (h : RulesFrom k g big) (h0 : Follow big k 0) {i : Nat} {b : UInt8} (hf : Follow g i b) : Follow big (i + k) b := by
  induction hf with
  | start => simpa using h0
  | first ha he hr hf => exact .first (h.alt ha) he (h.refers hr) (h.first hf)
  | last ha he hr hn _ ih => exact .last (h.alt ha) he (h.refers hr) (h.nullable hn) ih

theorem firstDisjoint_row (h : RulesFrom k g big) {i : Nat} (hi : i < g.rules.length) :
    FDRow big (i + k) ↔ FDRow g i := by
  unfold FDRow
  rw [h.rule i hi]
  constructor
  · intro H r p q a c b hr hp hq h1 h2
    exact H r p q a c b hr hp hq (h.first h1) (h.first h2)
  · intro H r p q a c b hr hp hq h1 h2
    exact H r p q a c b hr hp hq (h.first_back h1 (h.owns ⟨r, hr, List.mem_of_getElem? hp⟩))
      (h.first_back h2 (h.owns ⟨r, hr, List.mem_of_getElem? hq⟩))

theorem oneNullable_row (h : RulesFrom k g big) {i : Nat} (hi : i < g.rules.length) :
    ONRow big (i + k) ↔ ONRow g i := by
  unfold ONRow
  rw [h.rule i hi]
  constructor
  · intro H r p q a c hr hp hq h1 h2
    exact H r p q a c hr hp hq (h.nullable h1) (h.nullable h2)
  · intro H r p q a c hr hp hq h1 h2
    exact H r p q a c hr hp hq (h.nullable_back h1 (h.owns ⟨r, hr, List.mem_of_getElem? hp⟩))
      (h.nullable_back h2 (h.owns ⟨r, hr, List.mem_of_getElem? hq⟩))

end RulesFrom

/-! ## Trees -/

mutual
/-- The derivation tree with all rule numbers `k` further on. -/
def DTree.later (k : Nat) : DTree → DTree
  | .leaf t => .leaf t
  | .empty => .empty
  | .node i a cs => .node (i + k) a (DTree.laters k cs)
def DTree.laters (k : Nat) : List DTree → List DTree
  | [] => []
  | c :: cs => c.later k :: DTree.laters k cs
end

theorem RulesFrom.dtrees {k : Nat} {g big : Grammar} (h : RulesFrom k g big) {ys : List Symbol} {ts : List DTree}
    (hd : DTrees g ys ts) : DTrees big ys (DTree.laters k ts) := by
  induction hd with
  | nil => exact .nil
  | terminal _ ih => exact .terminal ih
  | nothing _ ih => exact .nothing ih
  | nonTerminal hr hru hk _ _ ih1 ih2 =>
    refine .nonTerminal (h.refers hr) ?_ hk ih1 ih2
    rw [h.rule _ (List.getElem?_eq_some_iff.1 hru).1, hru]

theorem yields_laters {k : Nat} {g : Grammar} {ys : List Symbol} {ts : List DTree} (hd : DTrees g ys ts) :
    DTree.yields (DTree.laters k ts) = DTree.yields ts := by
  induction hd with
  | nil => rfl
  | terminal _ ih => simp only [DTree.laters, DTree.later, DTree.yields, DTree.yield, ih]
  | nothing _ ih => simp only [DTree.laters, DTree.later, DTree.yields, DTree.yield, ih]
  | nonTerminal _ _ _ _ _ ih1 ih2 => simp only [DTree.laters, DTree.later, DTree.yields, DTree.yield, ih1, ih2]

mutual
theorem shift_zero : ∀ n : Node, n.shift 0 = n
  | .mk t s e cs => by simp [Node.shift, shiftAll_zero cs]
theorem shiftAll_zero : ∀ cs : List Node, Node.shiftAll 0 cs = cs
  | [] => rfl
  | c :: cs => by simp [Node.shiftAll, shift_zero c, shiftAll_zero cs]
end

theorem later_nothing (k p q : Nat) : (nothingNode (p + q)) = Node.shift p (Node.renumber (later k) (nothingNode q)) := by
  simp [nothingNode, Node.renumber, Node.renumberAll, Node.shift, Node.shiftAll, later]

theorem later_literal (k p q : Nat) (t : Str) :
    (literalNode t (p + q)) = Node.shift p (Node.renumber (later k) (literalNode t q)) := by
  unfold literalNode
  split <;> simp [nothingNode, Node.renumber, Node.renumberAll, Node.shift, Node.shiftAll, later, Nat.add_assoc]

theorem toNodes_laters {k : Nat} {g : Grammar} {ys : List Symbol} {ts : List DTree} (hd : DTrees g ys ts) (p : Nat) :
    ∀ q, DTree.toNodes (p + q) (DTree.laters k ts) = Node.shiftAll p (Node.renumberAll (later k) (DTree.toNodes q ts)) := by
  induction hd with
  | nil => intro q; rfl
  | terminal _ ih =>
    intro q
    simp only [DTree.laters, DTree.later, DTree.toNodes, DTree.toNode, Node.renumberAll, Node.shiftAll, DTree.yield,
      ← later_literal, ← ih, Nat.add_assoc]
  | nothing _ ih =>
    intro q
    simp only [DTree.laters, DTree.later, DTree.toNodes, DTree.toNode, Node.renumberAll, Node.shiftAll, DTree.yield,
      ← later_nothing, ← ih, Nat.add_assoc]
  | @nonTerminal name i a r alt rest cs ts _ _ _ h1 h2 ih1 ih2 =>
    intro q
    simp only [DTree.laters, DTree.later, DTree.toNodes, DTree.toNode, Node.renumberAll, Node.shiftAll, DTree.yield,
      yields_laters h1, Node.renumber, Node.shift, Nat.add_assoc, ← ih2]
    congr 2
    split
    · rw [later_nothing k]; rfl
    · exact ih1 q

theorem toNode_later {k : Nat} {g : Grammar} {i : Nat} {w : Str} {d : DTree} (hd : IsDTree g i w d) (p : Nat) :
    (d.later k).toNode p = Node.shift p (Node.renumber (later k) (d.toNode 0)) := by
  obtain ⟨r, a, alt, cs, _, _, hc, rfl, _⟩ := hd
  simp only [DTree.later, DTree.toNode, yields_laters hc, Node.renumber, Node.shift]
  congr 1
  · simp
  · split
    · rw [show nothingNode p = nothingNode (p + 0) from rfl, later_nothing k]; rfl
    · exact toNodes_laters hc p 0

theorem RulesFrom.isDTree {k : Nat} {g big : Grammar} (h : RulesFrom k g big) {i : Nat} {w : Str} {d : DTree} (hd : IsDTree g i w d)
    {name : Str} (hn : g.Head i name) {rest : List Symbol} {ts : List DTree} (hr : DTrees big rest ts) :
    DTrees big (.nonTerminal name :: rest) (d.later k :: ts) ∧ (d.later k).yield = w := by
  obtain ⟨r, a, alt, cs, hru, hk, hc, rfl, hy⟩ := hd
  refine ⟨?_, ?_⟩
  · simp only [DTree.later]
    refine .nonTerminal (refers_of_distinct h.distinct (h.head hn)) ?_ hk (h.dtrees hc) hr
    rw [h.rule _ (List.getElem?_eq_some_iff.1 hru).1, hru]
  · simp only [DTree.later, DTree.yield, yields_laters hc] at hy ⊢
    exact hy

end LL1
