import Verif.Spec.Restart
import Verif.Proofs.Rearrange
import Verif.Props.EndToEnd

/-!
# Proofs for C90
-/

namespace LL1
namespace Restart
variable {g g' : Grammar}

theorem distinct_iff : DistinctHeads g ↔ (g.rules.map (·.head)).Nodup := by
  rw [List.nodup_iff_pairwise_ne, List.pairwise_map, List.pairwise_iff_getElem]
  constructor
  · intro h i j hi hj hij he
    have := h i j _ ⟨_, List.getElem?_eq_getElem hi, rfl⟩ ⟨_, List.getElem?_eq_getElem hj, he.symm⟩
    omega
  · rintro h i j n ⟨r, hr, rfl⟩ ⟨s, hs, he⟩
    obtain ⟨hi, rfl⟩ := List.getElem?_eq_some_iff.1 hr
    obtain ⟨hj, rfl⟩ := List.getElem?_eq_some_iff.1 hs
    rcases Nat.lt_trichotomy i j with hl | hl | hl
    · exact (h i j hi hj hl he.symm).elim
    · exact hl
    · exact (h j i hj hi hl he).elim

theorem distinct (hp : g'.rules.Perm g.rules) (hd : DistinctHeads g) : DistinctHeads g' := by
  rw [distinct_iff] at hd ⊢
  exact (hp.map _).nodup_iff.2 hd

/-- Rule `i` of `g` is rule `j` of `g'`. -/
def Corr (g g' : Grammar) (i j : Nat) : Prop := ∃ r, g.rules[i]? = some r ∧ g'.rules[j]? = some r

theorem Corr.symm {i j : Nat} (h : Corr g g' i j) : Corr g' g j i := by
  obtain ⟨r, h1, h2⟩ := h; exact ⟨r, h2, h1⟩

theorem corr_of (hp : g'.rules.Perm g.rules) {i : Nat} {r : Rule} (h : g.rules[i]? = some r) :
    ∃ j, Corr g g' i j := by
  obtain ⟨j, hj⟩ := List.getElem?_of_mem (hp.mem_iff.2 (List.mem_of_getElem? h))
  exact ⟨j, r, h, hj⟩

theorem Corr.unique (hd' : DistinctHeads g') {i j j' : Nat} (h : Corr g g' i j) (h' : Corr g g' i j') : j = j' := by
  obtain ⟨r, a, b⟩ := h
  obtain ⟨r', a', b'⟩ := h'
  rw [a] at a'
  cases a'
  exact hd' _ _ _ ⟨_, b, rfl⟩ ⟨_, b', rfl⟩

theorem Corr.head {i j : Nat} (h : Corr g g' i j) {name : Str} (hh : g.Head i name) : g'.Head j name := by
  obtain ⟨r, a, b⟩ := h
  obtain ⟨r', a', b'⟩ := hh
  rw [a] at a'
  cases a'
  exact ⟨r, b, b'⟩

theorem Corr.alt {i j : Nat} (h : Corr g g' i j) {a : Sequence} (ha : g.Alt i a) : g'.Alt j a := by
  obtain ⟨r, h1, h2⟩ := h
  obtain ⟨r', h3, h4⟩ := ha
  rw [h1] at h3
  cases h3
  exact ⟨r, h2, h4⟩

theorem Corr.refers (hd' : DistinctHeads g') {i j : Nat} (h : Corr g g' i j) {name : Str} (hh : g.Refers name i) :
    g'.Refers name j := refers_of_distinct hd' (h.head hh.1)

section
variable (hp : g'.rules.Perm g.rules) (hd' : DistinctHeads g')
include hp

theorem corr_head {i : Nat} {name : Str} (hh : g.Head i name) : ∃ j, Corr g g' i j := by
  obtain ⟨r, hr, _⟩ := hh
  exact corr_of hp hr

theorem corr_alt {i : Nat} {a : Sequence} (ha : g.Alt i a) : ∃ j, Corr g g' i j ∧ g'.Alt j a := by
  obtain ⟨r, hr, h⟩ := id ha
  obtain ⟨j, hj⟩ := corr_of hp hr
  exact ⟨j, hj, hj.alt ha⟩

include hd'

theorem gen {ys : List Symbol} {w : Str} (h : Gen g ys w) : Gen g' ys w := by
  induction h with
  | nil => exact .nil
  | terminal _ ih => exact .terminal ih
  | nothing _ ih => exact .nothing ih
  | nonTerminal hr ha _ _ ih1 ih2 =>
    obtain ⟨j, hj⟩ := corr_head hp hr.1
    exact .nonTerminal (hj.refers hd' hr) (hj.alt ha) ih1 ih2

theorem nullable {ys : List Symbol} (h : Nullable g ys) : Nullable g' ys := by
  induction h with
  | nil => exact .nil
  | nothing _ ih => exact .nothing ih
  | emptyTerminal _ ih => exact .emptyTerminal ih
  | nonTerminal hr ha _ _ ih1 ih2 =>
    obtain ⟨j, hj⟩ := corr_head hp hr.1
    exact .nonTerminal (hj.refers hd' hr) (hj.alt ha) ih1 ih2

theorem first {ys : List Symbol} {b : UInt8} (h : First g ys b) : First g' ys b := by
  induction h with
  | terminal => exact .terminal
  | head hr ha _ ih =>
    obtain ⟨j, hj⟩ := corr_head hp hr.1
    exact .head (hj.refers hd' hr) (hj.alt ha) ih
  | skip hn _ ih => exact .skip (nullable hp hd' hn) ih

theorem follow {i : Nat} {b : UInt8} (h : Follow g i b) (hb : b ≠ 0) : ∀ j, Corr g g' i j → Follow g' j b := by
  induction h with
  | start => exact (hb rfl).elim
  | first ha hs hr hf =>
    intro j hc
    obtain ⟨k, hk, hak⟩ := corr_alt hp ha
    exact .first hak hs (hc.refers hd' hr) (first hp hd' hf)
  | last ha hs hr hn _ ih =>
    intro j hc
    obtain ⟨k, hk, hak⟩ := corr_alt hp ha
    exact .last hak hs (hc.refers hd' hr) (nullable hp hd' hn) (ih hb k hk)

theorem nextFollow {i : Nat} {b : UInt8} (h : NextFollow g i b) (hb : b ≠ 0) : ∀ j, Corr g g' i j → NextFollow g' j b := by
  induction h with
  | start => exact (hb rfl).elim
  | last ha hs hh _ ih =>
    intro j hc
    obtain ⟨k, hk, hak⟩ := corr_alt hp ha
    exact .last hak hs (hc.head hh) (ih hb k hk)
  | next ha hs hh hf =>
    intro j hc
    obtain ⟨k, hk, hak⟩ := corr_alt hp ha
    exact .next hak hs (hc.head hh) (first hp hd' hf)
  | nextNullable ha hs hh hn _ ih =>
    intro j hc
    obtain ⟨k, hk, hak⟩ := corr_alt hp ha
    exact .nextNullable hak hs (hc.head hh) (nullable hp hd' hn) (ih hb k hk)

end

theorem first_ne_zero (hz : g.NulStartFree) {ys : List Symbol} {b : UInt8} (h : First g ys b) :
    (∀ t, Symbol.terminal t ∈ ys → t.head? ≠ some 0) → b ≠ 0 := by
  induction h with
  | @terminal b t rest =>
    intro ht h0
    subst h0
    exact ht _ (.head _) rfl
  | @head _ i alt _ _ _ ha _ ih => exact fun _ => ih fun t ht => hz i alt t ha ht
  | skip _ _ ih => exact fun ht => ih fun t h => ht t (List.mem_cons_of_mem _ h)

theorem rule_rest (hp : g'.rules.Perm g.rules) {j : Nat} {r : Rule} (h : g'.rules[j]? = some r) : ∃ i, Corr g g' i j := by
  obtain ⟨i, hi⟩ := corr_of hp.symm h
  exact ⟨i, hi.symm⟩

theorem ll1 (hp : g'.rules.Perm g.rules) (hd : DistinctHeads g) (hz : g.NulStartFree) (hll : IsLL1 g) : IsLL1 g' := by
  have hd' := distinct hp hd
  refine ⟨?_, ?_, ?_⟩
  · intro j r k l a c b hr hk hl ha hc
    obtain ⟨i, r', h1, h2⟩ := rule_rest hp hr
    rw [hr] at h2
    cases h2
    exact hll.1 i r k l a c b h1 hk hl (first hp.symm hd ha) (first hp.symm hd hc)
  · intro j r k l a c hr hk hl ha hc
    obtain ⟨i, r', h1, h2⟩ := rule_rest hp hr
    rw [hr] at h2
    cases h2
    exact hll.2.1 i r k l a c h1 hk hl (nullable hp.symm hd ha) (nullable hp.symm hd hc)
  · rintro j b ⟨a, ha, hn⟩ ⟨c, hc, hf⟩ hfol
    obtain ⟨i, hi, hai⟩ := corr_alt hp.symm ha
    have hci := hi.alt hc
    have hfi := first hp.symm hd hf
    have hb : b ≠ 0 := first_ne_zero hz hfi fun t ht => hz i c t hci ht
    exact hll.2.2 i b ⟨a, hai, nullable hp.symm hd hn⟩ ⟨c, hci, hfi⟩ (follow hp.symm hd hfol hb i hi)

theorem noGap (hp : g'.rules.Perm g.rules) (hd : DistinctHeads g) (h : NoNullableGap g) : NoNullableGap g' := by
  intro j a pre name next post ha hs hn
  obtain ⟨i, _, hai⟩ := corr_alt hp.symm ha
  exact h i a pre name next post hai hs (nullable hp.symm hd hn)

theorem wellFormed (hp : g'.rules.Perm g.rules) (hw : g.WellFormed) : g'.WellFormed := by
  refine ⟨?_, ?_, ?_, ?_, ?_⟩
  · intro he
    rw [he] at hp
    exact hw.rules hp.symm.eq_nil
  · intro j a t ha
    obtain ⟨i, _, hai⟩ := corr_alt hp.symm ha
    exact hw.term i a t hai
  · intro j a ha
    obtain ⟨i, _, hai⟩ := corr_alt hp.symm ha
    exact hw.nothing i a hai
  · intro j a ha
    obtain ⟨i, _, hai⟩ := corr_alt hp.symm ha
    exact hw.alts i a hai
  · intro j a name ha hm
    obtain ⟨i, _, hai⟩ := corr_alt hp.symm ha
    obtain ⟨k, hk⟩ := hw.defined i a name hai hm
    obtain ⟨l, hl⟩ := corr_head hp hk
    exact ⟨l, hl.head hk⟩

theorem nulStartFree (hp : g'.rules.Perm g.rules) (hz : g.NulStartFree) : g'.NulStartFree := by
  intro j a t ha
  obtain ⟨i, _, hai⟩ := corr_alt hp.symm ha
  exact hz i a t hai

theorem nulFree (hp : g'.rules.Perm g.rules) (hz : g.NulFree) : g'.NulFree := by
  intro j a t ha
  obtain ⟨i, _, hai⟩ := corr_alt hp.symm ha
  exact hz i a t hai

/-! ## Trees -/

/-- Names that go with the renumbering. -/
structure NamesOk (g g' : Grammar) (m m' : Names) : Prop where
  rows : ∀ i j, Corr g g' i j → m'.get (j : Int) = m.get (i : Int)
  neg : ∀ n : Int, n < 0 → m'.get n = m.get n

theorem shift_nothing (p q : Nat) : Node.shift p (nothingNode q) = nothingNode (p + q) := by
  simp [nothingNode, Node.shift, Node.shiftAll]

theorem shift_literal (p q : Nat) (t : Str) : Node.shift p (literalNode t q) = literalNode t (p + q) := by
  unfold literalNode
  split <;> simp [Node.shift, Node.shiftAll, shift_nothing, Nat.add_assoc]

theorem named_nothing {m m' : Names} (h : NamesOk g g' m m') (q : Nat) :
    (nothingNode q).named m' = (nothingNode q).named m := by
  simp [nothingNode, Node.named, Node.namedAll, h.neg (-2) (by omega)]

theorem named_literal {m m' : Names} (h : NamesOk g g' m m') (t : Str) (q : Nat) :
    (literalNode t q).named m' = (literalNode t q).named m := by
  unfold literalNode
  split <;> simp [Node.named, Node.namedAll, h.neg (-1) (by omega), named_nothing h]

/-- The same tree in the other grammar. -/
theorem dtrees {m m' : Names} (hp : g'.rules.Perm g.rules) (hd' : DistinctHeads g') (hm : NamesOk g g' m m')
    {ys : List Symbol} {ts : List DTree} (h : DTrees g ys ts) :
    ∃ ts', DTrees g' ys ts' ∧ DTree.yields ts' = DTree.yields ts ∧ ∀ p q,
      Node.namedAll m' (Node.shiftAll p (DTree.toNodes q ts')) = Node.namedAll m (DTree.toNodes (p + q) ts) := by
  induction h with
  | nil => exact ⟨[], .nil, rfl, fun p q => rfl⟩
  | @terminal t rest ts _ ih =>
    obtain ⟨ts', h1, h2, h3⟩ := ih
    refine ⟨_, .terminal h1, by simp [DTree.yields, h2], fun p q => ?_⟩
    simp only [DTree.toNodes, DTree.toNode, Node.shiftAll, Node.namedAll, shift_literal, named_literal hm, DTree.yield, h3,
      Nat.add_assoc]
  | nothing _ ih =>
    obtain ⟨ts', h1, h2, h3⟩ := ih
    refine ⟨_, .nothing h1, by simp [DTree.yields, h2], fun p q => ?_⟩
    simp only [DTree.toNodes, DTree.toNode, Node.shiftAll, Node.namedAll, shift_nothing, named_nothing hm, DTree.yield, h3,
      Nat.add_assoc]
  | @nonTerminal name i k r alt rest cs ts hr hi hk _ _ ih1 ih2 =>
    obtain ⟨cs', c1, c2, c3⟩ := ih1
    obtain ⟨ts', h1, h2, h3⟩ := ih2
    obtain ⟨j, hj⟩ := corr_of hp hi
    obtain ⟨r', e1, e2⟩ := id hj
    rw [hi] at e1
    cases e1
    refine ⟨_, .nonTerminal (hj.refers hd' hr) e2 hk c1 h1, by simp [DTree.yields, DTree.yield, h2, c2], fun p q => ?_⟩
    simp only [DTree.toNodes, DTree.toNode, Node.shiftAll, Node.namedAll, Node.shift, Node.named, DTree.yield, h3, c2,
      Nat.add_assoc, hm.rows i j hj]
    split
    · simp only [Node.shiftAll, Node.namedAll, shift_nothing, named_nothing hm]
    · rw [c3]

theorem preorder_node (i : Int) (s e : Nat) (cs : List Node) :
    preorder (.mk i s e cs) = .mk i s e cs :: (cs.map preorder).flatten := by simp [preorder]

/-- The nodes of the picture of a derivation tree are pictures of derivation trees. -/
theorem subtrees {ys : List Symbol} {ts : List DTree} (h : DTrees g ys ts) (text : Str) :
    ∀ p v, text.drop p = DTree.yields ts ++ v → ∀ n ∈ ((DTree.toNodes p ts).map preorder).flatten, 0 ≤ n.type →
      ∃ i k r alt cs, g.rules[i]? = some r ∧ r.tail.sequences[k]? = some alt ∧ DTrees g alt.symbols cs ∧
        n = (DTree.node i k cs).toNode n.pos ∧ slice text n.pos n.stop = DTree.yields cs := by
  induction h with
  | nil => intro p v _ n hn; simp [DTree.toNodes] at hn
  | @terminal t rest ts _ ih =>
    intro p v hv n hn h0
    simp only [DTree.toNodes, DTree.toNode, List.map_cons, List.flatten_cons, List.mem_append] at hn
    rcases hn with hn | hn
    · exfalso
      unfold literalNode at hn
      rw [preorder_node] at hn
      rcases List.mem_cons.1 hn with rfl | hn
      · simp [Node.type] at h0
      · split at hn
        · simp only [nothingNode, List.map_cons, List.map_nil, List.flatten_cons, List.flatten_nil, List.append_nil,
            preorder_node, List.mem_cons, List.not_mem_nil, or_false] at hn
          subst hn
          simp [Node.type] at h0
        · simp at hn
    · refine ih (p + t.length) v ?_ n (by simpa [DTree.yield] using hn) h0
      simp only [DTree.yields, DTree.yield, List.append_assoc] at hv
      rw [← List.drop_drop, hv]
      simp
  | nothing _ ih =>
    intro p v hv n hn h0
    simp only [DTree.toNodes, DTree.toNode, List.map_cons, List.flatten_cons, List.mem_append] at hn
    rcases hn with hn | hn
    · exfalso
      simp only [nothingNode, List.map_nil, List.flatten_nil, preorder_node, List.mem_cons, List.not_mem_nil, or_false] at hn
      subst hn
      simp [Node.type] at h0
    · exact ih p v (by simpa [DTree.yields, DTree.yield] using hv) n (by simpa [DTree.yield] using hn) h0
  | @nonTerminal name i k r alt rest cs ts hr hi hk hc _ ih1 ih2 =>
    intro p v hv n hn h0
    simp only [DTree.toNodes, List.map_cons, List.flatten_cons, List.mem_append] at hn
    simp only [DTree.yields, DTree.yield, List.append_assoc] at hv
    rcases hn with hn | hn
    · simp only [DTree.toNode, preorder_node] at hn
      rcases List.mem_cons.1 hn with rfl | hn
      · refine ⟨i, k, r, alt, cs, hi, hk, hc, by simp [DTree.toNode, Node.pos], ?_⟩
        simp only [slice, Node.pos, Node.stop, hv]
        rw [show p + (DTree.yields cs).length - p = (DTree.yields cs).length by omega]
        simp
      · split at hn
        · exfalso
          simp only [nothingNode, List.map_cons, List.map_nil, List.flatten_cons, List.flatten_nil, List.append_nil,
            preorder_node, List.mem_cons, List.not_mem_nil, or_false] at hn
          subst hn
          simp [Node.type] at h0
        · exact ih1 p _ hv n hn h0
    · refine ih2 (p + (DTree.yields cs).length) v ?_ n (by simpa [DTree.yield] using hn) h0
      rw [← List.drop_drop, hv]
      simp

end Restart
end LL1
