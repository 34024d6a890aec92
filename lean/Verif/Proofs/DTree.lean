import Verif.Spec.DTree
import Verif.Proofs.Language

/-!
# Derivation trees: uniqueness for LL(1) grammars, and the tree the parser builds
-/

namespace LL1

variable {g : Grammar}

theorem DTrees.gen {ys : List Symbol} {ts : List DTree} (h : DTrees g ys ts) : Gen g ys (DTree.yields ts) := by
  induction h with
  | nil => exact .nil
  | terminal _ ih => simp only [DTree.yields, DTree.yield]; exact .terminal ih
  | nothing _ ih => simp only [DTree.yields, DTree.yield, List.nil_append]; exact .nothing ih
  | nonTerminal hr hi hk _ _ ih1 ih2 =>
    simp only [DTree.yields, DTree.yield]
    exact .nonTerminal hr ⟨_, hi, List.mem_of_getElem? hk⟩ ih1 ih2

theorem dtrees_of_gen {ys : List Symbol} {w : Str} (h : Gen g ys w) : ∃ ts, DTrees g ys ts ∧ DTree.yields ts = w := by
  induction h with
  | nil => exact ⟨[], .nil, rfl⟩
  | terminal _ ih =>
    obtain ⟨ts, h, rfl⟩ := ih
    exact ⟨_, .terminal h, by simp only [DTree.yields, DTree.yield]⟩
  | nothing _ ih =>
    obtain ⟨ts, h, rfl⟩ := ih
    exact ⟨_, .nothing h, by simp only [DTree.yields, DTree.yield, List.nil_append]⟩
  | nonTerminal hr ha _ _ ih1 ih2 =>
    obtain ⟨cs, h1, rfl⟩ := ih1
    obtain ⟨ts, h2, rfl⟩ := ih2
    obtain ⟨r, hi, hm⟩ := ha
    obtain ⟨k, hk⟩ := List.getElem?_of_mem hm
    exact ⟨_, .nonTerminal hr hi hk h1 h2, by simp only [DTree.yields, DTree.yield]⟩

/-- The byte after a symbol is in its FOLLOW set. -/
theorem Ctx.next {name : Str} {rest : List Symbol} {i : Nat} {w z : Str}
    (hc : Ctx g (.nonTerminal name :: rest) (z.headD 0)) (hr : g.Refers name i) (hw : Gen g rest w) :
    Follow g i ((w ++ z).headD 0) := by
  refine hc [] name rest i _ rfl hr ?_
  cases w with
  | nil => exact .inr ⟨nullable_iff_gen.2 hw, rfl⟩
  | cons b w => exact .inl (first_of_gen hw)

/-- Two alternatives of one rule deriving texts at the same place are the same alternative. -/
theorem alt_unique (hll : IsLL1 g) {i : Nat} {r : Rule} (hi : g.rules[i]? = some r) {k k' : Nat} {a a' : Sequence}
    (hk : r.tail.sequences[k]? = some a) (hk' : r.tail.sequences[k']? = some a') {u u' z z' : Str}
    (hu : Gen g a.symbols u) (hu' : Gen g a'.symbols u') (he : u ++ z = u' ++ z')
    (hz : Follow g i (z.headD 0)) (hz' : Follow g i (z'.headD 0)) : k = k' := by
  have ha : g.Alt i a := ⟨r, hi, List.mem_of_getElem? hk⟩
  have ha' : g.Alt i a' := ⟨r, hi, List.mem_of_getElem? hk'⟩
  cases u with
  | nil =>
    cases u' with
    | nil => exact hll.2.1 i r k k' a a' hi hk hk' (nullable_iff_gen.2 hu) (nullable_iff_gen.2 hu')
    | cons b u' =>
      simp only [List.nil_append, List.cons_append] at he
      subst he
      exact (hll.2.2 i b ⟨a, ha, nullable_iff_gen.2 hu⟩ ⟨a', ha', first_of_gen hu'⟩ hz).elim
  | cons b u =>
    cases u' with
    | nil =>
      simp only [List.nil_append, List.cons_append] at he
      subst he
      exact (hll.2.2 i b ⟨a', ha', nullable_iff_gen.2 hu'⟩ ⟨a, ha, first_of_gen hu⟩ hz').elim
    | cons c u' =>
      simp only [List.cons_append, List.cons.injEq] at he
      obtain ⟨rfl, _⟩ := he
      exact hll.1 i r k k' a a' b hi hk hk' (first_of_gen hu) (first_of_gen hu')

theorem DTrees.unique (hll : IsLL1 g) {ys : List Symbol} {ts : List DTree} (h : DTrees g ys ts) :
    ∀ {ts' : List DTree} {z z' : Str}, DTrees g ys ts' → DTree.yields ts ++ z = DTree.yields ts' ++ z' →
      Ctx g ys (z.headD 0) → Ctx g ys (z'.headD 0) → ts = ts' ∧ z = z' := by
  induction h with
  | nil =>
    intro ts' z z' h' he _ _
    cases h'
    exact ⟨rfl, by simpa [DTree.yields] using he⟩
  | terminal _ ih =>
    intro ts' z z' h' he hc hc'
    cases h' with
    | terminal h' =>
      simp only [DTree.yields, DTree.yield, List.append_assoc, List.append_cancel_left_eq] at he
      obtain ⟨rfl, hz⟩ := ih h' he hc.tail hc'.tail
      exact ⟨rfl, hz⟩
  | nothing _ ih =>
    intro ts' z z' h' he hc hc'
    cases h' with
    | nothing h' =>
      simp only [DTree.yields, DTree.yield, List.nil_append] at he
      obtain ⟨rfl, hz⟩ := ih h' he hc.tail hc'.tail
      exact ⟨rfl, hz⟩
  | @nonTerminal name i k r alt rest cs ts hr hi hk h1 h2 ih1 ih2 =>
    intro ts' z z' h' he hc hc'
    cases h' with
    | @nonTerminal _ i' k' r' alt' _ cs' ts' hr' hi' hk' h1' h2' =>
      cases hr.det hr'
      rw [hi] at hi'
      cases hi'
      simp only [DTree.yields, DTree.yield, List.append_assoc] at he
      have f1 := hc.next hr h2.gen
      have f2 := hc'.next hr h2'.gen
      cases alt_unique hll hi hk hk' h1.gen h1'.gen he f1 f2
      rw [hk] at hk'
      cases hk'
      have ha : g.Alt i alt := ⟨r, hi, List.mem_of_getElem? hk⟩
      obtain ⟨rfl, he2⟩ := ih1 h1' he (.alt ha f1) (.alt ha f2)
      obtain ⟨rfl, hz⟩ := ih2 h2' he2 hc.tail hc'.tail
      exact ⟨rfl, hz⟩

/-! ## The parser's tree -/

theorem toNodes_ne {cs : List DTree} {pos : Nat} (h : DTree.yields cs ≠ []) : DTree.toNodes pos cs ≠ [] := by
  cases cs with
  | nil => exact (h rfl).elim
  | cons c cs => simp [DTree.toNodes]

/-- Expanding one rule. -/
theorem rule_tree {tbl : Table} (h : TG.TableOk g tbl) (hll : IsLL1 g) (hcov : Covered g tbl) {i : Nat}
    {alt : Sequence} (ha : g.Alt i alt) {cs : List DTree} (hu : DTrees g alt.symbols cs) (p s : Str)
    (hfol : Follow g i (byteAt (p ++ (DTree.yields cs ++ s)) (p.length + (DTree.yields cs).length)))
    (ih : ∀ ops, AllPairs (OpOf g) alt.symbols ops →
      Derives tbl (p ++ (DTree.yields cs ++ s)) ops p.length (p.length + (DTree.yields cs).length)
        (DTree.toNodes p.length cs)) :
    ∃ body ds, bodyFor tbl i (byteAt (p ++ (DTree.yields cs ++ s)) p.length) = some body ∧
      Derives tbl (p ++ (DTree.yields cs ++ s)) body p.length (p.length + (DTree.yields cs).length) ds ∧
      (if body = [] then [nothingNode p.length] else ds) =
        (if DTree.yields cs = [] then [nothingNode p.length] else DTree.toNodes p.length cs) := by
  have hu := hu.gen
  generalize hw : DTree.yields cs = u at *
  cases hb : bodyFor tbl i (byteAt (p ++ (u ++ s)) p.length) with
  | none =>
    cases u with
    | nil => exact (hcov.body ⟨alt, ha, nullable_iff_gen.2 hu⟩ hfol hb).elim
    | cons b u =>
      rw [List.cons_append, byteAt_append_cons] at hb
      obtain ⟨r, hr, _⟩ := id ha
      exact ((h.cell hr b).1.1 hb (.inl ⟨alt, ha, first_of_gen hu⟩)).elim
  | some body =>
    refine ⟨body, ?_⟩
    rcases cell_alt h hll.1 ha.lt hb with ⟨hnf, _, rfl⟩ | ⟨alt', ha', hf', hp⟩
    · cases u with
      | nil => exact ⟨[], rfl, .nil _, rfl⟩
      | cons b u =>
        rw [List.cons_append, byteAt_append_cons] at hnf
        exact (hnf ⟨alt, ha, first_of_gen hu⟩).elim
    · cases u with
      | nil => exact (hll.2.2 i _ ⟨alt, ha, nullable_iff_gen.2 hu⟩ ⟨alt', ha', hf'⟩ hfol).elim
      | cons b u =>
        have : byteAt (p ++ (b :: u ++ s)) p.length = b := by
          rw [List.cons_append, byteAt_append_cons]
        rw [this] at hf'
        cases firstDisjoint_alt hll.1 ha' ha hf' (first_of_gen hu)
        have hD := ih body hp
        refine ⟨_, rfl, hD, ?_⟩
        have hbody : body ≠ [] := by
          rintro rfl
          have := hD.nil_inv
          simp at this
        rw [if_neg hbody, if_neg (by simp)]

theorem derives_of_dtrees {tbl : Table} (h : TG.TableOk g tbl) (hll : IsLL1 g)
    (hcov : Covered g tbl) {syms : List Symbol} {ts : List DTree} (hG : DTrees g syms ts) :
    ∀ (p s : Str) (ops : List ParserOp), AllPairs (OpOf g) syms ops →
      Ctx g syms (byteAt (p ++ (DTree.yields ts ++ s)) (p.length + (DTree.yields ts).length)) →
      Derives tbl (p ++ (DTree.yields ts ++ s)) ops p.length (p.length + (DTree.yields ts).length)
        (DTree.toNodes p.length ts) := by
  induction hG with
  | nil =>
    intro p s ops ho _
    cases ho
    exact .nil _
  | @terminal t rest ts _ ih =>
    intro p s ops ho hc
    cases ho with
    | @cons _ op _ ops hx ho =>
      cases (hx : _ = _)
      simp only [DTree.yields, DTree.yield, DTree.toNodes, DTree.toNode] at hc ⊢
      generalize DTree.yields ts = w at *
      have e1 : p ++ (t ++ w ++ s) = (p ++ t) ++ (w ++ s) := by simp
      have e2 : p.length + (t ++ w).length = (p ++ t).length + w.length := by simp; omega
      rw [e1, e2] at hc
      have hD := ih (p ++ t) s ops ho hc.tail
      rw [e1, e2]
      refine .lit ?_ (by rw [List.length_append] at hD ⊢; exact hD)
      rw [List.append_assoc]; exact litAt_append p t (w ++ s)
  | nothing _ _ =>
    intro p s ops ho _
    cases ho with
    | cons hx _ => exact (hx : False).elim
  | @nonTerminal name i k r alt rest cs ts hr hi hk hu hw ih1 ih2 =>
    intro p s ops ho hc
    have ha : g.Alt i alt := ⟨r, hi, List.mem_of_getElem? hk⟩
    cases ho with
    | @cons _ op _ ops hx ho =>
      obtain ⟨i', hr', h'⟩ := hx
      cases h'
      have : i' = i := hr'.det hr
      subst this
      simp only [DTree.yields, DTree.yield, DTree.toNodes, DTree.toNode] at hc ⊢
      have hwg := hw.gen
      have e1 : ∀ u w : Str, p ++ (u ++ w ++ s) = (p ++ u) ++ (w ++ s) := by simp
      have e1' : ∀ u w : Str, p ++ (u ++ w ++ s) = p ++ (u ++ (w ++ s)) := by simp
      have e2 : ∀ u w : Str, p.length + (u ++ w).length = (p ++ u).length + w.length := by intro u w; simp; omega
      have hfol : Follow g i' (byteAt (p ++ (DTree.yields cs ++ (DTree.yields ts ++ s)))
          (p.length + (DTree.yields cs).length)) := by
        rw [← e1']
        refine hc [] name rest i' _ rfl hr ?_
        cases hwe : DTree.yields ts with
        | nil => right; rw [hwe] at hwg; exact ⟨nullable_iff_gen.2 hwg, by simp⟩
        | cons b w =>
          left
          have : byteAt (p ++ (DTree.yields cs ++ (b :: w) ++ s)) (p.length + (DTree.yields cs).length) = b := by
            rw [show p ++ (DTree.yields cs ++ (b :: w) ++ s) = (p ++ DTree.yields cs) ++ b :: (w ++ s) by simp,
              ← List.length_append]
            exact byteAt_append_cons _ _ _
          rw [this]
          rw [hwe] at hwg
          exact first_of_gen hwg
      rw [e2, e1] at hc
      have hD2 := ih2 (p ++ DTree.yields cs) s ops ho hc.tail
      obtain ⟨body, ds, hb, hD1, heq⟩ := rule_tree h hll hcov ha hu p (DTree.yields ts ++ s) hfol
        (fun ops ho => ih1 p (DTree.yields ts ++ s) ops ho (Ctx.alt ha hfol))
      rw [← e1, List.length_append] at hD2
      rw [← e1'] at hb hD1
      rw [e2, List.length_append, ← heq]
      exact .nt hb hD1 hD2

/-- The parser's derivation for a derivation tree of the start rule. -/
theorem derives_of_dtree {tbl : Table} (h : TG.TableOk g tbl) (hll : IsLL1 g)
    (hcov : Covered g tbl) {w : Str} {t : DTree} (hG : IsDTree g 0 w t) :
    Derives tbl w [.nonTerminal 0] 0 w.length [t.toNode 0] := by
  obtain ⟨r, k, alt, cs, hi, hk, hu, rfl, rfl⟩ := hG
  have ha : g.Alt 0 alt := ⟨r, hi, List.mem_of_getElem? hk⟩
  simp only [DTree.yield, DTree.toNode]
  have h0 : byteAt (DTree.yields cs) (DTree.yields cs).length = 0 := by simp [byteAt]
  have hfol : Follow g 0 (byteAt ([] ++ (DTree.yields cs ++ [])) (([] : Str).length + (DTree.yields cs).length)) := by
    simp only [List.nil_append, List.append_nil, List.length_nil, Nat.zero_add, h0]
    exact .start
  obtain ⟨body, ds, hb, hD, heq⟩ := rule_tree h hll hcov ha hu [] [] hfol
    (fun ops ho => derives_of_dtrees h hll hcov hu [] [] ops ho (Ctx.alt ha hfol))
  simp only [List.nil_append, List.append_nil, List.length_nil, Nat.zero_add] at hb hD heq
  rw [← heq, Nat.zero_add]
  exact .nt hb hD (.nil _)

end LL1
