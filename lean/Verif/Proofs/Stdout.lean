import Verif.Model.Stdout
import Verif.Proofs.TableTop

/-! # What `FromGrammar` prints -/

namespace LL1
namespace TG

theorem Out.bind_snd {α β : Type} (x : Out α) (f : α → Out β) : (x.bind f).2 = (x.2 >>= fun a => (f a).2) := by
  obtain ⟨o, r⟩ := x
  cases r <;> rfl

theorem Out.quiet_snd {α : Type} (r : R α) : (Out.quiet r).2 = r := rfl

theorem addEmptyCellsOut_snd (bs : List UInt8) (res : Row) : (addEmptyCellsOut bs res).2 = addEmptyCells bs res := by
  induction bs generalizing res with
  | nil => rfl
  | cons b bs ih =>
    unfold addEmptyCellsOut addEmptyCells
    cases GoMap.get res b with
    | some v => rfl
    | none => exact ih _

theorem addSequenceOut_snd (tg : Gen) (firsts follows : List ByteSet) (i : Nat) (s : Sequence) (res : Row) :
    (addSequenceOut tg firsts follows i s res).2 = addSequence tg firsts follows i s res := by
  unfold addSequenceOut addSequence
  rw [Out.bind_snd, Out.quiet_snd]
  congr 1
  funext S
  by_cases h : S.contains EOS = true
  · simp only [h, if_true, Out.bind_snd, Out.quiet_snd, addEmptyCellsOut_snd]
  · simp only [h, if_false, Out.bind_snd, Out.quiet_snd, Bool.false_eq_true]

theorem addSequencesOut_snd (tg : Gen) (firsts follows : List ByteSet) (i : Nat) (ss : List Sequence) (res : Row) :
    (addSequencesOut tg firsts follows i ss res).2 = addSequences tg firsts follows i ss res := by
  induction ss generalizing res with
  | nil => rfl
  | cons s ss ih =>
    unfold addSequencesOut addSequences
    rw [Out.bind_snd, addSequenceOut_snd]
    congr 1
    funext r
    exact ih r

theorem makeTableRowOut_snd (tg : Gen) (firsts follows : List ByteSet) (i : Nat) :
    (makeTableRowOut tg firsts follows i).2 = makeTableRow tg firsts follows i := by
  unfold makeTableRowOut makeTableRow
  simp only [Out.bind_snd, Out.quiet_snd, addSequencesOut_snd]

theorem makeRowsOut_snd (tg : Gen) (firsts follows : List ByteSet) (is : List Nat) (t : Table) :
    (makeRowsOut tg firsts follows is t).2 = forEach (fun ruleIndex (table : Table) => do
      let row ← makeTableRow tg firsts follows ruleIndex
      return table.set (ruleIndex : Int) row) is t := by
  induction is generalizing t with
  | nil => rfl
  | cons i is ih =>
    unfold makeRowsOut forEach
    rw [Out.bind_snd, makeTableRowOut_snd]
    cases makeTableRow tg firsts follows i with
    | ok row => exact ih _
    | err e => rfl
    | panic p => rfl
    | diverge => rfl

/-- The results are those of the model without output. -/
theorem fromGrammarOut_snd (order : List (Str × Nat) → List (Str × Nat)) (g : Grammar) :
    (fromGrammarOut order g).2 = fromGrammar order g := by
  unfold fromGrammarOut fromGrammar runOut run makeTableOut makeTable
  simp only [Out.bind_snd, Out.quiet_snd, makeRowsOut_snd]
  rfl

/-! ## The output -/

/-- Nothing printed and no conflict reported, or a conflict reported and one line printed, with a cell as in `D`. -/
def Good {α : Type} (D : List ParserOp → Prop) (x : Out α) : Prop :=
  (x.1 = [] ∧ x.2 ≠ .err .conflict) ∨ (x.2 = .err .conflict ∧ ∃ ops, D ops ∧ x.1 = println ops)

theorem Good.quiet {α : Type} {D : List ParserOp → Prop} {r : R α} (h : r ≠ .err .conflict) : Good D (Out.quiet r) :=
  .inl ⟨rfl, h⟩

theorem Good.bind {α β : Type} {D : List ParserOp → Prop} {x : Out α} {f : α → Out β} (h : Good D x)
    (hf : ∀ a, x.2 = .ok a → Good D (f a)) : Good D (x.bind f) := by
  obtain ⟨o, r⟩ := x
  rcases h with ⟨ho, hr⟩ | ⟨hr, hd⟩
  · simp only at ho hr
    subst ho
    cases r with
    | ok a =>
      have := hf a rfl
      unfold Good Out.bind at *
      simpa using this
    | err e => exact .inl ⟨rfl, fun h => hr (by cases h; rfl)⟩
    | panic p => exact .inl ⟨rfl, fun h => by cases h⟩
    | diverge => exact .inl ⟨rfl, fun h => by cases h⟩
  · simp only at hr
    subst hr
    exact .inr ⟨rfl, hd⟩

theorem Good.imp {α : Type} {D D' : List ParserOp → Prop} {x : Out α} (h : Good D x) (hd : ∀ ops, D ops → D' ops) :
    Good D' x := by
  rcases h with h | ⟨h, ops, ho, hp⟩
  · exact .inl h
  · exact .inr ⟨h, ops, hd _ ho, hp⟩

theorem good_addEmptyCells (bs : List UInt8) (res : Row) (hnd : bs.Nodup) :
    Good (fun ops => ∃ l₁ b l₂, bs = l₁ ++ b :: l₂ ∧ (∀ x ∈ l₁, GoMap.get res x = none) ∧ GoMap.get res b = some ops)
      (addEmptyCellsOut bs res) := by
  induction bs generalizing res with
  | nil => exact Good.quiet (by simp)
  | cons t bs ih =>
    rw [List.nodup_cons] at hnd
    unfold addEmptyCellsOut
    cases hg : GoMap.get res t with
    | some v => exact .inr ⟨rfl, v, ⟨[], t, bs, rfl, by simp, hg⟩, rfl⟩
    | none =>
      refine (ih (GoMap.set res t []) hnd.2).imp ?_
      rintro ops ⟨l₁, b, l₂, hbs, hn, hb⟩
      have hset : ∀ x, x ∈ bs → GoMap.get (GoMap.set res t ([] : List ParserOp)) x = GoMap.get res x := by
        intro x hx
        rw [GoMap.get_set, if_neg]
        rintro rfl; exact hnd.1 hx
      refine ⟨t :: l₁, b, l₂, by rw [hbs]; rfl, ?_, ?_⟩
      · intro x hx
        rcases List.mem_cons.1 hx with rfl | hx
        · exact hg
        · rw [← hset x (by rw [hbs]; exact List.mem_append_left _ hx)]; exact hn x hx
      · rw [← hset b (by rw [hbs]; simp)]; exact hb

theorem sequenceFirsts_ne_conflict (tg : Gen) (firsts : List ByteSet) (s : Sequence) :
    sequenceFirsts tg firsts s ≠ .err .conflict := by
  have hSne : ∀ syms res fl n, sequenceFirstsLoop tg firsts n syms res fl ≠ .err .conflict := by
    intro syms
    induction syms with
    | nil => intros; simp [sequenceFirstsLoop]
    | cons x rest ih =>
      intro res fl n
      cases x with
      | terminal t => cases t <;> simp [sequenceFirstsLoop, terminalFirsts]
      | nothing => simp only [sequenceFirstsLoop]; split <;> simp
      | nonTerminal name =>
        simp only [sequenceFirstsLoop]
        split
        · simp
        · rw [ne_eq, Res.bind_eq_err]
          rintro (h | ⟨a, _, h⟩)
          · unfold idx at h; split at h <;> simp at h
          · split at h
            · simp at h
            · exact ih _ _ _ h
  exact hSne _ _ _ _

theorem idx_ne_conflict {α : Type} (xs : List α) (i : Nat) : idx xs i ≠ .err .conflict := by
  intro h; unfold idx at h; split at h <;> simp at h

theorem bytesOf_ne_conflict (s : ByteSet) : bytesOf s ≠ .err .conflict := by
  rw [bytesOf_ok]; simp

/-- What is printed while the alternative `alt` is added to the row built from `done`. -/
def PrintsAt (g : Grammar) (i : Nat) (done : List Sequence) (alt : Sequence) (ops : List ParserOp) : Prop :=
  RNullable g alt.symbols ∧ ∃ b, RNextFollow g i b ∧ RSelects g i done b ∧ RPredicted g b done ops ∧
    ∀ b', b' < b → RNextFollow g i b' → ¬ RSelects g i done b'

theorem good_addSequence {g : Grammar} {firsts follows : List ByteSet}
    (hx : FExact g firsts) (hl : LExact g follows) {i : Nat} {done : List Sequence} {alt : Sequence}
    (ha : g.Alt i alt) {row : Row} (hspec : RRowSpec g i done row) :
    Good (PrintsAt g i done alt) (addSequenceOut (newGen g) firsts follows i alt row) := by
  have hi := ha.lt
  obtain ⟨F, _, hF⟩ := idx_lt (xs := follows) (i := i) (by rw [hl.len]; exact hi)
  have hFb : ∀ b, F.contains b = true ↔ RNextFollow g i b := by
    intro b
    rw [← hl.follow i b hi]
    simp [Has, hF]
  unfold addSequenceOut
  refine Good.bind (Good.quiet (sequenceFirsts_ne_conflict _ _ _)) fun S hS => ?_
  rw [Out.quiet_snd] at hS
  obtain ⟨hS1, hS0⟩ := altFirsts hx ha hS
  by_cases h0 : S.contains EOS = true
  · rw [if_pos h0]
    refine Good.bind (Good.quiet (idx_ne_conflict _ _)) fun F' hF' => ?_
    rw [Out.quiet_snd, idx_ok.2 hF] at hF'
    cases hF'
    refine Good.bind (Good.quiet (bytesOf_ne_conflict _)) fun bs hbs => ?_
    rw [Out.quiet_snd, bytesOf_ok] at hbs
    cases hbs
    refine Good.bind ((good_addEmptyCells _ row (nodup_bytesOf F)).imp ?_) fun row' _ =>
      Good.bind (Good.quiet (bytesOf_ne_conflict _)) fun bs _ => Good.quiet (addFirstCells_ne _ _).2.1
    rintro ops ⟨l₁, b, l₂, hbs, hn, hb⟩
    have hbm : b ∈ ByteSet.allBytes.filter F.contains := by rw [hbs]; simp
    obtain ⟨hsel, hpred⟩ := (hspec b).2 ops hb
    refine ⟨hS0.1 h0, b, (hFb b).1 ((mem_bytesOf _ _).1 hbm), hsel, hpred, ?_⟩
    intro b' hlt hfol
    have hm : b' ∈ ByteSet.allBytes.filter F.contains := (mem_bytesOf _ _).2 ((hFb b').2 hfol)
    have hsort : (ByteSet.allBytes.filter F.contains).Pairwise (· < ·) := ByteSet.allBytes_sorted.filter _
    rw [hbs] at hm hsort
    have hl1 : b' ∈ l₁ := by
      rcases List.mem_append.1 hm with h | h
      · exact h
      · exfalso
        rcases List.mem_cons.1 h with rfl | h
        · exact absurd hlt (UInt8.lt_irrefl _)
        · have := (List.pairwise_cons.1 (List.pairwise_append.1 hsort).2.1).1 b' h
          exact UInt8.lt_asymm hlt this
    exact (hspec b').1 (hn b' hl1)
  · rw [if_neg h0]
    exact Good.bind (Good.quiet (bytesOf_ne_conflict _)) fun bs _ => Good.quiet (addFirstCells_ne _ _).2.1

/-- What is printed for the row of rule `i`: the first alternative that clashes. -/
def PrintsRow (g : Grammar) (i : Nat) (done ss : List Sequence) (ops : List ParserOp) : Prop :=
  ∃ pre alt post, ss = pre ++ alt :: post ∧ PrintsAt g i (done ++ pre) alt ops ∧
    ∀ pre' alt' post', pre = pre' ++ alt' :: post' → RNullable g alt'.symbols →
      ∀ b, RNextFollow g i b → ¬ RSelects g i (done ++ pre') b

theorem good_addSequences {g : Grammar} {firsts follows : List ByteSet}
    (hx : FExact g firsts) (hl : LExact g follows) {i : Nat} :
    ∀ (ss done : List Sequence) (row : Row), (∀ alt ∈ ss, g.Alt i alt) → RRowSpec g i done row →
    Good (PrintsRow g i done ss) (addSequencesOut (newGen g) firsts follows i ss row) := by
  intro ss
  induction ss with
  | nil => intro done row _ _; exact Good.quiet (by simp)
  | cons s ss ih =>
    intro done row ha hs
    unfold addSequencesOut
    refine Good.bind ((good_addSequence hx hl (ha s (by simp)) hs).imp ?_) fun row' hr => ?_
    · intro ops h
      refine ⟨[], s, ss, rfl, by simpa using h, ?_⟩
      intro pre' alt' post' hp; simp at hp
    · rw [addSequenceOut_snd] at hr
      obtain ⟨h1, _, h3⟩ := addSequence_ok hx hl (ha s (by simp)) hs hr
      refine (ih (done ++ [s]) row' (fun a ha' => ha a (List.mem_cons_of_mem _ ha')) h1).imp ?_
      rintro ops ⟨pre, alt, post, hp, hat, hmin⟩
      refine ⟨s :: pre, alt, post, by rw [hp]; rfl, by simpa using hat, ?_⟩
      intro pre' alt' post' hpre hn b hb
      cases pre' with
      | nil =>
        simp only [List.nil_append, List.cons.injEq] at hpre
        rw [List.append_nil]
        rw [← hpre.1] at hn
        exact h3 hn b hb
      | cons x pre' =>
        simp only [List.cons_append, List.cons.injEq] at hpre
        obtain ⟨rfl, hpre⟩ := hpre
        have := hmin pre' alt' post' hpre hn b hb
        simpa using this

/-- What is printed at all. -/
def PrintsCell (g : Grammar) (ops : List ParserOp) : Prop :=
  ∃ i r, g.rules[i]? = some r ∧ PrintsRow g i [] r.tail.sequences ops ∧ ∀ j, j < i → ¬ RClash g j

theorem good_makeRows {g : Grammar} {firsts follows : List ByteSet}
    (hx : FExact g firsts) (hl : LExact g follows) (n k : Nat) (t : Table) (hk : ∀ j, j < k → ¬ RClash g j) :
    Good (PrintsCell g) (makeRowsOut (newGen g) firsts follows (List.range' k n) t) := by
  induction n generalizing k t with
  | zero => exact Good.quiet (by simp)
  | succ n ih =>
    rw [List.range'_succ]
    unfold makeRowsOut
    refine Good.bind ?_ fun row hr => ?_
    · unfold makeTableRowOut
      refine Good.bind (Good.quiet (idx_ne_conflict _ _)) fun r hr => ?_
      rw [Out.quiet_snd, idx_ok] at hr
      refine (good_addSequences hx hl _ [] [] (fun a ha => ⟨r, hr, ha⟩) (rowSpec_nil g k)).imp ?_
      exact fun ops ho => ⟨k, r, hr, ho, hk⟩
    · rw [makeTableRowOut_snd] at hr
      have hok := makeTableRow_ok hx hl hr
      refine ih (k + 1) _ ?_
      intro j hj
      by_cases hjk : j = k
      · subst hjk; exact hok.noClash
      · exact hk j (by omega)

theorem good_fromGrammar (order : List (Str × Nat) → List (Str × Nat)) (g : Grammar) :
    Good (PrintsCell g) (fromGrammarOut order g) := by
  unfold fromGrammarOut runOut
  refine Good.bind ?_ fun t _ => Good.quiet (by simp)
  refine Good.bind (Good.quiet ((fixpoints_ne_conflict g).1 _)) fun firsts h1 => ?_
  refine Good.bind (Good.quiet ((fixpoints_ne_conflict g).2 _ _)) fun follows h2 => ?_
  rw [Out.quiet_snd] at h1 h2
  have hx := findFirsts_ok h1
  have hl := findFollows_ok hx h2
  unfold makeTableOut
  rw [List.range_eq_range']
  exact good_makeRows hx hl _ 0 [] (fun j hj => by omega)

/-- Without any assumption on the grammar. -/
theorem good_any (order : List (Str × Nat) → List (Str × Nat)) (g : Grammar) :
    Good (fun _ => True) (fromGrammarOut order g) := by
  have hcells : ∀ (bs : List UInt8) (res : Row), Good (fun _ => True) (addEmptyCellsOut bs res) := by
    intro bs
    induction bs with
    | nil => intro res; exact Good.quiet (by simp)
    | cons b bs ih =>
      intro res
      unfold addEmptyCellsOut
      cases GoMap.get res b with
      | some v => exact .inr ⟨rfl, v, trivial, rfl⟩
      | none => exact ih _
  have hrow : ∀ firsts follows i ss row,
      Good (fun _ => True) (addSequencesOut (newGen g) firsts follows i ss row) := by
    intro firsts follows i ss
    induction ss with
    | nil => intro row; exact Good.quiet (by simp)
    | cons s ss ih =>
      intro row
      unfold addSequencesOut
      refine Good.bind ?_ fun row' _ => ih row'
      unfold addSequenceOut
      refine Good.bind (Good.quiet (sequenceFirsts_ne_conflict _ _ _)) fun S _ => ?_
      split
      · refine Good.bind (Good.quiet (idx_ne_conflict _ _)) fun F _ => ?_
        refine Good.bind (Good.quiet (bytesOf_ne_conflict _)) fun bs _ => ?_
        exact Good.bind (hcells _ _) fun row' _ =>
          Good.bind (Good.quiet (bytesOf_ne_conflict _)) fun bs _ => Good.quiet (addFirstCells_ne _ _).2.1
      · exact Good.bind (Good.quiet (bytesOf_ne_conflict _)) fun bs _ => Good.quiet (addFirstCells_ne _ _).2.1
  have hrows : ∀ firsts follows is t, Good (fun _ => True) (makeRowsOut (newGen g) firsts follows is t) := by
    intro firsts follows is
    induction is with
    | nil => intro t; exact Good.quiet (by simp)
    | cons i is ih =>
      intro t
      unfold makeRowsOut makeTableRowOut
      exact Good.bind (Good.bind (Good.quiet (idx_ne_conflict _ _)) fun r _ => hrow _ _ _ _ _) fun _ _ => ih _
  unfold fromGrammarOut runOut makeTableOut
  refine Good.bind ?_ fun t _ => Good.quiet (by simp)
  refine Good.bind (Good.quiet ((fixpoints_ne_conflict g).1 _)) fun firsts h1 => ?_
  exact Good.bind (Good.quiet ((fixpoints_ne_conflict g).2 _ _)) fun follows h2 => hrows _ _ _ _

end TG
end LL1
