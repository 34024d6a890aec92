import Verif.Model.FromCstCost
import Verif.Props.WalkDepth

/-!
# Costs of `ToAST`: same results, bounds
-/

namespace LL1
namespace FC

/-! ## The results are those of `Model/FromCst.lean` -/

section
variable {σ : Type} (ig sr : Int → Bool) (f : OnNodeC σ)

theorem flexVisitC_snd (n : Node) (s : σ × Option Err) :
    (flexVisitor ig sr (fun n s => (f n s).2)).visit () n s =
      match (flexVisitC ig sr f n s).2 with
      | .error p => .error p
      | .ok (s', b) => .ok (s', if b then some () else none) := by
  unfold flexVisitor flexVisitC
  dsimp only
  split
  · rfl
  · split
    · rfl
    · split
      · cases (f n s.1).2 with
        | error p => rfl
        | ok r => rfl
      · rfl

mutual
theorem walkC_snd : ∀ (n : Node) (s : σ × Option Err),
    (walkC (flexVisitC ig sr f) n s).2 = walk (flexVisitor ig sr (fun n s => (f n s).2)) () n s
  | .mk t p e cs, s => by
    rw [walkC, walk, flexVisitC_snd]
    rcases flexVisitC ig sr f (.mk t p e cs) s with ⟨c, x | ⟨s', b⟩⟩
    · rfl
    · cases b with
      | false => rfl
      | true => exact walkListC_snd cs s'
theorem walkListC_snd : ∀ (ns : List Node) (s : σ × Option Err),
    (walkListC (flexVisitC ig sr f) ns s).2 = walkList (flexVisitor ig sr (fun n s => (f n s).2)) () ns s
  | [], _ => by rw [walkListC, walkList]
  | n :: ns, s => by
    rw [walkListC, walkList, ← walkC_snd n s]
    rcases walkC (flexVisitC ig sr f) n s with ⟨c, x | s'⟩
    · rfl
    · exact walkListC_snd ns s'
end

theorem lrTraverseC_snd (root : Node) (s : σ) :
    (FC.lrTraverseC root ig sr f s).2 = FC.lrTraverse root ig sr (fun n s => (f n s).2) s := walkC_snd ig sr f root _

theorem Bindings.lrTraverseC_snd (b : Bindings) (root : Node) (ty : Int) (s : σ) :
    (b.lrTraverseC root ty f s).2 = b.lrTraverse root ty (fun n s => (f n s).2) s := FC.lrTraverseC_snd _ _ f root s
end

variable (b : Bindings) (str : Str)

theorem parseEscapeC_snd (n : Node) : (b.parseEscapeC n str).2 = b.parseEscape n str := by
  unfold Bindings.parseEscapeC Bindings.parseEscape
  have h := b.lrTraverseC_snd (free (b.doOnEscapedChar str)) n b.escapeCharacterType []
  simp only [free] at h
  rw [← h]
  rcases b.lrTraverseC n b.escapeCharacterType (free (b.doOnEscapedChar str)) [] with ⟨c, p | ⟨r, _ | e⟩⟩
  · rfl
  · rfl
  · cases e <;> rfl

theorem onTerminalPartC_snd : (fun n s => (b.onTerminalPartC str n s).2) = b.onTerminalPart str := by
  funext n s
  unfold Bindings.onTerminalPartC Bindings.onTerminalPart
  split
  · cases slice str n.pos n.stop <;> rfl
  · rw [← parseEscapeC_snd]
    rcases b.parseEscapeC n str with ⟨c, _ | _ | _ | _⟩ <;> rfl

theorem parseTerminalNameC_snd (n : Node) : (b.parseTerminalNameC n str).2 = b.parseTerminalName n str := by
  unfold Bindings.parseTerminalNameC Bindings.parseTerminalName
  rw [← onTerminalPartC_snd, ← FC.lrTraverseC_snd]
  generalize FC.lrTraverseC n (fun _ => false) _ (b.onTerminalPartC str) [] = x
  rcases x with ⟨c, p | ⟨r, _ | e⟩⟩ <;> rfl

theorem doOnTerminalNameC_snd : (fun n s => (b.doOnTerminalNameC str n s).2) = b.doOnTerminalName str := by
  funext n s
  unfold Bindings.doOnTerminalNameC Bindings.doOnTerminalName
  rw [← parseTerminalNameC_snd]
  rcases b.parseTerminalNameC n str with ⟨c, name | _ | _ | _⟩
  · dsimp only; split <;> rfl
  all_goals rfl

theorem symbolTermLoopC_snd (n : Node) (ts : List Int) (res : Option Symbol) :
    (b.symbolTermLoopC n str ts res).2 = b.symbolTermLoop n str ts res := by
  induction ts generalizing res with
  | nil => rfl
  | cons t ts ih =>
    unfold Bindings.symbolTermLoopC Bindings.symbolTermLoop
    rw [← doOnTerminalNameC_snd, ← b.lrTraverseC_snd]
    rcases b.lrTraverseC n t (b.doOnTerminalNameC str) res with ⟨c, p | ⟨r, _ | e⟩⟩
    · rfl
    · exact ih r
    · cases e <;> rfl

theorem parseSymbolC_snd (n : Node) : (b.parseSymbolC n str).2 = b.parseSymbol n str := by
  unfold Bindings.parseSymbolC Bindings.parseSymbol
  rw [← symbolTermLoopC_snd]
  rcases b.symbolTermLoopC n str b.symbolTerminalTypes none with ⟨c, (_ | r) | _ | _ | _⟩
  · have h := b.lrTraverseC_snd (free (doOnNonTerminalName str)) n b.symbolNonTerminalType none
    simp only [free] at h
    simp only [Res.ok_bind]
    rw [← h]
    rcases b.lrTraverseC n b.symbolNonTerminalType (free (doOnNonTerminalName str)) none with ⟨c, p | ⟨r, _ | e⟩⟩
    · rfl
    · dsimp only; cases nodeName n str <;> rfl
    · cases e with
      | searchComplete => rfl
      | _ => dsimp only; cases nodeName n str <;> rfl
  all_goals rfl

theorem doOnSymbolC_snd : (fun n s => (b.doOnSymbolC str n s).2) = b.doOnSymbol str := by
  funext n s
  unfold Bindings.doOnSymbolC Bindings.doOnSymbol
  rw [← parseSymbolC_snd]
  rcases b.parseSymbolC n str with ⟨c, (_ | _) | _ | _ | _⟩ <;> rfl

theorem parseSequenceC_snd (n : Node) : (b.parseSequenceC n str).2 = b.parseSequence n str := by
  unfold Bindings.parseSequenceC Bindings.parseSequence
  rw [← doOnSymbolC_snd, ← b.lrTraverseC_snd]
  rcases b.lrTraverseC n b.sequencesSymbolType (b.doOnSymbolC str) [] with ⟨c, p | ⟨r, _ | e⟩⟩ <;> rfl

theorem doOnSequenceC_snd : (fun n s => (b.doOnSequenceC str n s).2) = b.doOnSequence str := by
  funext n s
  unfold Bindings.doOnSequenceC Bindings.doOnSequence
  rw [← parseSequenceC_snd]
  rcases b.parseSequenceC n str with ⟨c, _ | _ | _ | _⟩ <;> rfl

theorem parseSubstitutionC_snd (n : Node) : (b.parseSubstitutionC n str).2 = b.parseSubstitution n str := by
  unfold Bindings.parseSubstitutionC Bindings.parseSubstitution
  rw [← doOnSequenceC_snd, ← b.lrTraverseC_snd]
  rcases b.lrTraverseC n b.expressionSequencesType (b.doOnSequenceC str) [] with ⟨c, p | ⟨r, _ | e⟩⟩ <;> rfl

theorem doOnSubstitutionC_snd : (fun n s => (b.doOnSubstitutionC str n s).2) = b.doOnSubstitution str := by
  funext n s
  unfold Bindings.doOnSubstitutionC Bindings.doOnSubstitution
  rw [← parseSubstitutionC_snd]
  rcases b.parseSubstitutionC n str with ⟨c, _ | _ | _ | _⟩ <;> rfl

theorem parseRuleC_snd (n : Node) : (b.parseRuleC n str).2 = b.parseRule n str := by
  unfold Bindings.parseRuleC Bindings.parseRule
  have h := b.lrTraverseC_snd (free (doOnHead str)) n b.ruleHeadType []
  simp only [free] at h
  rw [← h, ← doOnSubstitutionC_snd, ← b.lrTraverseC_snd]
  rcases b.lrTraverseC n b.ruleHeadType (free (doOnHead str)) [] with ⟨c, p | ⟨r, _ | e⟩⟩
  · rfl
  · dsimp only; cases nodeName n str <;> rfl
  · cases e with
    | searchComplete =>
      rcases b.lrTraverseC n b.ruleTailType (b.doOnSubstitutionC str) ⟨[]⟩ with ⟨c, p | ⟨r, _ | e⟩⟩
      · rfl
      · dsimp only; cases nodeName n str <;> rfl
      · cases e <;> rfl
    | _ => dsimp only; cases nodeName n str <;> rfl

theorem doOnRuleC_snd : (fun n s => (b.doOnRuleC str n s).2) = b.doOnRule str := by
  funext n s
  unfold Bindings.doOnRuleC Bindings.doOnRule
  rw [← parseRuleC_snd]
  rcases b.parseRuleC n str with ⟨c, _ | _ | _ | _⟩ <;> rfl

theorem toASTBodyC_snd (n : Node) : (b.toASTBodyC n str).2 = b.toASTBody n str := by
  unfold Bindings.toASTBodyC Bindings.toASTBody
  rw [← doOnRuleC_snd, ← b.lrTraverseC_snd]
  rcases b.lrTraverseC n b.ruleType (b.doOnRuleC str) [] with ⟨c, p | ⟨r, _ | e⟩⟩ <;> rfl

theorem toASTC_snd (n : Node) : (b.toASTC n str).2 = b.toAST n str := toASTBodyC_snd _ str n

/-! ## Bounds -/

/-- Number of nodes. -/
def size (n : Node) : Nat := (preorder n).length

theorem size_mk (t : Int) (p e : Nat) (cs : List Node) : size (.mk t p e cs) = (cs.map size).sum + 1 := by
  simp only [size, preorder, List.length_cons, List.length_flatten, List.map_map]
  rfl

/-- The costs are at most `c` visits per node and `d` frames above the height. -/
def Within (x : Cost) (c d : Nat) (n : Node) : Prop := x.visits ≤ c * size n ∧ x.depth ≤ heightOf n + d

theorem Within.zero (c d : Nat) (n : Node) : Within .zero c d n := ⟨Nat.zero_le _, Nat.zero_le _⟩

theorem Within.mono {x : Cost} {c d c' d' : Nat} {n : Node} (h : Within x c d n) (hc : c ≤ c') (hd : d ≤ d') :
    Within x c' d' n :=
  ⟨Nat.le_trans h.1 (Nat.mul_le_mul_right _ hc), Nat.le_trans h.2 (Nat.add_le_add_left hd _)⟩

theorem Within.add {x y : Cost} {c d c' : Nat} {n : Node} (h : Within x c d n) (h' : Within y c' d n) :
    Within (x.add y) (c + c') d n :=
  ⟨by rw [Nat.add_mul]; exact Nat.add_le_add h.1 h'.1, Nat.max_le.2 ⟨h.2, h'.2⟩⟩

section
variable {σ : Type} (ig sr : Int → Bool) (f : OnNodeC σ) (c d : Nat)
  (hf : ∀ n s, (f n s).1.visits ≤ c * size n ∧ (f n s).1.depth + 1 ≤ heightOf n + d)
include hf

mutual
theorem walkC_cost : ∀ (n : Node) (s : σ × Option Err), Within (walkC (flexVisitC ig sr f) n s).1 (c + 1) d n
  | .mk t p e cs, s => by
    have hs : 1 ≤ size (.mk t p e cs) := by rw [size_mk]; omega
    have hh : 1 ≤ heightOf (.mk t p e cs) := by simp [heightOf]
    have hone : ∀ x : Cost, (x = .zero ∨ x = (f (.mk t p e cs) s.1).1) →
        Within ⟨x.visits + 1, x.depth + 1⟩ (c + 1) d (.mk t p e cs) := by
      intro x hx
      rcases hx with rfl | rfl
      · refine ⟨?_, ?_⟩
        · simp only [Cost.zero]; rw [Nat.add_mul]; omega
        · simp only [Cost.zero]; omega
      · have := hf (.mk t p e cs) s.1
        refine ⟨?_, this.2⟩
        rw [Nat.add_mul, Nat.one_mul]
        exact Nat.add_le_add this.1 hs
    have hv : ∃ x r, flexVisitC ig sr f (.mk t p e cs) s = (x, r) ∧
        (x = .zero ∨ (x = (f (.mk t p e cs) s.1).1 ∧ ∀ s', r ≠ .ok (s', true))) := by
      unfold flexVisitC
      split
      · exact ⟨_, _, rfl, .inl rfl⟩
      · split
        · exact ⟨_, _, rfl, .inl rfl⟩
        · split
          · refine ⟨_, _, rfl, .inr ⟨rfl, fun s' h => ?_⟩⟩
            revert h
            cases (f (.mk t p e cs) s.1).2 with
            | error p => intro h; cases h
            | ok r => intro h; cases h
          · exact ⟨_, _, rfl, .inl rfl⟩
    obtain ⟨x, r, hv, hx⟩ := hv
    rw [walkC, hv]
    rcases r with y | ⟨s', _ | _⟩
    · exact hone x (hx.imp id (·.1))
    · exact hone x (hx.imp id (·.1))
    · rcases hx with rfl | ⟨_, hx⟩
      · have := walkListC_cost cs s'
        dsimp only
        rcases hw : walkListC (flexVisitC ig sr f) cs s' with ⟨y, r⟩
        rw [hw] at this
        refine ⟨?_, ?_⟩
        · have h1 := this.1
          simp only [Cost.add, Cost.zero, Nat.zero_add]
          simp only at h1
          rw [size_mk, Nat.mul_add]
          omega
        · have h2 := this.2
          simp only [Cost.add, Cost.zero, heightOf]
          simp only [] at h2
          rw [Nat.zero_max]
          by_cases hcs : cs = []
          · subst hcs
            simp only [walkListC, Prod.mk.injEq] at hw
            rw [← hw.1]
            simp only [Cost.zero]; omega
          · have := h2 hcs
            omega
      · exact (hx s' rfl).elim
theorem walkListC_cost : ∀ (ns : List Node) (s : σ × Option Err),
    (walkListC (flexVisitC ig sr f) ns s).1.visits ≤ (c + 1) * (ns.map size).sum ∧
    (ns ≠ [] → (walkListC (flexVisitC ig sr f) ns s).1.depth ≤ heightOfList ns + d)
  | [], _ => by rw [walkListC]; exact ⟨Nat.zero_le _, fun h => (h rfl).elim⟩
  | n :: ns, s => by
    have h1 := walkC_cost n s
    rw [walkListC]
    generalize walkC (flexVisitC ig sr f) n s = w at h1 ⊢
    rcases w with ⟨x, y | s'⟩
    · refine ⟨Nat.le_trans h1.1 (Nat.mul_le_mul_left _ ?_), fun _ => ?_⟩
      · simp
      · have := h1.2
        simp only [heightOfList]; simp only at this; omega
    · have h2 := walkListC_cost ns s'
      dsimp only
      rcases hw : walkListC (flexVisitC ig sr f) ns s' with ⟨y, r⟩
      rw [hw] at h2
      refine ⟨?_, fun _ => ?_⟩
      · simp only [Cost.add, List.map_cons, List.sum_cons, Nat.mul_add]
        exact Nat.add_le_add h1.1 h2.1
      · simp only [Cost.add, heightOfList]
        have h3 := h1.2
        simp only at h3
        by_cases hns : ns = []
        · subst hns
          simp only [walkListC, Prod.mk.injEq] at hw
          rw [← hw.1]
          simp only [Cost.zero]; omega
        · have h4 := h2.2 hns
          simp only at h4
          omega
end
end

/-- A traversal whose closure costs at most `c` visits per node and needs `d` frames above the height. -/
theorem lrTraverseC_cost {σ : Type} {ig sr : Int → Bool} {f : OnNodeC σ} {c d : Nat} (hd : 0 < d)
    (hf : ∀ n s, Within (f n s).1 c (d - 1) n) (n : Node) (s : σ) :
    Within (FC.lrTraverseC n ig sr f s).1 (c + 1) d n :=
  walkC_cost ig sr f c d (fun n s => ⟨(hf n s).1, by have := (hf n s).2; omega⟩) n _

theorem free_cost {σ : Type} {ig sr : Int → Bool} {f : OnNode σ} (n : Node) (s : σ) :
    Within (FC.lrTraverseC n ig sr (free f) s).1 1 0 n := by
  refine walkC_cost ig sr (free f) 0 0 (fun n s => ⟨Nat.zero_le _, ?_⟩) n _
  cases n
  simp [free, Cost.zero, heightOf]

theorem parseEscapeC_cost (n : Node) : Within (b.parseEscapeC n str).1 1 0 n := by
  have h : Within (b.lrTraverseC n b.escapeCharacterType (free (b.doOnEscapedChar str)) []).1 1 0 n := free_cost n _
  unfold Bindings.parseEscapeC
  generalize b.lrTraverseC n b.escapeCharacterType (free (b.doOnEscapedChar str)) [] = x at h ⊢
  rcases x with ⟨c, p | ⟨r, _ | e⟩⟩
  · exact h
  · exact h
  · cases e <;> exact h

theorem onTerminalPartC_cost (n : Node) (s : Str) : Within (b.onTerminalPartC str n s).1 1 0 n := by
  have h := parseEscapeC_cost b str n
  unfold Bindings.onTerminalPartC
  split
  · cases slice str n.pos n.stop <;> exact .zero _ _ _
  · generalize b.parseEscapeC n str = x at h ⊢
    rcases x with ⟨c, _ | _ | _ | _⟩ <;> exact h

theorem parseTerminalNameC_cost (n : Node) : Within (b.parseTerminalNameC n str).1 2 1 n := by
  have h := lrTraverseC_cost (d := 1) (by omega) (ig := fun _ => false)
    (sr := fun n => decide (n = 16) || decide (n = builtinTerminal)) (onTerminalPartC_cost b str) n []
  unfold Bindings.parseTerminalNameC
  generalize FC.lrTraverseC n (fun _ => false) _ (b.onTerminalPartC str) [] = x at h ⊢
  rcases x with ⟨c, p | ⟨r, _ | e⟩⟩ <;> exact h

theorem doOnTerminalNameC_cost (n : Node) (s : Option Symbol) : Within (b.doOnTerminalNameC str n s).1 2 1 n := by
  have h := parseTerminalNameC_cost b str n
  unfold Bindings.doOnTerminalNameC
  generalize b.parseTerminalNameC n str = x at h ⊢
  rcases x with ⟨c, name | _ | _ | _⟩
  · dsimp only; split <;> exact h
  all_goals exact h

theorem termTraverse_cost (t : Int) (n : Node) (s : Option Symbol) :
    Within (b.lrTraverseC n t (b.doOnTerminalNameC str) s).1 3 2 n :=
  lrTraverseC_cost (d := 2) (by omega) (doOnTerminalNameC_cost b str) n s

theorem symbolTermLoopC_cost (n : Node) : ∀ (ts : List Int) (s : Option Symbol),
    Within (b.symbolTermLoopC n str ts s).1 (3 * ts.length) 2 n
  | [], _ => .zero _ _ _
  | t :: ts, s => by
    have h := termTraverse_cost b str t n s
    rw [Bindings.symbolTermLoopC]
    generalize b.lrTraverseC n t (b.doOnTerminalNameC str) s = x at h ⊢
    have hm : Within x.1 (3 * (t :: ts).length) 2 n := h.mono (by simp; omega) (Nat.le_refl _)
    rcases x with ⟨c, p | ⟨r, _ | e⟩⟩
    · exact hm
    · have h2 := symbolTermLoopC_cost n ts r
      dsimp only
      generalize b.symbolTermLoopC n str ts r = y at h2 ⊢
      refine (h.add h2).mono ?_ (Nat.le_refl _)
      simp; omega
    · cases e <;> exact hm

theorem parseSymbolC_cost (n : Node) :
    Within (b.parseSymbolC n str).1 (3 * b.symbolTerminalTypes.length + 1) 2 n := by
  have h := symbolTermLoopC_cost b str n b.symbolTerminalTypes none
  have h' : Within (b.lrTraverseC n b.symbolNonTerminalType (free (doOnNonTerminalName str)) none).1 1 2 n :=
    (free_cost n _).mono (Nat.le_refl _) (by omega)
  unfold Bindings.parseSymbolC
  generalize b.symbolTermLoopC n str b.symbolTerminalTypes none = x at h ⊢
  generalize b.lrTraverseC n b.symbolNonTerminalType (free (doOnNonTerminalName str)) none = y at h' ⊢
  have hx : Within x.1 (3 * b.symbolTerminalTypes.length + 1) 2 n := h.mono (by omega) (Nat.le_refl _)
  have hxy := h.add h'
  rcases x with ⟨c, (_ | r) | _ | _ | _⟩
  · rcases y with ⟨c', p | ⟨r, _ | e⟩⟩
    · exact hxy
    · dsimp only; cases nodeName n str <;> exact hxy
    · cases e
      case searchComplete => exact hxy
      all_goals dsimp only; cases nodeName n str <;> exact hxy
  all_goals exact hx

theorem doOnSymbolC_cost (n : Node) (s : List Symbol) :
    Within (b.doOnSymbolC str n s).1 (3 * b.symbolTerminalTypes.length + 1) 2 n := by
  have h := parseSymbolC_cost b str n
  unfold Bindings.doOnSymbolC
  generalize b.parseSymbolC n str = x at h ⊢
  rcases x with ⟨c, (_ | r) | _ | _ | _⟩ <;> exact h

theorem parseSequenceC_cost (n : Node) :
    Within (b.parseSequenceC n str).1 (3 * b.symbolTerminalTypes.length + 2) 3 n := by
  have h : Within (b.lrTraverseC n b.sequencesSymbolType (b.doOnSymbolC str) []).1 _ 3 n :=
    lrTraverseC_cost (by omega) (doOnSymbolC_cost b str) n _
  unfold Bindings.parseSequenceC
  generalize b.lrTraverseC n b.sequencesSymbolType (b.doOnSymbolC str) [] = x at h ⊢
  rcases x with ⟨c, p | ⟨r, _ | e⟩⟩ <;> exact h

theorem doOnSequenceC_cost (n : Node) (s : List Sequence) :
    Within (b.doOnSequenceC str n s).1 (3 * b.symbolTerminalTypes.length + 2) 3 n := by
  have h := parseSequenceC_cost b str n
  unfold Bindings.doOnSequenceC
  generalize b.parseSequenceC n str = x at h ⊢
  rcases x with ⟨c, _ | _ | _ | _⟩ <;> exact h

theorem parseSubstitutionC_cost (n : Node) :
    Within (b.parseSubstitutionC n str).1 (3 * b.symbolTerminalTypes.length + 3) 4 n := by
  have h : Within (b.lrTraverseC n b.expressionSequencesType (b.doOnSequenceC str) []).1 _ 4 n :=
    lrTraverseC_cost (by omega) (doOnSequenceC_cost b str) n _
  unfold Bindings.parseSubstitutionC
  generalize b.lrTraverseC n b.expressionSequencesType (b.doOnSequenceC str) [] = x at h ⊢
  rcases x with ⟨c, p | ⟨r, _ | e⟩⟩ <;> exact h

theorem doOnSubstitutionC_cost (n : Node) (s : Substitution) :
    Within (b.doOnSubstitutionC str n s).1 (3 * b.symbolTerminalTypes.length + 3) 4 n := by
  have h := parseSubstitutionC_cost b str n
  unfold Bindings.doOnSubstitutionC
  generalize b.parseSubstitutionC n str = x at h ⊢
  rcases x with ⟨c, _ | _ | _ | _⟩ <;> exact h

theorem parseRuleC_cost (n : Node) :
    Within (b.parseRuleC n str).1 (3 * b.symbolTerminalTypes.length + 5) 5 n := by
  have h' : Within (b.lrTraverseC n b.ruleTailType (b.doOnSubstitutionC str) ⟨[]⟩).1 _ 5 n :=
    lrTraverseC_cost (by omega) (doOnSubstitutionC_cost b str) n _
  have h : Within (b.lrTraverseC n b.ruleHeadType (free (doOnHead str)) []).1 1 5 n :=
    (free_cost n _).mono (Nat.le_refl _) (by omega)
  unfold Bindings.parseRuleC
  generalize b.lrTraverseC n b.ruleHeadType (free (doOnHead str)) [] = x at h ⊢
  generalize b.lrTraverseC n b.ruleTailType (b.doOnSubstitutionC str) ⟨[]⟩ = y at h' ⊢
  have hx : Within x.1 (3 * b.symbolTerminalTypes.length + 5) 5 n := h.mono (by omega) (Nat.le_refl _)
  have hxy : Within (x.1.add y.1) (3 * b.symbolTerminalTypes.length + 5) 5 n :=
    (h.add h').mono (by omega) (Nat.le_refl _)
  rcases x with ⟨c, p | ⟨r, _ | e⟩⟩
  · exact hx
  · dsimp only; cases nodeName n str <;> exact hx
  · cases e
    case searchComplete =>
      rcases y with ⟨c', p | ⟨r, _ | e⟩⟩
      · exact hxy
      · dsimp only; cases nodeName n str <;> exact hxy
      · cases e <;> exact hxy
    all_goals dsimp only; cases nodeName n str <;> exact hx

theorem doOnRuleC_cost (n : Node) (s : List Rule) :
    Within (b.doOnRuleC str n s).1 (3 * b.symbolTerminalTypes.length + 5) 5 n := by
  have h := parseRuleC_cost b str n
  unfold Bindings.doOnRuleC
  generalize b.parseRuleC n str = x at h ⊢
  rcases x with ⟨c, _ | _ | _ | _⟩ <;> exact h

theorem toASTBodyC_cost (n : Node) :
    Within (b.toASTBodyC n str).1 (3 * b.symbolTerminalTypes.length + 6) 6 n := by
  have h : Within (b.lrTraverseC n b.ruleType (b.doOnRuleC str) []).1 _ 6 n :=
    lrTraverseC_cost (by omega) (doOnRuleC_cost b str) n _
  unfold Bindings.toASTBodyC
  generalize b.lrTraverseC n b.ruleType (b.doOnRuleC str) [] = x at h ⊢
  rcases x with ⟨c, p | ⟨r, _ | e⟩⟩ <;> exact h

theorem toASTC_cost (n : Node) :
    Within (b.toASTC n str).1 (3 * b.symbolTerminalTypes.length + 6) 6 n :=
  toASTBodyC_cost _ str n

end FC
end LL1
