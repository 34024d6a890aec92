import Verif.Spec.ToAstGraph
import Verif.Spec.Tree
import Verif.Proofs.FromCst
import Verif.Props.WalkDepth

/-!
# Two runs of `ToAST` side by side

`Sim` relates two conversions, on two implementations of `cst.Node` and with two stack sizes, step by step.
-/

namespace LL1
namespace FC

variable {N N' : Type}

/-- A relation between computations and one between (stack size, node) pairs which the conversion respects.  `S k d d' x
x'` is about walks inside which at most `k` further walks nest. -/
structure Sim (V : NodeView N) (V' : NodeView N') (str : Str) where
  Rel : ∀ {α : Type}, D α → D α → Prop
  S : Nat → Nat → Nat → Option N → Option N' → Prop
  rel_pure : ∀ {α : Type} (a : α), Rel (pure a) (pure a)
  rel_bind : ∀ {α β : Type} {x y : D α} {f g : α → D β}, Rel x y → (∀ a, Rel (f a) (g a)) → Rel (x >>= f) (y >>= g)
  zero : ∀ {k d' x x'}, S k 0 d' x x' → ∀ {α : Type} (y : D α), (d' = 0 → y = overflow) → Rel overflow y
  zero' : ∀ {k d x x'}, ¬ S k (d + 1) 0 x x'
  nil : ∀ {k d d'}, S k (d + 1) (d' + 1) none none → ∀ {α : Type}, Rel (α := α) (throw .nilNode) (throw .nilNode)
  nil_left : ∀ {k d d' n}, ¬ S k (d + 1) (d' + 1) none (some n)
  nil_right : ∀ {k d d' n}, ¬ S k (d + 1) (d' + 1) (some n) none
  type : ∀ {k d d' n n'}, S k d d' (some n) (some n') → V.type n = V'.type n'
  slice : ∀ {k d d' n n'}, S k d d' (some n) (some n') →
    Rel (sliceG str (V.pos n) (V.stop n)) (sliceG str (V'.pos n') (V'.stop n'))
  kids : ∀ {k d d' n n'}, S k (d + 1) (d' + 1) (some n) (some n') → AllPairs (S k d d') (V.kids n) (V'.kids n')
  nest : ∀ {k d d' n n'}, S (k + 1) (d + 1) (d' + 1) (some n) (some n') → S k d d' (some n) (some n')

namespace Sim
variable {V : NodeView N} {V' : NodeView N'} {str : Str} (M : Sim V V' str)

theorem range {σ : Type} {body : Option N → σ → D σ} {body' : Option N' → σ → D σ} {R : Option N → Option N' → Prop}
    (h : ∀ x x' s, R x x' → M.Rel (body x s) (body' x' s)) {xs : List (Option N)} {xs' : List (Option N')}
    (hx : AllPairs R xs xs') : ∀ s, M.Rel (rangeG body xs s) (rangeG body' xs' s) := by
  induction hx with
  | nil => intro s; exact M.rel_pure _
  | cons h1 _ ih => intro s; exact M.rel_bind (h _ _ _ h1) ih

/-- The callbacks are called at a found node with one frame less. -/
theorem walk {σ : Type} {ig sr : Int → Bool} {k : Nat} {f : OnNodeG N σ} {f' : OnNodeG N' σ}
    (hf : ∀ d d' n n' s, M.S k (d + 1) (d' + 1) (some n) (some n') → M.Rel (f d n s) (f' d' n' s)) :
    ∀ d d' x x' s, M.S k d d' x x' → M.Rel (walkG V ig sr f d x s) (walkG V' ig sr f' d' x' s)
  | 0, d', x, x', s, h => by
    have := M.zero h (walkG V' ig sr f' d' x' s) (by rintro rfl; simp [walkG])
    simpa [walkG] using this
  | d + 1, 0, x, x', s, h => absurd h M.zero'
  | d + 1, d' + 1, x, x', s, h => by
    have ih := walk (ig := ig) (sr := sr) hf d d'
    unfold walkG
    match x, x', h with
    | none, some _, h => exact absurd h M.nil_left
    | some _, none, h => exact absurd h M.nil_right
    | none, none, h =>
      refine M.rel_bind ?_ (fun r => ?_)
      · unfold flexVisitG
        split
        · exact M.rel_pure _
        · exact M.nil h
      · obtain ⟨s', b⟩ := r
        cases b <;> exact M.rel_pure s'
    | some n, some n', h =>
      refine M.rel_bind ?_ (fun r => ?_)
      · unfold flexVisitG
        have ht := M.type h
        split
        · exact M.rel_pure _
        · dsimp only
          rw [← ht]
          split
          · exact M.rel_pure _
          · split
            · exact M.rel_bind (hf _ _ _ _ _ h) fun r => M.rel_pure _
            · exact M.rel_pure _
      · obtain ⟨s', b⟩ := r
        cases b with
        | true => exact M.range (fun x x' s h => ih x x' s h) (M.kids h) _
        | false => exact M.rel_pure _

theorem trav {σ : Type} (b : Bindings) {u : Int} {k : Nat} {f : OnNodeG N σ} {f' : OnNodeG N' σ}
    (hf : ∀ d d' n n' s, M.S k (d + 1) (d' + 1) (some n) (some n') → M.Rel (f d n s) (f' d' n' s))
    {d d' : Nat} {x : Option N} {x' : Option N'} {s : σ} (h : M.S k d d' x x') :
    M.Rel (b.lrTraverseG V d x u f s) (b.lrTraverseG V' d' x' u f' s) := M.walk hf _ _ _ _ _ h

theorem escape (b : Bindings) {k d d' : Nat} {n : N} {n' : N'} (h : M.S k d d' (some n) (some n')) :
    M.Rel (b.parseEscapeG V d n str) (b.parseEscapeG V' d' n' str) := by
  refine M.rel_bind (M.trav b (fun d d' n n' s h => ?_) h) (fun r => ?_)
  · refine M.rel_bind (M.slice h) (fun e => ?_)
    split <;> exact M.rel_pure _
  · split <;> exact M.rel_pure _

theorem terminalName (b : Bindings) {k d d' : Nat} {n : N} {n' : N'} (h : M.S (k + 1) d d' (some n) (some n')) :
    M.Rel (b.parseTerminalNameG V d n str) (b.parseTerminalNameG V' d' n' str) := by
  refine M.rel_bind (M.walk (fun d d' n n' s h => ?_) _ _ _ _ _ h) (fun r => ?_)
  · unfold Bindings.onTerminalPartG
    rw [M.type h]
    split
    · exact M.rel_bind (M.slice h) fun t => M.rel_pure _
    · refine M.rel_bind (M.escape b (M.nest h)) (fun r => ?_)
      split <;> exact M.rel_pure _
  · split <;> exact M.rel_pure _

theorem termLoop (b : Bindings) {k d d' : Nat} {n : N} {n' : N'} (h : M.S (k + 2) d d' (some n) (some n')) (ts : List Int) :
    ∀ res, M.Rel (b.symbolTermLoopG V d n str ts res) (b.symbolTermLoopG V' d' n' str ts res) := by
  induction ts with
  | nil => intro res; exact M.rel_pure _
  | cons t ts ih =>
    intro res
    refine M.rel_bind (M.trav b (fun d d' n n' s h => ?_) h) (fun r => ?_)
    · refine M.rel_bind (M.terminalName b (M.nest h)) (fun r => ?_)
      split
      · exact M.rel_pure _
      · split <;> exact M.rel_pure _
    · split
      · exact M.rel_pure _
      · exact M.rel_pure _
      · exact ih _

theorem symbol (b : Bindings) {k d d' : Nat} {n : N} {n' : N'} (h : M.S (k + 2) d d' (some n) (some n')) :
    M.Rel (b.parseSymbolG V d n str) (b.parseSymbolG V' d' n' str) := by
  refine M.rel_bind (M.termLoop b h _ _) (fun r => ?_)
  split
  · exact M.rel_pure _
  · exact M.rel_pure _
  · refine M.rel_bind (M.trav b (fun d d' n n' s h => ?_) h) (fun r => ?_)
    · exact M.rel_bind (M.slice h) fun t => M.rel_pure _
    · split
      · exact M.rel_pure _
      · exact M.rel_bind (M.slice h) fun t => M.rel_pure _

theorem sequence (b : Bindings) {k d d' : Nat} {n : N} {n' : N'} (h : M.S (k + 3) d d' (some n) (some n')) :
    M.Rel (b.parseSequenceG V d n str) (b.parseSequenceG V' d' n' str) := by
  refine M.rel_bind (M.trav b (fun d d' n n' s h => ?_) h) (fun r => ?_)
  · refine M.rel_bind (M.symbol b (M.nest h)) (fun r => ?_)
    split <;> exact M.rel_pure _
  · split <;> exact M.rel_pure _

theorem substitution (b : Bindings) {k d d' : Nat} {n : N} {n' : N'} (h : M.S (k + 4) d d' (some n) (some n')) :
    M.Rel (b.parseSubstitutionG V d n str) (b.parseSubstitutionG V' d' n' str) := by
  refine M.rel_bind (M.trav b (fun d d' n n' s h => ?_) h) (fun r => ?_)
  · refine M.rel_bind (M.sequence b (M.nest h)) (fun r => ?_)
    split <;> exact M.rel_pure _
  · split <;> exact M.rel_pure _

theorem rule (b : Bindings) {k d d' : Nat} {n : N} {n' : N'} (h : M.S (k + 5) d d' (some n) (some n')) :
    M.Rel (b.parseRuleG V d n str) (b.parseRuleG V' d' n' str) := by
  refine M.rel_bind (M.trav b (fun d d' n n' s h => ?_) h) (fun r => ?_)
  · exact M.rel_bind (M.slice h) fun t => M.rel_pure _
  · split
    · refine M.rel_bind (M.trav b (fun d d' n n' s h => ?_) h) (fun r => ?_)
      · refine M.rel_bind (M.substitution b (M.nest h)) (fun r => ?_)
        split <;> exact M.rel_pure _
      · split
        · exact M.rel_pure _
        · exact M.rel_bind (M.slice h) fun t => M.rel_pure _
        · exact M.rel_pure _
    · exact M.rel_bind (M.slice h) fun t => M.rel_pure _

theorem body (b : Bindings) {k d d' : Nat} {x : Option N} {x' : Option N'} (h : M.S (k + 6) d d' x x') :
    M.Rel (b.toASTBodyG V d x str) (b.toASTBodyG V' d' x' str) := by
  refine M.rel_bind (M.trav b (fun d d' n n' s h => ?_) h) (fun r => ?_)
  · refine M.rel_bind (M.rule b (M.nest h)) (fun r => ?_)
    split <;> exact M.rel_pure _
  · split <;> exact M.rel_pure _

theorem toAST (b : Bindings) {k d d' : Nat} {x : Option N} {x' : Option N'} (h : M.S (k + 6) d d' x x') :
    M.Rel (b.toASTG V d x str) (b.toASTG V' d' x' str) := M.body _ h

end Sim

/-! ## Trees made by `NewNode` -/

/-- A panic of the tree model. -/
def liftE {α : Type} : Except Panic α → D α
  | .ok a => pure a
  | .error _ => throw .sliceBounds

/-- A result of the tree model. -/
def liftR {α : Type} : R α → D (Except Err α)
  | .ok a => pure (.ok a)
  | .err e => pure (.error e)
  | .panic _ => throw .sliceBounds
  | .diverge => overflow

theorem throw_bindD {α β : Type} (p : PanicG) (f : α → D β) : ((throw p : D α) >>= f) = throw p := rfl
theorem overflow_bindD {α β : Type} (f : α → D β) : ((overflow : D α) >>= f) = overflow := rfl
theorem liftE_ok {α : Type} (a : α) : liftE (.ok a) = pure a := rfl
theorem liftE_error {α : Type} (p : Panic) : liftE (.error p : Except Panic α) = throw .sliceBounds := rfl
theorem liftR_ok {α : Type} (a : α) : liftR (.ok a) = pure (.ok a) := rfl
theorem liftR_err {α : Type} (e : Err) : liftR (.err e : R α) = pure (.error e) := rfl
theorem liftR_panic {α : Type} (p : Panic) : liftR (.panic p : R α) = throw .sliceBounds := rfl

theorem sliceG_nat (str : Str) (a b : Nat) : sliceG str a b = liftE (slice str a b) := by
  unfold sliceG slice
  by_cases h : a ≤ b ∧ b ≤ str.length
  · rw [if_pos h, if_pos (by omega)]
    have h1 : ((b : Int) - (a : Int)).toNat = b - a := by omega
    rw [h1]
    rfl
  · rw [if_neg h, if_neg (by omega)]
    rfl

theorem slice_own (str : Str) (n : Node) : sliceG str (ownView.pos n) (ownView.stop n) = liftE (slice str n.pos n.stop) :=
  sliceG_nat _ _ _

mutual
theorem walkG_own {σ : Type} {ig sr : Int → Bool} {k : Nat} {fG : OnNodeG Node σ} {f : OnNode σ}
    (hf : ∀ d n s, heightOf n + k ≤ d + 1 → fG d n s = liftE (f n s)) : (n : Node) → (d : Nat) → (s : σ × Option Err) →
    heightOf n + k ≤ d → walkG ownView ig sr fG d (some n) s = liftE (walk (flexVisitor ig sr f) () n s)
  | .mk t p e cs, d, s, h => by
    simp only [heightOf] at h
    obtain ⟨d, rfl⟩ : ∃ d', d = d' + 1 := ⟨d - 1, by omega⟩
    have hl := walkGList_own (ig := ig) (sr := sr) hf cs d s (by omega)
    have hf' := hf d (.mk t p e cs) s.1 (by simp only [heightOf]; omega)
    unfold walkG walk flexVisitG
    simp only [flexVisitor, ownView, Node.type_mk]
    by_cases h1 : s.2 = none
    · simp only [h1, ne_eq, not_true_eq_false, if_false]
      by_cases h2 : ig t = true
      · simp only [h2, if_true, pure_bind]; rfl
      · simp only [h2, if_false, Bool.false_eq_true]
        by_cases h3 : sr t = true
        · simp only [h3, if_true, hf']
          cases f (.mk t p e cs) s.1 <;> rfl
        · simp only [h3, if_false, Bool.false_eq_true, pure_bind, Node.childs_mk]
          exact hl
    · simp only [h1, ne_eq, not_false_eq_true, if_true, pure_bind]; rfl
theorem walkGList_own {σ : Type} {ig sr : Int → Bool} {k : Nat} {fG : OnNodeG Node σ} {f : OnNode σ}
    (hf : ∀ d n s, heightOf n + k ≤ d + 1 → fG d n s = liftE (f n s)) : (ns : List Node) → (d : Nat) →
    (s : σ × Option Err) → heightOfList ns + k ≤ d →
    rangeG (walkG ownView ig sr fG d) (ns.map some) s = liftE (walkList (flexVisitor ig sr f) () ns s)
  | [], d, s, h => by unfold walkList; rfl
  | n :: ns, d, s, h => by
    simp only [heightOfList] at h
    have h1 := walkG_own (ig := ig) (sr := sr) hf n d s (by omega)
    unfold walkList
    simp only [List.map_cons, rangeG, h1]
    cases hw : walk (flexVisitor ig sr f) () n s with
    | error x => rfl
    | ok s' => exact walkGList_own hf ns d s' (by omega)
end

theorem trav_own {σ : Type} (b : Bindings) {u : Int} {k : Nat} {fG : OnNodeG Node σ} {f : OnNode σ}
    (hf : ∀ d n s, heightOf n + k ≤ d + 1 → fG d n s = liftE (f n s)) (n : Node) (d : Nat) (s : σ)
    (h : heightOf n + k ≤ d) : b.lrTraverseG ownView d (some n) u fG s = liftE (b.lrTraverse n u f s) :=
  walkG_own hf n d _ h

theorem escape_own (b : Bindings) (str : Str) (n : Node) (d : Nat) (h : heightOf n ≤ d) :
    b.parseEscapeG ownView d n str = liftR (b.parseEscape n str) := by
  unfold Bindings.parseEscapeG Bindings.parseEscape
  rw [trav_own (k := 0) b (f := b.doOnEscapedChar str) ?_ n d _ h]
  · generalize b.lrTraverse n b.escapeCharacterType (b.doOnEscapedChar str) [] = r
    rcases r with p | ⟨res, _ | e⟩
    · rfl
    · rfl
    · cases e <;> rfl
  · intro d n s _
    unfold Bindings.doOnEscapedCharG Bindings.doOnEscapedChar
    rw [slice_own]
    cases slice str n.pos n.stop with
    | error p => rfl
    | ok t =>
      simp only [liftE_ok, pure_bind]
      cases b.escapeMapping.get t <;> rfl

theorem escape_ne (b : Bindings) (str : Str) (n : Node) : b.parseEscape n str ≠ .diverge := by
  unfold Bindings.parseEscape; split <;> simp

theorem terminalName_own (b : Bindings) (str : Str) (n : Node) (d : Nat) (h : heightOf n + 1 ≤ d) :
    b.parseTerminalNameG ownView d n str = liftR (b.parseTerminalName n str) := by
  unfold Bindings.parseTerminalNameG Bindings.parseTerminalName lrTraverseG lrTraverse
  rw [walkG_own (k := 1) (f := b.onTerminalPart str) ?_ n d _ h]
  · generalize walk _ () n _ = r
    rcases r with p | ⟨res, _ | e⟩ <;> rfl
  · intro d n s hd
    unfold Bindings.onTerminalPartG Bindings.onTerminalPart
    rw [slice_own, escape_own b str n d (by omega)]
    have ht : ownView.type n = n.type := rfl
    rw [ht]
    split
    · cases slice str n.pos n.stop <;> rfl
    · have := escape_ne b str n
      cases hp : b.parseEscape n str with
      | diverge => exact absurd hp this
      | _ => rfl

theorem terminalName_ne (b : Bindings) (str : Str) (n : Node) : b.parseTerminalName n str ≠ .diverge := by
  unfold Bindings.parseTerminalName; split <;> simp

theorem termLoop_own (b : Bindings) (str : Str) (n : Node) (d : Nat) (h : heightOf n + 2 ≤ d) (ts : List Int) :
    ∀ res, b.symbolTermLoopG ownView d n str ts res = liftR (b.symbolTermLoop n str ts res) ∧
      b.symbolTermLoop n str ts res ≠ .diverge := by
  induction ts with
  | nil => intro res; exact ⟨rfl, by simp [Bindings.symbolTermLoop]⟩
  | cons t ts ih =>
    intro res
    unfold Bindings.symbolTermLoopG Bindings.symbolTermLoop
    rw [trav_own (k := 2) b (f := b.doOnTerminalName str) ?_ n d _ h]
    · generalize b.lrTraverse n t (b.doOnTerminalName str) res = r
      rcases r with p | ⟨res', _ | e⟩
      · exact ⟨rfl, by simp⟩
      · exact ih res'
      · cases e <;> exact ⟨rfl, by simp⟩
    · intro d n s hd
      unfold Bindings.doOnTerminalNameG Bindings.doOnTerminalName
      rw [terminalName_own b str n d (by omega)]
      have := terminalName_ne b str n
      cases hp : b.parseTerminalName n str with
      | diverge => exact absurd hp this
      | ok name =>
        simp only [liftR_ok, pure_bind]
        split <;> rfl
      | _ => rfl

theorem symbol_own (b : Bindings) (str : Str) (n : Node) (d : Nat) (h : heightOf n + 2 ≤ d) :
    b.parseSymbolG ownView d n str = liftR (b.parseSymbol n str) ∧ b.parseSymbol n str ≠ .diverge := by
  obtain ⟨h1, h2⟩ := termLoop_own b str n d h b.symbolTerminalTypes none
  unfold Bindings.parseSymbolG Bindings.parseSymbol
  rw [h1]
  cases hp : b.symbolTermLoop n str b.symbolTerminalTypes none with
  | diverge => exact absurd hp h2
  | panic p => exact ⟨rfl, by simp⟩
  | err e => exact ⟨rfl, by simp⟩
  | ok o =>
    cases o with
    | some res => exact ⟨rfl, by simp⟩
    | none =>
      simp only [liftR_ok, pure_bind, Res.ok_bind]
      rw [trav_own (k := 2) b (f := doOnNonTerminalName str) ?_ n d _ h]
      · have key : nodeNameG ownView n str = liftE (nodeName n str) := slice_own _ _
        rw [key]
        generalize b.lrTraverse n b.symbolNonTerminalType (doOnNonTerminalName str) none = r
        rcases r with p | ⟨res', _ | e⟩
        · exact ⟨rfl, by simp⟩
        · simp only [liftE_ok, pure_bind]
          cases nodeName n str <;> exact ⟨rfl, by simp⟩
        · simp only [liftE_ok, pure_bind]
          cases e <;> simp only <;> first | exact ⟨rfl, by simp⟩ | (cases nodeName n str <;> exact ⟨rfl, by simp⟩)
      · intro d n s _
        unfold doOnNonTerminalNameG doOnNonTerminalName
        have key : nodeNameG ownView n str = liftE (nodeName n str) := slice_own _ _
        rw [key]
        cases nodeName n str <;> rfl

theorem sequence_own (b : Bindings) (str : Str) (n : Node) (d : Nat) (h : heightOf n + 3 ≤ d) :
    b.parseSequenceG ownView d n str = liftR (b.parseSequence n str) ∧ b.parseSequence n str ≠ .diverge := by
  unfold Bindings.parseSequenceG Bindings.parseSequence
  rw [trav_own (k := 3) b (f := b.doOnSymbol str) ?_ n d _ h]
  · generalize b.lrTraverse n b.sequencesSymbolType (b.doOnSymbol str) [] = r
    rcases r with p | ⟨res, _ | e⟩ <;> exact ⟨rfl, by simp⟩
  · intro d n s hd
    unfold Bindings.doOnSymbolG Bindings.doOnSymbol
    obtain ⟨h1, h2⟩ := symbol_own b str n d (by omega)
    rw [h1]
    cases hp : b.parseSymbol n str with
    | diverge => exact absurd hp h2
    | ok o => cases o <;> rfl
    | _ => rfl

theorem substitution_own (b : Bindings) (str : Str) (n : Node) (d : Nat) (h : heightOf n + 4 ≤ d) :
    b.parseSubstitutionG ownView d n str = liftR (b.parseSubstitution n str) ∧ b.parseSubstitution n str ≠ .diverge := by
  unfold Bindings.parseSubstitutionG Bindings.parseSubstitution
  rw [trav_own (k := 4) b (f := b.doOnSequence str) ?_ n d _ h]
  · generalize b.lrTraverse n b.expressionSequencesType (b.doOnSequence str) [] = r
    rcases r with p | ⟨res, _ | e⟩ <;> exact ⟨rfl, by simp⟩
  · intro d n s hd
    unfold Bindings.doOnSequenceG Bindings.doOnSequence
    obtain ⟨h1, h2⟩ := sequence_own b str n d (by omega)
    rw [h1]
    cases hp : b.parseSequence n str with
    | diverge => exact absurd hp h2
    | _ => rfl

theorem rule_own (b : Bindings) (str : Str) (n : Node) (d : Nat) (h : heightOf n + 5 ≤ d) :
    b.parseRuleG ownView d n str = liftR (b.parseRule n str) ∧ b.parseRule n str ≠ .diverge := by
  have key : nodeNameG ownView n str = liftE (nodeName n str) := slice_own _ _
  unfold Bindings.parseRuleG Bindings.parseRule
  rw [trav_own (k := 5) b (f := doOnHead str) ?_ n d _ h, key]
  · generalize b.lrTraverse n b.ruleHeadType (doOnHead str) [] = r
    have hbad : ∀ t : Str → Err, (liftE (nodeName n str) >>= fun x => pure (.error (t x)) : D (Except Err Rule)) =
        liftR (match nodeName n str with | .error p => .panic p | .ok x => .err (t x)) := by
      intro t; cases nodeName n str <;> rfl
    have hne : ∀ t : Str → Err, (match nodeName n str with | .error p => Res.panic p | .ok x => .err (t x) : R Rule) ≠
        .diverge := by intro t; cases nodeName n str <;> simp
    rcases r with p | ⟨head, _ | e⟩
    · exact ⟨rfl, by simp⟩
    · exact ⟨hbad _, hne _⟩
    · cases e with
      | searchComplete =>
        simp only [liftE_ok, pure_bind]
        rw [trav_own (k := 5) b (f := b.doOnSubstitution str) ?_ n d _ h]
        · generalize b.lrTraverse n b.ruleTailType (b.doOnSubstitution str) ⟨[]⟩ = r
          rcases r with p | ⟨tail, _ | e⟩
          · exact ⟨rfl, by simp⟩
          · exact ⟨hbad _, hne _⟩
          · cases e <;> exact ⟨rfl, by simp⟩
        · intro d n s hd
          unfold Bindings.doOnSubstitutionG Bindings.doOnSubstitution
          obtain ⟨h1, h2⟩ := substitution_own b str n d (by omega)
          rw [h1]
          cases hp : b.parseSubstitution n str with
          | diverge => exact absurd hp h2
          | _ => rfl
      | _ => exact ⟨hbad _, hne _⟩
  · intro d n s _
    unfold doOnHeadG doOnHead
    have key : nodeNameG ownView n str = liftE (nodeName n str) := slice_own _ _
    rw [key]
    cases nodeName n str <;> rfl

theorem body_own (b : Bindings) (str : Str) (n : Node) (d : Nat) (h : heightOf n + 6 ≤ d) :
    b.toASTBodyG ownView d (some n) str = asD (b.toASTBody n str) ∧ b.toASTBody n str ≠ .diverge := by
  unfold Bindings.toASTBodyG Bindings.toASTBody
  rw [trav_own (k := 6) b (f := b.doOnRule str) ?_ n d _ h]
  · generalize b.lrTraverse n b.ruleType (b.doOnRule str) [] = r
    rcases r with p | ⟨res, _ | e⟩ <;> exact ⟨rfl, by simp⟩
  · intro d n s hd
    unfold Bindings.doOnRuleG Bindings.doOnRule
    obtain ⟨h1, h2⟩ := rule_own b str n d (by omega)
    rw [h1]
    cases hp : b.parseRule n str with
    | diverge => exact absurd hp h2
    | _ => rfl

theorem toASTG_own (b : Bindings) (str : Str) (n : Node) (d : Nat) (h : heightOf n + 6 ≤ d) :
    b.toASTG ownView d (some n) str = asD (b.toAST n str) ∧ b.toAST n str ≠ .diverge := body_own _ str n d h

end FC
end LL1
