import Verif.Spec.ToAstRaces
import Verif.Proofs.FromCst

/-!
# Lemmas for C83
-/

namespace LL1
namespace FC

/-! ## Reading -/

/-- The result of a reading computation on memory nobody changes. -/
def Query.eval {α : Type} (mem : Mem) : Query α → α
  | .ret a => a
  | .read i k => (k (mem i)).eval mem

@[simp] theorem eval_pure {α : Type} (mem : Mem) (a : α) : (pure a : Query α).eval mem = a := rfl
@[simp] theorem eval_ret {α : Type} (mem : Mem) (a : α) : (Query.ret a).eval mem = a := rfl
@[simp] theorem eval_read {α : Type} (mem : Mem) (i : Nat) (k : Int → Query α) :
    (Query.read i k).eval mem = (k (mem i)).eval mem := rfl

@[simp] theorem eval_bind {α β : Type} (mem : Mem) (q : Query α) (f : α → Query β) :
    (q >>= f).eval mem = (f (q.eval mem)).eval mem := by
  show (Query.bind q f).eval mem = _
  induction q with
  | ret a => rfl
  | read i k ih => exact ih _

theorem list_get (mem : Mem) (n i : Nat) : (mem.list n)[i]? = if i < n then some (mem i) else none := by
  unfold Mem.list
  split
  · next h => simp [h]
  · next h => simp; omega

theorem list_length (mem : Mem) (n : Nat) : (mem.list n).length = n := by simp [Mem.list]

theorem searchLoopQ_eval (mem : Mem) (n : Nat) (x : Int) (fuel i j : Nat) (hj : j ≤ n) :
    (searchLoopQ x fuel i j).eval mem =
      searchLoop (fun h => match (mem.list n)[h]? with | some y => decide (y ≥ x) | none => false) fuel i j := by
  simp only [list_get]
  induction fuel generalizing i j with
  | zero => rfl
  | succ fuel ih =>
    unfold searchLoopQ searchLoop
    split
    · next h =>
      have hh : (i + j) / 2 < n := by omega
      simp only [eval_read, hh, if_true]
      split
      · exact ih _ _ hj
      · exact ih _ _ (by omega)
    · rfl

theorem isNodeIgnoredQ_eval (mem : Mem) (n : Nat) (b : Bindings) (t : Int) :
    (isNodeIgnoredQ n t).eval mem = ({ b with ignoreNodeTypes := mem.list n } : Bindings).isNodeIgnored t := by
  have key : ∀ sr : Nat, (if sr < n then Query.read sr fun y => Query.ret (decide (y = t)) else pure false).eval mem =
      if h : sr < (mem.list n).length then decide ((mem.list n)[sr] = t) else false := by
    intro sr
    by_cases h : sr < n
    · rw [if_pos h]
      have h' := list_get mem n sr
      rw [if_pos h, List.getElem?_eq_some_iff] at h'
      obtain ⟨h1, h2⟩ := h'
      rw [dif_pos h1, eval_read, eval_ret, h2]
    · rw [if_neg h, dif_neg (by rwa [list_length])]
      rfl
  unfold isNodeIgnoredQ Bindings.isNodeIgnored
  have e : searchInts (mem.list n) t = (searchLoopQ t n 0 n).eval mem := by
    rw [searchLoopQ_eval mem n t n 0 n (Nat.le_refl _)]
    unfold searchInts
    rw [list_length]
    rfl
  rw [eval_bind, ← e, key]

section
variable {σ : Type} (mem : Mem) (igQ : Int → Query Bool) (ig sr : Int → Bool) (hig : ∀ t, (igQ t).eval mem = ig t)
  (fQ : OnNodeQ σ) (f : OnNode σ) (hf : ∀ n s, (fQ n s).eval mem = f n s)
include hig hf

theorem flexVisitQ_eval (n : Node) (s : σ × Option Err) :
    (flexVisitor ig sr f).visit () n s =
      match (flexVisitQ igQ sr fQ n s).eval mem with
      | .error p => .error p
      | .ok (s', b) => .ok (s', if b then some () else none) := by
  unfold flexVisitor flexVisitQ
  dsimp only
  split
  · rfl
  · rw [eval_bind, hig]
    split
    · rfl
    · split
      · rw [eval_bind, hf]
        cases f n s.1 with
        | error p => rfl
        | ok r => rfl
      · rfl

mutual
theorem walkQ_eval : ∀ (n : Node) (s : σ × Option Err),
    (walkQ (flexVisitQ igQ sr fQ) n s).eval mem = walk (flexVisitor ig sr f) () n s
  | .mk t p e cs, s => by
    rw [walkQ, walk, flexVisitQ_eval mem igQ ig sr hig fQ f hf, eval_bind]
    rcases (flexVisitQ igQ sr fQ (.mk t p e cs) s).eval mem with x | ⟨s', b⟩
    · rfl
    · cases b with
      | false => rfl
      | true => exact walkListQ_eval cs s'
theorem walkListQ_eval : ∀ (ns : List Node) (s : σ × Option Err),
    (walkListQ (flexVisitQ igQ sr fQ) ns s).eval mem = walkList (flexVisitor ig sr f) () ns s
  | [], _ => by rw [walkListQ, walkList]; rfl
  | n :: ns, s => by
    rw [walkListQ, walkList, ← walkQ_eval n s, eval_bind]
    rcases (walkQ (flexVisitQ igQ sr fQ) n s).eval mem with x | s'
    · rfl
    · exact walkListQ_eval ns s'
end

theorem lrTraverseQ_eval (root : Node) (s : σ) :
    (lrTraverseQ root igQ sr fQ s).eval mem = FC.lrTraverse root ig sr f s :=
  walkQ_eval mem igQ ig sr hig fQ f hf root _
end

section
variable (mem : Mem) (n : Nat) (b : Bindings) (str : Str)

/-- The bindings with the contents of the slice. -/
abbrev withList : Bindings := { b with ignoreNodeTypes := mem.list n }

theorem lrTraverseB_eval {σ : Type} (fQ : OnNodeQ σ) (f : OnNode σ) (hf : ∀ n s, (fQ n s).eval mem = f n s) (root : Node)
    (ty : Int) (s : σ) : (lrTraverseB n root ty fQ s).eval mem = (withList mem n b).lrTraverse root ty f s :=
  lrTraverseQ_eval mem _ _ _ (isNodeIgnoredQ_eval mem n b) fQ f hf root s

theorem parseEscapeQ_eval (x : Node) : (b.parseEscapeQ n x str).eval mem = (withList mem n b).parseEscape x str := by
  unfold Bindings.parseEscapeQ Bindings.parseEscape
  rw [eval_bind, lrTraverseB_eval mem n b _ ((withList mem n b).doOnEscapedChar str) (fun _ _ => rfl)]
  rfl

theorem onTerminalPartQ_eval (x : Node) (s : Str) :
    (b.onTerminalPartQ n str x s).eval mem = (withList mem n b).onTerminalPart str x s := by
  unfold Bindings.onTerminalPartQ Bindings.onTerminalPart
  split
  · rfl
  · rw [eval_bind, parseEscapeQ_eval]; rfl

theorem parseTerminalNameQ_eval (x : Node) :
    (b.parseTerminalNameQ n x str).eval mem = (withList mem n b).parseTerminalName x str := by
  unfold Bindings.parseTerminalNameQ Bindings.parseTerminalName
  rw [eval_bind, lrTraverseQ_eval mem _ (fun _ => false) _ (fun _ => rfl) _ _ (onTerminalPartQ_eval mem n b str)]
  rfl

theorem doOnTerminalNameQ_eval (x : Node) (s : Option Symbol) :
    (b.doOnTerminalNameQ n str x s).eval mem = (withList mem n b).doOnTerminalName str x s := by
  unfold Bindings.doOnTerminalNameQ Bindings.doOnTerminalName
  rw [eval_bind, parseTerminalNameQ_eval]; rfl

theorem symbolTermLoopQ_eval (x : Node) (ts : List Int) (res : Option Symbol) :
    (b.symbolTermLoopQ n x str ts res).eval mem = (withList mem n b).symbolTermLoop x str ts res := by
  induction ts generalizing res with
  | nil => rfl
  | cons t ts ih =>
    unfold Bindings.symbolTermLoopQ Bindings.symbolTermLoop
    rw [eval_bind, lrTraverseB_eval mem n b _ _ (doOnTerminalNameQ_eval mem n b str)]
    rcases (withList mem n b).lrTraverse x t ((withList mem n b).doOnTerminalName str) res with p | ⟨r, _ | e⟩
    · rfl
    · exact ih r
    · cases e <;> rfl

theorem parseSymbolQ_eval (x : Node) : (b.parseSymbolQ n x str).eval mem = (withList mem n b).parseSymbol x str := by
  unfold Bindings.parseSymbolQ Bindings.parseSymbol
  rw [eval_bind, symbolTermLoopQ_eval]
  show Query.eval mem (match (withList mem n b).symbolTermLoop x str b.symbolTerminalTypes none with | _ => _) = _
  rcases (withList mem n b).symbolTermLoop x str b.symbolTerminalTypes none with (_ | r) | _ | _ | _
  · simp only [Res.ok_bind, eval_bind]
    rw [lrTraverseB_eval mem n b _ (doOnNonTerminalName str) (fun _ _ => rfl)]
    rcases (withList mem n b).lrTraverse x b.symbolNonTerminalType (doOnNonTerminalName str) none with p | ⟨r, _ | e⟩
    · rfl
    · rfl
    · cases e <;> rfl
  all_goals rfl

theorem doOnSymbolQ_eval (x : Node) (s : List Symbol) :
    (b.doOnSymbolQ n str x s).eval mem = (withList mem n b).doOnSymbol str x s := by
  unfold Bindings.doOnSymbolQ Bindings.doOnSymbol
  rw [eval_bind, parseSymbolQ_eval]; rfl

theorem parseSequenceQ_eval (x : Node) : (b.parseSequenceQ n x str).eval mem = (withList mem n b).parseSequence x str := by
  unfold Bindings.parseSequenceQ Bindings.parseSequence
  rw [eval_bind, lrTraverseB_eval mem n b _ _ (doOnSymbolQ_eval mem n b str)]; rfl

theorem doOnSequenceQ_eval (x : Node) (s : List Sequence) :
    (b.doOnSequenceQ n str x s).eval mem = (withList mem n b).doOnSequence str x s := by
  unfold Bindings.doOnSequenceQ Bindings.doOnSequence
  rw [eval_bind, parseSequenceQ_eval]; rfl

theorem parseSubstitutionQ_eval (x : Node) :
    (b.parseSubstitutionQ n x str).eval mem = (withList mem n b).parseSubstitution x str := by
  unfold Bindings.parseSubstitutionQ Bindings.parseSubstitution
  rw [eval_bind, lrTraverseB_eval mem n b _ _ (doOnSequenceQ_eval mem n b str)]; rfl

theorem doOnSubstitutionQ_eval (x : Node) (s : Substitution) :
    (b.doOnSubstitutionQ n str x s).eval mem = (withList mem n b).doOnSubstitution str x s := by
  unfold Bindings.doOnSubstitutionQ Bindings.doOnSubstitution
  rw [eval_bind, parseSubstitutionQ_eval]; rfl

theorem parseRuleQ_eval (x : Node) : (b.parseRuleQ n x str).eval mem = (withList mem n b).parseRule x str := by
  unfold Bindings.parseRuleQ Bindings.parseRule
  rw [eval_bind, lrTraverseB_eval mem n b _ (doOnHead str) (fun _ _ => rfl)]
  rcases (withList mem n b).lrTraverse x b.ruleHeadType (doOnHead str) [] with p | ⟨r, _ | e⟩
  · rfl
  · rfl
  · cases e with
    | searchComplete =>
      simp only [eval_bind]
      rw [lrTraverseB_eval mem n b _ _ (doOnSubstitutionQ_eval mem n b str)]; rfl
    | _ => rfl

theorem doOnRuleQ_eval (x : Node) (s : List Rule) :
    (b.doOnRuleQ n str x s).eval mem = (withList mem n b).doOnRule str x s := by
  unfold Bindings.doOnRuleQ Bindings.doOnRule
  rw [eval_bind, parseRuleQ_eval]; rfl

theorem toASTBodyQ_eval (x : Node) : (b.toASTBodyQ n x str).eval mem = (withList mem n b).toASTBody x str := by
  unfold Bindings.toASTBodyQ Bindings.toASTBody
  rw [eval_bind, lrTraverseB_eval mem n b _ _ (doOnRuleQ_eval mem n b str)]; rfl
end

/-! ## Programs -/

section
variable {α β : Type}

theorem run_bind (p : Prog α) (f : α → Prog β) (mem : Mem) :
    (p >>= f).run mem = (f (p.run mem).2).run (p.run mem).1 := by
  show (Prog.bind p f).run mem = _
  induction p generalizing mem with
  | ret a => rfl
  | read i k ih => exact ih _ mem
  | write i x k ih => exact ih _

theorem toProg_run (q : Query α) (mem : Mem) : q.toProg.run mem = (mem, q.eval mem) := by
  induction q with
  | ret a => rfl
  | read i k ih => exact ih _

theorem toProg_quiet (q : Query α) (mem : Mem) : q.toProg.Quiet mem := by
  induction q with
  | ret a => trivial
  | read i k ih => exact ih _

theorem quiet_run {p : Prog α} {mem : Mem} (h : p.Quiet mem) : (p.run mem).1 = mem := by
  induction p with
  | ret a => rfl
  | read i k ih => exact ih _ h
  | write i x k => exact h.elim

theorem quiet_bind {p : Prog α} {f : α → Prog β} {mem : Mem} (h : p.Quiet mem) (hf : ∀ a, (f a).Quiet mem) :
    (p >>= f).Quiet mem := by
  show (Prog.bind p f).Quiet mem
  induction p with
  | ret a => exact hf a
  | read i k ih => exact ih _ h
  | write i x k => exact h.elim

/-- Number of steps of the program alone on memory nobody changes. -/
def Prog.len (mem : Mem) : Prog α → Nat
  | .ret _ => 0
  | .read i k => (k (mem i)).len mem + 1
  | .write _ _ k => k.len mem + 1

/-- Steps of the program when nobody else moves. -/
def Prog.steps (mem : Mem) : Nat → Prog α → Mem × Prog α
  | 0, p => (mem, p)
  | c + 1, p => Prog.steps (p.step mem).1 c (p.step mem).2

/-- A program that writes something comes to its first write without changing memory. -/
theorem steps_to_write {p : Prog α} {mem : Mem} (h : ¬ p.Quiet mem) :
    ∃ c a x k, ∀ {β : Type} (f : α → Prog β), Prog.steps mem c (p >>= f) = (mem, .write a x (k >>= f)) := by
  induction p with
  | ret a => exact (h trivial).elim
  | read i k ih =>
    obtain ⟨c, a, x, k', hc⟩ := ih (mem i) h
    exact ⟨c + 1, a, x, k', fun f => hc f⟩
  | write i x k => exact ⟨0, i, x, k, fun f => rfl⟩

end

/-! ## Insertion sort -/

/-- Ascending, by indices. -/
def Asc (mem : Mem) (n : Nat) : Prop := ∀ a b, a < b → b < n → mem a ≤ mem b

theorem ascending_iff (mem : Mem) (n : Nat) : mem.Ascending n ↔ Asc mem n := by
  unfold Mem.Ascending Asc
  rw [List.pairwise_iff_getElem]
  simp only [list_length]
  constructor
  · intro h a b hab hb
    have := h a b (by omega) hb hab
    simpa [Mem.list] using this
  · intro h a b ha hb hab
    have := h a b hab hb
    simpa [Mem.list] using this

theorem less_run (i j : Nat) (mem : Mem) : (less i j).run mem = (mem, decide (mem i < mem j)) := rfl

theorem swap_run (i j : Nat) (mem : Mem) :
    (swap i j).run mem = ((fun m => if m = j then mem i else if m = i then mem j else mem m), ()) := rfl

theorem list_swap (mem : Mem) (n i j : Nat) (hi : i < n) (hj : j < n) :
    Mem.list (fun m => if m = j then mem i else if m = i then mem j else mem m) n |>.Perm (mem.list n) := by
  have h1 : (fun m => if m = j then mem i else if m = i then mem j else mem m) =
      mem ∘ fun m => if m = j then i else if m = i then j else m := by
    funext m
    simp only [Function.comp]
    split
    · rfl
    · split <;> rfl
  unfold Mem.list
  rw [h1, ← List.map_map]
  refine List.Perm.map _ ?_
  refine (List.perm_ext_iff_of_nodup ?_ List.nodup_range).2 ?_
  · rw [List.nodup_iff_pairwise_ne, List.pairwise_map]
    refine List.Pairwise.imp ?_ (List.nodup_iff_pairwise_ne.1 (List.nodup_range (n := n)))
    intro a b hab
    repeat' split
    all_goals omega
  · intro a
    simp only [List.mem_map, List.mem_range]
    constructor
    · rintro ⟨m, hm, rfl⟩
      repeat' split
      all_goals omega
    · intro ha
      refine ⟨if a = j then i else if a = i then j else a, ?_, ?_⟩
      · repeat' split
        all_goals omega
      · repeat' split
        all_goals omega

theorem siftDown_spec (n i : Nat) (hi : i < n) : ∀ (j : Nat) (mem : Mem), j ≤ i →
    (∀ a b, a < b → b ≤ i → a ≠ j → b ≠ j → mem a ≤ mem b) → (∀ b, j < b → b ≤ i → mem j ≤ mem b) →
    Asc ((siftDown j).run mem).1 (i + 1) ∧ (((siftDown j).run mem).1.list n).Perm (mem.list n) ∧
    ∀ m, i < m → ((siftDown j).run mem).1 m = mem m := by
  intro j
  induction j with
  | zero =>
    intro mem _ h1 h2
    refine ⟨?_, List.Perm.refl _, fun _ _ => rfl⟩
    intro a b hab hb
    by_cases ha : a = 0
    · subst ha; exact h2 b hab (by omega)
    · exact h1 a b hab (by omega) ha (by omega)
  | succ j ih =>
    intro mem hj h1 h2
    rw [siftDown, run_bind, less_run]
    dsimp only
    by_cases hlt : mem (j + 1) < mem j
    · rw [if_pos (by simpa using hlt), run_bind, swap_run]
      dsimp only
      generalize hm' : (fun m => if m = j then mem (j + 1) else if m = j + 1 then mem j else mem m : Mem) = mem'
      have e1 : mem' j = mem (j + 1) := by rw [← hm']; simp
      have e2 : mem' (j + 1) = mem j := by rw [← hm']; simp
      have e3 : ∀ m, m ≠ j → m ≠ j + 1 → mem' m = mem m := by
        intro m h h'
        rw [← hm']; simp [h, h']
      obtain ⟨p1, p2, p3⟩ := ih mem' (by omega) (fun a b hab hb ha hbj => by
        by_cases ha1 : a = j + 1
        · subst ha1
          rw [e2, e3 b hbj (by omega)]
          exact h1 j b (by omega) hb (by omega) (by omega)
        · by_cases hb1 : b = j + 1
          · subst hb1
            rw [e2, e3 a ha ha1]
            exact h1 a j (by omega) (by omega) ha1 (by omega)
          · rw [e3 a ha ha1, e3 b hbj hb1]
            exact h1 a b hab hb ha1 hb1) (fun b hb hbi => by
        rw [e1]
        by_cases hb1 : b = j + 1
        · subst hb1; rw [e2]; omega
        · rw [e3 b (by omega) hb1]; exact h2 b (by omega) hbi)
      refine ⟨p1, p2.trans ?_, fun m hm => ?_⟩
      · rw [← hm']; exact list_swap mem n (j + 1) j (by omega) (by omega)
      · rw [p3 m hm]; exact e3 m (by omega) (by omega)
    · rw [if_neg (by simpa using hlt)]
      refine ⟨?_, List.Perm.refl _, fun _ _ => rfl⟩
      show Asc mem (i + 1)
      intro a b hab hb
      by_cases ha : a = j + 1
      · subst ha; exact h2 b hab (by omega)
      · by_cases hbj : b = j + 1
        · subst hbj
          by_cases haj : a = j
          · subst haj; omega
          · have := h1 a j (by omega) (by omega) ha (by omega)
            omega
        · exact h1 a b hab (by omega) ha hbj

theorem insertionLoop_spec (n : Nat) : ∀ (k i : Nat) (mem : Mem), i + k ≤ n → Asc mem i →
    Asc ((insertionLoop k i).run mem).1 (i + k) ∧ (((insertionLoop k i).run mem).1.list n).Perm (mem.list n) ∧
    ∀ m, i + k ≤ m → ((insertionLoop k i).run mem).1 m = mem m := by
  intro k
  induction k with
  | zero => intro i mem _ h; exact ⟨h, List.Perm.refl _, fun _ _ => rfl⟩
  | succ k ih =>
    intro i mem hn h
    rw [insertionLoop, run_bind]
    obtain ⟨p1, p2, p3⟩ := siftDown_spec n i (by omega) i mem (Nat.le_refl _)
      (fun a b hab hb _ hbi => h a b hab (by omega)) (fun b hb hbi => by omega)
    obtain ⟨q1, q2, q3⟩ := ih (i + 1) ((siftDown i).run mem).1 (by omega) p1
    have e : i + 1 + k = i + (k + 1) := by omega
    rw [e] at q1 q3
    refine ⟨q1, q2.trans p2, fun m hm => ?_⟩
    rw [q3 m hm, p3 m (by omega)]

theorem siftDown_quiet {mem : Mem} {i : Nat} (h : Asc mem (i + 1)) : ∀ j, j ≤ i → (siftDown j).Quiet mem := by
  intro j hj
  cases j with
  | zero => trivial
  | succ j =>
    have := h j (j + 1) (by omega) (by omega)
    show Prog.Quiet mem (if decide (mem (j + 1) < mem j) = true then _ else _)
    rw [if_neg (by simp; omega)]
    trivial

theorem insertionLoop_quiet {mem : Mem} : ∀ (k i : Nat), Asc mem (i + k) → (insertionLoop k i).Quiet mem := by
  intro k
  induction k with
  | zero => intro i _; trivial
  | succ k ih =>
    intro i h
    rw [insertionLoop]
    refine quiet_bind (siftDown_quiet (i := i) (fun a b hab hb => h a b hab (by omega)) i (Nat.le_refl _)) fun _ => ?_
    exact ih (i + 1) (by rwa [show i + 1 + k = i + (k + 1) by omega])

theorem insertionSort_sorts : Sorts insertionSort := by
  have key : ∀ n mem, Asc ((insertionSort n).run mem).1 n ∧ (((insertionSort n).run mem).1.list n).Perm (mem.list n) ∧
      ∀ m, n ≤ m → ((insertionSort n).run mem).1 m = mem m := by
    intro n mem
    unfold insertionSort
    by_cases hn : n = 0
    · subst hn
      exact ⟨fun a b _ hb => by omega, List.Perm.refl _, fun _ _ => rfl⟩
    · obtain ⟨p1, p2, p3⟩ := insertionLoop_spec n (n - 1) 1 mem (by omega) (fun a b _ hb => by omega)
      have e : 1 + (n - 1) = n := by omega
      rw [e] at p1 p3
      exact ⟨p1, p2, p3⟩
  refine ⟨fun n mem => (ascending_iff _ _).2 (key n mem).1, fun n mem => (key n mem).2.1, fun n mem i hi => (key n mem).2.2 i hi, ?_⟩
  intro n mem h
  rw [ascending_iff] at h
  exact insertionLoop_quiet _ _ (fun a b hab hb => h a b hab (by omega))

end FC
end LL1
