import Verif.Spec.Rename
import Verif.Proofs.TableFirst

/-!
# `FromGrammar` does not look at names
-/

namespace LL1
namespace TG

/-- A result about the renamed grammar. -/
def mapErr {α : Type} (ρ : Str → Str) : R α → R α
  | .ok a => .ok a
  | .err e => .err (e.rename ρ)
  | .panic p => .panic p
  | .diverge => .diverge

section
variable {ρ : Str → Str} {α β : Type}

@[simp] theorem mapErr_ok (a : α) : mapErr ρ (.ok a : R α) = .ok a := rfl
@[simp] theorem mapErr_panic (p : Panic) : mapErr ρ (.panic p : R α) = .panic p := rfl
@[simp] theorem mapErr_err (e : Err) : mapErr ρ (.err e : R α) = .err (e.rename ρ) := rfl
@[simp] theorem mapErr_diverge : mapErr ρ (.diverge : R α) = .diverge := rfl
@[simp] theorem mapErr_pure (a : α) : mapErr ρ (pure a : R α) = .ok a := rfl

theorem mapErr_bind (x : R α) (f : α → R β) : mapErr ρ (x >>= f) = (mapErr ρ x >>= fun a => mapErr ρ (f a)) := by
  cases x <;> rfl

theorem mapErr_idx (xs : List α) (i : Nat) : mapErr ρ (idx xs i) = idx xs i := by
  unfold idx; cases xs[i]? <;> rfl

theorem mapErr_setIdx (xs : List α) (i : Nat) (a : α) : mapErr ρ (setIdx xs i a) = setIdx xs i a := by
  unfold setIdx; split <;> rfl

theorem mapErr_bytesOf (s : ByteSet) : mapErr ρ (bytesOf s) = bytesOf s := by
  unfold bytesOf; cases s.bytes <;> rfl

theorem mapErr_terminalFirsts (s : Str) : mapErr ρ (terminalFirsts s) = terminalFirsts s := by
  cases s <;> rfl

theorem mapErr_forEach {σ : Type} {f f' : Nat → σ → R σ} (h : ∀ i s, f' i s = mapErr ρ (f i s)) :
    ∀ (is : List Nat) (s : σ), forEach f' is s = mapErr ρ (forEach f is s)
  | [], s => rfl
  | i :: is, s => by
    rw [forEach, forEach, mapErr_bind, h]
    congr 1
    funext s'
    exact mapErr_forEach h is s'

end

/-- `tg'` is the generator of the renamed grammar. -/
structure Renamed (ρ : Str → Str) (tg tg' : Gen) : Prop where
  inj : ∀ a b, ρ a = ρ b → a = b
  g : tg'.g = tg.g.rename ρ
  count : tg'.ruleCount = tg.ruleCount
  map : ∀ name, tg'.ruleMap.get (ρ name) = tg.ruleMap.get name

section
variable {ρ : Str → Str} {tg tg' : Gen} (h : Renamed ρ tg tg')
include h

theorem Renamed.rules (i : Nat) : idx tg'.g.rules i = (idx tg.g.rules i >>= fun r =>
    .ok ⟨ρ r.head, ⟨r.tail.sequences.map fun s => ⟨s.symbols.map (Symbol.rename ρ)⟩⟩⟩) := by
  rw [h.g]
  unfold idx Grammar.rename
  rw [List.getElem?_map]
  cases tg.g.rules[i]? <;> rfl

theorem Renamed.length : tg'.g.rules.length = tg.g.rules.length := by
  rw [h.g]; simp [Grammar.rename]

theorem Renamed.sequenceFirstsLoop (firsts : List ByteSet) (n : Nat) : ∀ (syms : List Symbol) (res : ByteSet) (e : Bool),
    sequenceFirstsLoop tg' firsts n (syms.map (Symbol.rename ρ)) res e =
      mapErr ρ (sequenceFirstsLoop tg firsts n syms res e)
  | [], res, e => rfl
  | .terminal name :: rest, res, e => by
    simp only [List.map_cons, Symbol.rename, TG.sequenceFirstsLoop, mapErr_bind, mapErr_terminalFirsts, mapErr_ok,
      Res.pure_eq]
  | .nothing :: rest, res, e => by
    simp only [List.map_cons, Symbol.rename, TG.sequenceFirstsLoop]
    split <;> rfl
  | .nonTerminal name :: rest, res, e => by
    simp only [List.map_cons, Symbol.rename, TG.sequenceFirstsLoop, h.map]
    cases tg.ruleMap.get name with
    | none => rfl
    | some i =>
      simp only [mapErr_bind, mapErr_idx]
      congr 1
      funext rf
      split
      · rfl
      · exact Renamed.sequenceFirstsLoop firsts n rest _ _

theorem Renamed.sequenceFirsts (firsts : List ByteSet) (s : Sequence) :
    sequenceFirsts tg' firsts ⟨s.symbols.map (Symbol.rename ρ)⟩ = mapErr ρ (sequenceFirsts tg firsts s) := by
  unfold TG.sequenceFirsts
  simp only [List.length_map]
  exact h.sequenceFirstsLoop firsts _ _ _ _

theorem Renamed.substitutionFirstsLoop (firsts : List ByteSet) : ∀ (ss : List Sequence) (res : ByteSet),
    substitutionFirstsLoop tg' firsts (ss.map fun s => ⟨s.symbols.map (Symbol.rename ρ)⟩) res =
      mapErr ρ (substitutionFirstsLoop tg firsts ss res)
  | [], res => rfl
  | s :: ss, res => by
    simp only [List.map_cons, TG.substitutionFirstsLoop, mapErr_bind, h.sequenceFirsts]
    congr 1
    funext sf
    exact Renamed.substitutionFirstsLoop firsts ss _

theorem Renamed.ruleFirsts (i : Nat) (st : List ByteSet × Bool) :
    ruleFirsts tg' i st = mapErr ρ (ruleFirsts tg i st) := by
  unfold TG.ruleFirsts
  rw [h.count]
  split
  · rfl
  · rw [h.rules, mapErr_bind, mapErr_idx]
    cases idx tg.g.rules i with
    | ok r =>
      simp only [Res.ok_bind, TG.substitutionFirsts, h.substitutionFirstsLoop, mapErr_bind, mapErr_idx]
      congr 1
      funext t
      congr 1
      funext cur
      split
      · rfl
      · simp only [mapErr_bind, mapErr_setIdx, mapErr_ok, Res.pure_eq]
    | err e => rfl
    | panic p => rfl
    | diverge => rfl

theorem Renamed.findFirstsLoop : ∀ (fuel : Nat) (firsts : List ByteSet),
    findFirstsLoop tg' fuel firsts = mapErr ρ (findFirstsLoop tg fuel firsts)
  | 0, _ => rfl
  | fuel + 1, firsts => by
    simp only [TG.findFirstsLoop, mapErr_bind, firstsPass, h.length, mapErr_forEach h.ruleFirsts]
    congr 1
    funext ⟨f, c⟩
    simp only []
    split
    · exact Renamed.findFirstsLoop fuel f
    · rfl

theorem Renamed.findFirsts (firsts : List ByteSet) : findFirsts tg' firsts = mapErr ρ (findFirsts tg firsts) := by
  unfold TG.findFirsts
  rw [h.count]
  exact h.findFirstsLoop _ _

theorem Renamed.symbolFirsts (firsts : List ByteSet) (y : Symbol) :
    symbolFirsts tg' firsts (y.rename ρ) = mapErr ρ (symbolFirsts tg firsts y) := by
  cases y with
  | terminal name =>
    simp only [Symbol.rename, TG.symbolFirsts]
    split
    · rfl
    · rw [mapErr_terminalFirsts]
  | nothing => rfl
  | nonTerminal name =>
    simp only [Symbol.rename, TG.symbolFirsts, h.map]
    cases tg.ruleMap.get name with
    | none => rfl
    | some i => simp only [mapErr_idx]

omit h in
theorem mapErr_addFollows (i : Nat) (set : ByteSet) (st : FState) :
    mapErr ρ (addFollows i set st) = addFollows i set st := by
  unfold addFollows
  rw [mapErr_bind, mapErr_idx]
  congr 1
  funext cur
  split
  · rfl
  · simp only [mapErr_bind, mapErr_setIdx, mapErr_ok, Res.pure_eq]

theorem Renamed.followsLast (i j : Nat) (head : Str) (last : Symbol) (st : FState) :
    followsLast i j (ρ head) (last.rename ρ) st = mapErr ρ (followsLast i j head last st) := by
  unfold TG.followsLast
  split
  · cases last with
    | terminal _ => rfl
    | nothing => rfl
    | nonTerminal name =>
      simp only [Symbol.rename]
      by_cases hn : name = head
      · subst hn
        simp only [ne_eq, not_true, if_false, mapErr_bind, mapErr_idx, mapErr_addFollows]
      · have : ρ name ≠ ρ head := fun he => hn (h.inj _ _ he)
        simp only [ne_eq, hn, this, not_false_eq_true, if_true, mapErr_ok]
  · rfl

omit h in
theorem mapErr_innerNull (i j : Nat) (nf : ByteSet) (st : FState) :
    mapErr ρ (innerNull i j nf st) = innerNull i j nf st := by
  unfold innerNull
  split
  · simp only [mapErr_bind, mapErr_idx, mapErr_addFollows, mapErr_ok, Res.pure_eq]
  · rfl

theorem Renamed.followsInner (firsts : List ByteSet) (i j : Nat) (head : Str) (y next : Symbol) (st : FState) :
    followsInner tg' firsts i j (ρ head) (y.rename ρ) (next.rename ρ) st =
      mapErr ρ (followsInner tg firsts i j head y next st) := by
  unfold TG.followsInner
  cases y with
  | terminal _ => rfl
  | nothing => rfl
  | nonTerminal name =>
    rw [show (Symbol.nonTerminal name).rename ρ = .nonTerminal (ρ name) from rfl]
    simp only []
    by_cases hn : name = head
    · subst hn
      simp only [ne_eq, not_true, if_false, mapErr_bind, h.symbolFirsts, mapErr_innerNull, mapErr_addFollows,
        mapErr_ok, Res.pure_eq]
    · have : ρ name ≠ ρ head := fun he => hn (h.inj _ _ he)
      simp only [ne_eq, hn, this, not_false_eq_true, if_true, mapErr_ok]

theorem Renamed.followsInnerLoop (firsts : List ByteSet) (i j : Nat) (head : Str) :
    ∀ (rev : List Symbol) (next : Symbol) (st : FState),
    followsInnerLoop tg' firsts i j (ρ head) (next.rename ρ) (rev.map (Symbol.rename ρ)) st =
      mapErr ρ (followsInnerLoop tg firsts i j head next rev st)
  | [], next, st => rfl
  | y :: rev, next, st => by
    simp only [List.map_cons, TG.followsInnerLoop, mapErr_bind, h.followsInner]
    congr 1
    funext st'
    exact Renamed.followsInnerLoop firsts i j head rev y st'

theorem Renamed.ruleFollowsInSequence (firsts : List ByteSet) (i : Nat) (s : Sequence) (j : Nat) (st : FState) :
    ruleFollowsInSequence tg' firsts i ⟨s.symbols.map (Symbol.rename ρ)⟩ j st =
      mapErr ρ (ruleFollowsInSequence tg firsts i s j st) := by
  unfold TG.ruleFollowsInSequence
  rw [h.rules, mapErr_bind, mapErr_idx]
  cases idx tg.g.rules i with
  | ok r =>
    simp only [Res.ok_bind, ← List.map_reverse]
    cases s.symbols.reverse with
    | nil => rfl
    | cons last rev =>
      simp only [List.map_cons, mapErr_bind, h.followsLast]
      congr 1
      funext ⟨st', ret⟩
      simp only []
      split
      · rfl
      · exact h.followsInnerLoop firsts i j r.head rev last st'
  | err e => rfl
  | panic p => rfl
  | diverge => rfl

theorem Renamed.followsSequences (firsts : List ByteSet) (i j : Nat) : ∀ (ss : List Sequence) (st : FState),
    followsSequences tg' firsts i j (ss.map fun s => ⟨s.symbols.map (Symbol.rename ρ)⟩) st =
      mapErr ρ (followsSequences tg firsts i j ss st)
  | [], st => rfl
  | s :: ss, st => by
    simp only [List.map_cons, TG.followsSequences, mapErr_bind, h.ruleFollowsInSequence]
    congr 1
    funext st'
    exact Renamed.followsSequences firsts i j ss st'

theorem Renamed.ruleFollowsInRule (firsts : List ByteSet) (i j : Nat) (st : FState) :
    ruleFollowsInRule tg' firsts i j st = mapErr ρ (ruleFollowsInRule tg firsts i j st) := by
  unfold TG.ruleFollowsInRule
  rw [h.count]
  split
  · rfl
  split
  · rfl
  rw [h.rules, mapErr_bind, mapErr_idx]
  cases idx tg.g.rules j with
  | ok r => simp only [Res.ok_bind, h.followsSequences]
  | err e => rfl
  | panic p => rfl
  | diverge => rfl

theorem Renamed.findFollowsLoop (firsts : List ByteSet) : ∀ (fuel : Nat) (follows : List ByteSet),
    findFollowsLoop tg' firsts fuel follows = mapErr ρ (findFollowsLoop tg firsts fuel follows)
  | 0, _ => rfl
  | fuel + 1, follows => by
    have hp : followsPass tg' firsts follows = mapErr ρ (followsPass tg firsts follows) := by
      unfold followsPass
      rw [h.length]
      exact mapErr_forEach (fun i st => mapErr_forEach (fun j st => h.ruleFollowsInRule firsts i j st) _ st) _ _
    simp only [TG.findFollowsLoop, mapErr_bind, hp]
    congr 1
    funext ⟨f, c⟩
    simp only []
    split
    · exact Renamed.findFollowsLoop firsts fuel f
    · rfl

theorem Renamed.findFollows (firsts follows : List ByteSet) :
    findFollows tg' firsts follows = mapErr ρ (findFollows tg firsts follows) := by
  unfold TG.findFollows
  rw [mapErr_bind, mapErr_idx, h.count]
  congr 1
  funext f0
  rw [mapErr_bind, mapErr_setIdx]
  congr 1
  funext fs
  exact h.findFollowsLoop firsts _ fs

omit h in
theorem mapErr_addEmptyCells : ∀ (bs : List UInt8) (row : Row), mapErr ρ (addEmptyCells bs row) = addEmptyCells bs row
  | [], row => rfl
  | b :: bs, row => by
    rw [addEmptyCells]
    cases GoMap.get row b with
    | some _ => rfl
    | none => exact mapErr_addEmptyCells bs _

theorem Renamed.addSymbols (term : UInt8) : ∀ (syms : List Symbol) (row : Row),
    addSymbols tg' term (syms.map (Symbol.rename ρ)) row = mapErr ρ (addSymbols tg term syms row)
  | [], row => rfl
  | .terminal name :: rest, row => by
    simp only [List.map_cons, Symbol.rename, TG.addSymbols]
    exact Renamed.addSymbols term rest _
  | .nothing :: rest, row => rfl
  | .nonTerminal name :: rest, row => by
    simp only [List.map_cons, Symbol.rename, TG.addSymbols, h.map]
    cases tg.ruleMap.get name with
    | none => rfl
    | some i => exact Renamed.addSymbols term rest _

theorem Renamed.addFirstCells (s : Sequence) : ∀ (bs : List UInt8) (row : Row),
    addFirstCells tg' ⟨s.symbols.map (Symbol.rename ρ)⟩ bs row = mapErr ρ (addFirstCells tg s bs row)
  | [], row => rfl
  | b :: bs, row => by
    simp only [TG.addFirstCells, mapErr_bind, h.addSymbols]
    congr 1
    funext row'
    exact Renamed.addFirstCells s bs row'

theorem Renamed.addSequence (firsts follows : List ByteSet) (i : Nat) (s : Sequence) (row : Row) :
    addSequence tg' firsts follows i ⟨s.symbols.map (Symbol.rename ρ)⟩ row =
      mapErr ρ (addSequence tg firsts follows i s row) := by
  unfold TG.addSequence
  rw [h.sequenceFirsts, mapErr_bind]
  congr 1
  funext sf
  split
  · simp only [mapErr_bind, mapErr_idx, mapErr_bytesOf, mapErr_addEmptyCells, h.addFirstCells]
  · simp only [mapErr_bind, mapErr_bytesOf, h.addFirstCells]

theorem Renamed.addSequences (firsts follows : List ByteSet) (i : Nat) : ∀ (ss : List Sequence) (row : Row),
    addSequences tg' firsts follows i (ss.map fun s => ⟨s.symbols.map (Symbol.rename ρ)⟩) row =
      mapErr ρ (addSequences tg firsts follows i ss row)
  | [], row => rfl
  | s :: ss, row => by
    simp only [List.map_cons, TG.addSequences, mapErr_bind, h.addSequence]
    congr 1
    funext row'
    exact Renamed.addSequences firsts follows i ss row'

theorem Renamed.run (firsts follows : List ByteSet) : run tg' firsts follows = mapErr ρ (run tg firsts follows) := by
  unfold TG.run
  rw [mapErr_bind, h.findFirsts]
  congr 1
  funext fs
  rw [mapErr_bind, h.findFollows]
  congr 1
  funext fo
  unfold makeTable
  rw [h.length]
  refine mapErr_forEach (fun i tbl => ?_) _ _
  unfold makeTableRow
  rw [h.rules, mapErr_bind, mapErr_bind, mapErr_idx]
  cases idx tg.g.rules i with
  | ok r => simp only [Res.ok_bind, h.addSequences, mapErr_pure, Res.pure_eq, mapErr_ok]
  | err e => rfl
  | panic p => rfl
  | diverge => rfl

end

theorem get_enumerateFrom_rename {ρ : Str → Str} (hi : ∀ a b, ρ a = ρ b → a = b) : ∀ (ss : List Str) (k : Nat)
    (m m' : GoMap Str Nat), (∀ n, m'.get (ρ n) = m.get n) →
    ∀ n, (enumerateFrom k (ss.map ρ) m').get (ρ n) = (enumerateFrom k ss m).get n
  | [], _, _, _, h, n => h n
  | s :: ss, k, m, m', h, n => by
    simp only [List.map_cons, enumerateFrom]
    refine get_enumerateFrom_rename hi ss (k + 1) _ _ (fun n => ?_) n
    rw [GoMap.get_set, GoMap.get_set, h]
    by_cases hn : n = s
    · subst hn; simp
    · have : ρ n ≠ ρ s := fun he => hn (hi _ _ he)
      simp [hn, this]

theorem renamed_newGen {ρ : Str → Str} (hi : ∀ a b, ρ a = ρ b → a = b) (g : Grammar) :
    Renamed ρ (newGen g) (newGen (g.rename ρ)) := by
  have hh : collectRuleHeads (g.rename ρ) = (collectRuleHeads g).map ρ := by
    simp [collectRuleHeads, Grammar.rename, Function.comp_def]
  refine ⟨hi, rfl, ?_, fun name => ?_⟩
  · simp [newGen, hh]
  · show GoMap.get (enumerate (collectRuleHeads (g.rename ρ))) (ρ name) = _
    rw [hh]
    exact get_enumerateFrom_rename hi _ 0 [] [] (fun _ => rfl) name

theorem run_rename {ρ : Str → Str} (hi : ∀ a b, ρ a = ρ b → a = b) (g : Grammar) :
    run (newGen (g.rename ρ)) (newSets (newGen (g.rename ρ)).ruleCount) (newSets (newGen (g.rename ρ)).ruleCount) =
      mapErr ρ (run (newGen g) (newSets (newGen g).ruleCount) (newSets (newGen g).ruleCount)) := by
  have h := renamed_newGen hi g
  rw [h.count]
  exact h.run _ _

end TG
end LL1
