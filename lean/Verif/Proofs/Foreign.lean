import Verif.Spec.Foreign

/-!
# `FromGrammar` on symbols of any type simulates `FromGrammar` on a grammar with an undefined non-terminal
-/

namespace LL1
namespace TGX

/-- Simulation of outcomes. -/
inductive Sim (T : Str → Prop) (u : Str) {α : Type} : XR α → TG.R α → Prop
  | ok (a : α) : Sim T u (.ok a) (.ok a)
  | err (e : TG.Err) : e ≠ .undefined u → Sim T u (.err (.own e)) (.err e)
  | panic (p : TG.Panic) : Sim T u (.panic (.own p)) (.panic p)
  | diverge : Sim T u .diverge .diverge
  | otherErr (t : Str) : T t → Sim T u (.err (.unknownType t)) (.err (.undefined u))
  | otherPanic (t : Str) : T t → Sim T u (.panic (.unknownType t)) (.err (.undefined u))

theorem Sim.bind {T : Str → Prop} {u : Str} {α β : Type} {x : XR α} {y : TG.R α} {f : α → XR β} {g : α → TG.R β}
    (h : Sim T u x y) (hf : ∀ a, y = .ok a → Sim T u (f a) (g a)) : Sim T u (x >>= f) (y >>= g) := by
  cases h with
  | ok a => exact hf a rfl
  | err e h => exact .err e h
  | panic p => exact .panic p
  | diverge => exact .diverge
  | otherErr t ht => exact .otherErr t ht
  | otherPanic t ht => exact .otherPanic t ht

theorem Sim.lift {T : Str → Prop} {u : Str} {α : Type} (y : TG.R α) (h : y ≠ .err (.undefined u)) :
    Sim T u (TGX.lift y) y := by
  cases y with
  | ok a => exact .ok a
  | err e => exact .err e (fun he => h (by rw [he]))
  | panic p => exact .panic p
  | diverge => exact .diverge

theorem idx_ne {α : Type} (xs : List α) (i : Nat) (e : TG.Err) : TG.idx xs i ≠ .err e := by
  unfold TG.idx; split <;> simp

theorem setIdx_ne {α : Type} (xs : List α) (i : Nat) (a : α) (e : TG.Err) : TG.setIdx xs i a ≠ .err e := by
  unfold TG.setIdx; split <;> simp

theorem terminalFirsts_ne (n : Str) (e : TG.Err) : TG.terminalFirsts n ≠ .err e := by
  unfold TG.terminalFirsts; split <;> simp

theorem addFollows_ne (i : Nat) (s : ByteSet) (st : TG.FState) (e : TG.Err) : TG.addFollows i s st ≠ .err e := by
  unfold TG.addFollows
  intro h
  rcases Res.bind_eq_err.1 h with h | ⟨a, _, h⟩
  · exact idx_ne _ _ _ h
  · split at h
    · simp at h
    · rcases Res.bind_eq_err.1 h with h | ⟨a, _, h⟩
      · exact setIdx_ne _ _ _ _ h
      · simp at h

theorem innerNull_ne (i j : Nat) (s : ByteSet) (st : TG.FState) (e : TG.Err) : TG.innerNull i j s st ≠ .err e := by
  unfold TG.innerNull
  intro h
  split at h
  · rcases Res.bind_eq_err.1 h with h | ⟨a, _, h⟩
    · exact idx_ne _ _ _ h
    · rcases Res.bind_eq_err.1 h with h | ⟨a, _, h⟩
      · exact addFollows_ne _ _ _ _ h
      · simp at h
  · simp at h

theorem bytesOf_ne (s : ByteSet) (e : TG.Err) : TG.bytesOf s ≠ .err e := by
  unfold TG.bytesOf; split <;> simp

theorem addEmptyCells_ne (l : List UInt8) (r : Row) (n : Str) : TG.addEmptyCells l r ≠ .err (.undefined n) := by
  induction l generalizing r with
  | nil => simp [TG.addEmptyCells]
  | cons b l ih =>
    rw [TG.addEmptyCells]
    split
    · simp
    · exact ih _

section
variable {T : Str → Prop} {u : Str} {xg : XGen} {tg : TG.Gen}

/-- A sequence all of whose other types are in `T` and that does not mention `u` itself. -/
def SeqOk (T : Str → Prop) (u : Str) (s : List XSymbol) : Prop :=
  (∀ t, XSymbol.other t ∈ s → T t) ∧ XSymbol.own (.nonTerminal u) ∉ s

theorem SeqOk.tail {T : Str → Prop} {u : Str} {x : XSymbol} {s : List XSymbol} (h : SeqOk T u (x :: s)) : SeqOk T u s :=
  ⟨fun t ht => h.1 t (.tail _ ht), fun hm => h.2 (.tail _ hm)⟩

/-- The two generators belong together. -/
structure Match (T : Str → Prop) (u : Str) (xg : XGen) (tg : TG.Gen) : Prop where
  g : tg.g = xg.g.asRefs u
  count : tg.ruleCount = xg.ruleCount
  map : tg.ruleMap = xg.ruleMap
  fresh : tg.ruleMap.get u = none
  heads : ∀ r ∈ xg.g.rules, r.head ≠ u
  seqs : ∀ r ∈ xg.g.rules, ∀ s ∈ r.sequences, SeqOk T u s

theorem sim_sequenceFirstsLoop (hm : Match T u xg tg) (firsts : List ByteSet) (n : Nat) (s : List XSymbol)
    (hs : SeqOk T u s) (res : ByteSet) (e : Bool) :
    Sim T u (sequenceFirstsLoop xg firsts n s res e)
      (TG.sequenceFirstsLoop tg firsts n (s.map (XSymbol.asRef u)) res e) := by
  induction s generalizing res e with
  | nil => exact .ok _
  | cons x s ih =>
    rw [List.map_cons]
    match x, hs with
    | .own (.terminal name), _ =>
      exact (Sim.lift _ (terminalFirsts_ne _ _)).bind fun a _ => .ok _
    | .own .nothing, _ =>
      simp only [sequenceFirstsLoop, XSymbol.asRef, TG.sequenceFirstsLoop]
      split
      · exact .err _ (by simp)
      · exact .ok _
    | .own (.nonTerminal name), hs =>
      simp only [sequenceFirstsLoop, XSymbol.asRef, TG.sequenceFirstsLoop, hm.map]
      cases xg.ruleMap.get name with
      | none =>
        refine .err _ ?_
        intro h
        cases h
        exact hs.2 (.head _)
      | some k =>
        refine (Sim.lift _ (idx_ne _ _ _)).bind fun a _ => ?_
        split
        · exact .ok _
        · exact ih hs.tail _ _
    | .other t, hs =>
      simp only [sequenceFirstsLoop, XSymbol.asRef, TG.sequenceFirstsLoop, hm.fresh]
      exact .otherPanic t (hs.1 t (.head _))

theorem sim_sequenceFirsts (hm : Match T u xg tg) (firsts : List ByteSet) (s : List XSymbol) (hs : SeqOk T u s) :
    Sim T u (sequenceFirsts xg firsts s) (TG.sequenceFirsts tg firsts ⟨s.map (XSymbol.asRef u)⟩) := by
  unfold sequenceFirsts TG.sequenceFirsts
  simp only [List.length_map]
  exact sim_sequenceFirstsLoop hm _ _ s hs _ _

theorem sim_substitutionFirstsLoop (hm : Match T u xg tg) (firsts : List ByteSet) (ss : List (List XSymbol))
    (hs : ∀ s ∈ ss, SeqOk T u s) (res : ByteSet) :
    Sim T u (substitutionFirstsLoop xg firsts ss res)
      (TG.substitutionFirstsLoop tg firsts (ss.map fun s => ⟨s.map (XSymbol.asRef u)⟩) res) := by
  induction ss generalizing res with
  | nil => exact .ok _
  | cons s ss ih =>
    rw [List.map_cons]
    exact (sim_sequenceFirsts hm _ s (hs s (.head _))).bind fun a _ => ih (fun s h => hs s (.tail _ h)) _

/-- The rule at an index on both sides. -/
theorem sim_rule (hm : Match T u xg tg) (i : Nat) {β : Type} {f : XRule → XR β} {f' : Rule → TG.R β}
    (h : ∀ r ∈ xg.g.rules, Sim T u (f r)
      (f' ⟨r.head, ⟨r.sequences.map fun s => ⟨s.map (XSymbol.asRef u)⟩⟩⟩)) :
    Sim T u (TGX.lift (TG.idx xg.g.rules i) >>= f) (TG.idx tg.g.rules i >>= f') := by
  have : tg.g.rules[i]? = xg.g.rules[i]?.map fun r =>
      ⟨r.head, ⟨r.sequences.map fun s => ⟨s.map (XSymbol.asRef u)⟩⟩⟩ := by
    rw [hm.g]; simp [XGrammar.asRefs]
  unfold TG.idx
  rw [this]
  cases hi : xg.g.rules[i]? with
  | none => exact .panic _
  | some r => exact h r (List.mem_of_getElem? hi)

theorem sim_ruleFirsts (hm : Match T u xg tg) (i : Nat) (st : List ByteSet × Bool) :
    Sim T u (ruleFirsts xg i st) (TG.ruleFirsts tg i st) := by
  unfold ruleFirsts TG.ruleFirsts TG.substitutionFirsts
  rw [hm.count]
  split
  · exact .err _ (by simp)
  · refine sim_rule hm i fun r hr => ?_
    refine (sim_substitutionFirstsLoop hm _ _ (hm.seqs r hr) _).bind fun a _ => ?_
    refine (Sim.lift _ (idx_ne _ _ _)).bind fun c _ => ?_
    split
    · exact .ok _
    · exact (Sim.lift _ (setIdx_ne _ _ _ _)).bind fun d _ => .ok _

theorem sim_forEach {σ : Type} {f : Nat → σ → XR σ} {f' : Nat → σ → TG.R σ}
    (h : ∀ i s, Sim T u (f i s) (f' i s)) (l : List Nat) (s : σ) : Sim T u (forEach f l s) (TG.forEach f' l s) := by
  induction l generalizing s with
  | nil => exact .ok _
  | cons i l ih => exact (h i s).bind fun a _ => ih a

theorem rules_length (hm : Match T u xg tg) : tg.g.rules.length = xg.g.rules.length := by
  rw [hm.g]; simp [XGrammar.asRefs]

theorem sim_findFirstsLoop (hm : Match T u xg tg) (fuel : Nat) (firsts : List ByteSet) :
    Sim T u (findFirstsLoop xg fuel firsts) (TG.findFirstsLoop tg fuel firsts) := by
  induction fuel generalizing firsts with
  | zero => exact .diverge
  | succ fuel ih =>
    unfold findFirstsLoop TG.findFirstsLoop TG.firstsPass
    rw [rules_length hm]
    refine (sim_forEach (sim_ruleFirsts hm) _ _).bind fun a _ => ?_
    obtain ⟨fs, c⟩ := a
    dsimp only
    split
    · exact ih _
    · exact .ok _

theorem sim_symbolFirsts (hm : Match T u xg tg) (firsts : List ByteSet) (x : XSymbol) (hx : SeqOk T u [x]) :
    Sim T u (symbolFirsts xg firsts x) (TG.symbolFirsts tg firsts (x.asRef u)) := by
  match x, hx with
  | .own (.terminal name), _ =>
    simp only [symbolFirsts, XSymbol.asRef, TG.symbolFirsts]
    split
    · exact .err _ (by simp)
    · exact Sim.lift _ (terminalFirsts_ne _ _)
  | .own .nothing, _ => exact .ok _
  | .own (.nonTerminal name), hs =>
    simp only [symbolFirsts, XSymbol.asRef, TG.symbolFirsts, hm.map]
    cases xg.ruleMap.get name with
    | none =>
      refine .err _ ?_
      intro h
      cases h
      exact hs.2 (.head _)
    | some k => exact Sim.lift _ (idx_ne _ _ _)
  | .other t, hs =>
    simp only [symbolFirsts, XSymbol.asRef, TG.symbolFirsts, hm.fresh]
    exact .otherErr t (hs.1 t (.head _))

theorem sim_followsLast (i j : Nat) (head : Str) (hh : head ≠ u) (last : XSymbol) (st : TG.FState) :
    Sim T u (followsLast i j head last st) (TG.followsLast i j head (last.asRef u) st) := by
  unfold followsLast TG.followsLast
  split
  · match last with
    | .own (.terminal name) => exact .ok _
    | .own .nothing => exact .ok _
    | .own (.nonTerminal name) =>
      simp only [XSymbol.asRef]
      split
      · exact .ok _
      · exact (Sim.lift _ (idx_ne _ _ _)).bind fun a _ => Sim.lift _ (addFollows_ne _ _ _ _)
    | .other t =>
      simp only [XSymbol.asRef, ne_eq, Ne.symm hh, not_false_eq_true, if_true]
      exact .ok _
  · exact .ok _

theorem sim_followsInner (hm : Match T u xg tg) (firsts : List ByteSet) (i j : Nat) (head : Str) (hh : head ≠ u)
    (x next : XSymbol) (hn : SeqOk T u [next]) (st : TG.FState) :
    Sim T u (followsInner xg firsts i j head x next st)
      (TG.followsInner tg firsts i j head (x.asRef u) (next.asRef u) st) := by
  unfold followsInner TG.followsInner
  match x with
  | .own (.terminal name) => exact .ok _
  | .own .nothing => exact .ok _
  | .own (.nonTerminal name) =>
    simp only [XSymbol.asRef]
    split
    · exact .ok _
    · refine (sim_symbolFirsts hm firsts next hn).bind fun a _ => ?_
      refine (Sim.lift _ (innerNull_ne _ _ _ _ _)).bind fun b _ => ?_
      refine (Sim.lift _ (addFollows_ne _ _ _ _)).bind fun c _ => .ok _
  | .other t =>
    simp only [XSymbol.asRef, ne_eq, Ne.symm hh, not_false_eq_true, if_true]
    exact .ok _

theorem sim_followsInnerLoop (hm : Match T u xg tg) (firsts : List ByteSet) (i j : Nat) (head : Str) (hh : head ≠ u)
    (next : XSymbol) (l : List XSymbol) (hs : SeqOk T u (next :: l)) (st : TG.FState) :
    Sim T u (followsInnerLoop xg firsts i j head next l st)
      (TG.followsInnerLoop tg firsts i j head (next.asRef u) (l.map (XSymbol.asRef u)) st) := by
  induction l generalizing next st with
  | nil => exact .ok _
  | cons x l ih =>
    rw [List.map_cons]
    refine (sim_followsInner hm firsts i j head hh x next ?_ st).bind fun a _ => ih x hs.tail a
    refine ⟨fun t ht => hs.1 t ?_, fun h => hs.2 ?_⟩
    · rw [List.mem_singleton] at ht; rw [ht]; exact .head _
    · rw [List.mem_singleton] at h; rw [h]; exact .head _

theorem sim_ruleFollowsInSequence (hm : Match T u xg tg) (firsts : List ByteSet) (i : Nat) (s : List XSymbol)
    (hs : SeqOk T u s) (j : Nat) (st : TG.FState) :
    Sim T u (ruleFollowsInSequence xg firsts i s j st)
      (TG.ruleFollowsInSequence tg firsts i ⟨s.map (XSymbol.asRef u)⟩ j st) := by
  unfold ruleFollowsInSequence TG.ruleFollowsInSequence
  refine sim_rule hm i fun r hr => ?_
  simp only [← List.map_reverse]
  have hrev : SeqOk T u s.reverse :=
    ⟨fun t ht => hs.1 t (List.mem_reverse.1 ht), fun h => hs.2 (List.mem_reverse.1 h)⟩
  cases hc : s.reverse with
  | nil => exact .err _ (by simp)
  | cons last l =>
    rw [hc] at hrev
    simp only [List.map_cons]
    refine (sim_followsLast i j r.head (hm.heads r hr) last st).bind fun a _ => ?_
    obtain ⟨fs, c⟩ := a
    dsimp only
    split
    · exact .ok _
    · exact sim_followsInnerLoop hm firsts i j r.head (hm.heads r hr) last l hrev _

theorem sim_followsSequences (hm : Match T u xg tg) (firsts : List ByteSet) (i j : Nat) (ss : List (List XSymbol))
    (hs : ∀ s ∈ ss, SeqOk T u s) (st : TG.FState) :
    Sim T u (followsSequences xg firsts i j ss st)
      (TG.followsSequences tg firsts i j (ss.map fun s => ⟨s.map (XSymbol.asRef u)⟩) st) := by
  induction ss generalizing st with
  | nil => exact .ok _
  | cons s ss ih =>
    rw [List.map_cons]
    exact (sim_ruleFollowsInSequence hm firsts i s (hs s (.head _)) j st).bind fun a _ =>
      ih (fun s h => hs s (.tail _ h)) a

theorem sim_ruleFollowsInRule (hm : Match T u xg tg) (firsts : List ByteSet) (i j : Nat) (st : TG.FState) :
    Sim T u (ruleFollowsInRule xg firsts i j st) (TG.ruleFollowsInRule tg firsts i j st) := by
  unfold ruleFollowsInRule TG.ruleFollowsInRule
  rw [hm.count]
  split
  · exact .err _ (by simp)
  · split
    · exact .err _ (by simp)
    · exact sim_rule hm j fun r hr => sim_followsSequences hm firsts i j _ (hm.seqs r hr) st

theorem sim_findFollowsLoop (hm : Match T u xg tg) (firsts : List ByteSet) (fuel : Nat) (follows : List ByteSet) :
    Sim T u (findFollowsLoop xg firsts fuel follows) (TG.findFollowsLoop tg firsts fuel follows) := by
  induction fuel generalizing follows with
  | zero => exact .diverge
  | succ fuel ih =>
    unfold findFollowsLoop TG.findFollowsLoop followsPass TG.followsPass
    rw [rules_length hm]
    refine (sim_forEach (fun i s => sim_forEach (fun j s => sim_ruleFollowsInRule hm firsts i j s) _ s) _ _).bind
      fun a _ => ?_
    obtain ⟨fs, c⟩ := a
    dsimp only
    split
    · exact ih _
    · exact .ok _

theorem sim_findFollows (hm : Match T u xg tg) (firsts follows : List ByteSet) :
    Sim T u (findFollows xg firsts follows) (TG.findFollows tg firsts follows) := by
  unfold findFollows TG.findFollows
  rw [hm.count]
  refine (Sim.lift _ (idx_ne _ _ _)).bind fun a _ => ?_
  exact (Sim.lift _ (setIdx_ne _ _ _ _)).bind fun b _ => sim_findFollowsLoop hm firsts _ b

theorem sim_addSymbols (hm : Match T u xg tg) (b : UInt8) (s : List XSymbol) (hs : SeqOk T u s) (row : Row) :
    Sim T u (addSymbols xg b s row) (TG.addSymbols tg b (s.map (XSymbol.asRef u)) row) := by
  induction s generalizing row with
  | nil => exact .ok _
  | cons x s ih =>
    rw [List.map_cons]
    match x, hs with
    | .own (.terminal name), hs => exact ih hs.tail _
    | .own .nothing, _ => exact .panic _
    | .own (.nonTerminal name), hs =>
      simp only [addSymbols, XSymbol.asRef, TG.addSymbols, hm.map]
      cases xg.ruleMap.get name with
      | none =>
        refine .err _ ?_
        intro h
        cases h
        exact hs.2 (.head _)
      | some k => exact ih hs.tail _
    | .other t, hs =>
      simp only [addSymbols, XSymbol.asRef, TG.addSymbols, hm.fresh]
      exact .otherPanic t (hs.1 t (.head _))

theorem sim_addFirstCells (hm : Match T u xg tg) (s : List XSymbol) (hs : SeqOk T u s) (l : List UInt8) (row : Row) :
    Sim T u (addFirstCells xg s l row) (TG.addFirstCells tg ⟨s.map (XSymbol.asRef u)⟩ l row) := by
  induction l generalizing row with
  | nil => exact .ok _
  | cons b l ih => exact (sim_addSymbols hm b s hs row).bind fun a _ => ih a

theorem sim_addSequence (hm : Match T u xg tg) (firsts follows : List ByteSet) (i : Nat) (s : List XSymbol)
    (hs : SeqOk T u s) (row : Row) :
    Sim T u (addSequence xg firsts follows i s row)
      (TG.addSequence tg firsts follows i ⟨s.map (XSymbol.asRef u)⟩ row) := by
  unfold addSequence TG.addSequence
  refine (sim_sequenceFirsts hm firsts s hs).bind fun a _ => ?_
  split
  · refine (Sim.lift _ (idx_ne _ _ _)).bind fun b _ => ?_
    refine (Sim.lift _ (bytesOf_ne _ _)).bind fun c _ => ?_
    refine (Sim.lift _ (addEmptyCells_ne _ _ _)).bind fun d _ => ?_
    exact (Sim.lift _ (bytesOf_ne _ _)).bind fun e _ => sim_addFirstCells hm s hs _ _
  · exact (Sim.lift _ (bytesOf_ne _ _)).bind fun e _ => sim_addFirstCells hm s hs _ _

theorem sim_addSequences (hm : Match T u xg tg) (firsts follows : List ByteSet) (i : Nat) (ss : List (List XSymbol))
    (hs : ∀ s ∈ ss, SeqOk T u s) (row : Row) :
    Sim T u (addSequences xg firsts follows i ss row)
      (TG.addSequences tg firsts follows i (ss.map fun s => ⟨s.map (XSymbol.asRef u)⟩) row) := by
  induction ss generalizing row with
  | nil => exact .ok _
  | cons s ss ih =>
    rw [List.map_cons]
    exact (sim_addSequence hm firsts follows i s (hs s (.head _)) row).bind fun a _ =>
      ih (fun s h => hs s (.tail _ h)) a

theorem sim_run (hm : Match T u xg tg) (firsts follows : List ByteSet) :
    Sim T u (run xg firsts follows) (TG.run tg firsts follows) := by
  unfold run TG.run TG.findFirsts makeTable TG.makeTable
  rw [hm.count, rules_length hm]
  refine (sim_findFirstsLoop hm _ _).bind fun a _ => ?_
  refine (sim_findFollows hm _ _).bind fun b _ => ?_
  refine sim_forEach (fun i tbl => ?_) _ _
  refine Sim.bind ?_ fun c _ => .ok _
  unfold makeTableRow TG.makeTableRow
  exact sim_rule hm i fun r hr => sim_addSequences hm _ _ i _ (hm.seqs r hr) _

end

theorem enumerateFrom_none {u : Str} (i : Nat) (l : List Str) (m : GoMap Str Nat) (hm : m.get u = none)
    (hl : u ∉ l) : (TG.enumerateFrom i l m).get u = none := by
  induction l generalizing i m with
  | nil => exact hm
  | cons s l ih =>
    rw [TG.enumerateFrom]
    refine ih _ _ ?_ (fun h => hl (.tail _ h))
    rw [GoMap.get_set, if_neg (fun h => hl (by rw [h]; exact .head _))]
    exact hm

theorem sim_fromGrammar (order : List (Str × Nat) → List (Str × Nat)) (g : XGrammar) (u : Str) (hu : g.Fresh u) :
    Sim g.HasOther u (fromGrammarAny order g) (fromGrammar order (g.asRefs u)) := by
  have heads : TG.collectRuleHeads (g.asRefs u) = g.rules.map XRule.head := by
    simp [TG.collectRuleHeads, XGrammar.asRefs, Function.comp_def]
  have hm : Match g.HasOther u (newGen g) (TG.newGen (g.asRefs u)) := by
    refine ⟨rfl, ?_, ?_, ?_, fun r hr => (hu r hr).1, fun r hr s hs => ⟨fun t ht => ⟨r, hr, s, hs, ht⟩, (hu r hr).2 s hs⟩⟩
    · simp [newGen, TG.newGen, heads]
    · simp [newGen, TG.newGen, heads]
    · simp only [TG.newGen, heads, TG.enumerate]
      refine enumerateFrom_none _ _ _ rfl ?_
      intro h
      obtain ⟨r, hr, he⟩ := List.mem_map.1 h
      exact (hu r hr).1 he
  unfold fromGrammarAny fromGrammar
  simp only [hm.count, hm.map]
  exact (sim_run hm _ _).bind fun a _ => .ok _

end TGX
end LL1
