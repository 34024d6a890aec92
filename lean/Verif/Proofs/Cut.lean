import Verif.Spec.Cut
import Verif.Proofs.ParserTop
import Verif.Model.TableGen

/-!
# Cutting literals: tables, then parsing
-/

namespace LL1
open TG

theorem CutOps.refl : ∀ l, CutOps l l
  | [] => .nil
  | x :: l => .same x (CutOps.refl l)

theorem CutNodes.refl : ∀ l, CutNodes l l
  | [] => .nil
  | .mk t i k cs :: l => .same t i k (CutNodes.refl cs) (CutNodes.refl l)

theorem CutOps.append {a b c d : List ParserOp} (h : CutOps a b) (h' : CutOps c d) : CutOps (a ++ c) (b ++ d) := by
  induction h with
  | nil => exact h'
  | same x _ ih => exact .same x ih
  | cut u v hu hv _ ih => exact .cut u v hu hv ih

theorem CutOps.nil_iff {a b : List ParserOp} (h : CutOps a b) : a = [] ↔ b = [] := by
  cases h <;> simp

/-! ## Tables -/

/-- The same end, with related values. -/
def RelR {α β : Type} (P : α → β → Prop) : R α → R β → Prop
  | .ok a, .ok b => P a b
  | .err e, .err e' => e = e'
  | .panic p, .panic p' => p = p'
  | .diverge, .diverge => True
  | _, _ => False

theorem RelR.bind {α β γ δ : Type} {P : α → β → Prop} {Q : γ → δ → Prop} {x : R α} {y : R β} {f : α → R γ} {f' : β → R δ}
    (h : RelR P x y) (hf : ∀ a b, P a b → RelR Q (f a) (f' b)) : RelR Q (x >>= f) (y >>= f') := by
  cases x <;> cases y <;> first | exact h.elim | exact hf _ _ h | exact h

theorem RelR.of_eq {α : Type} {P : α → α → Prop} (hP : ∀ a, P a a) {x y : R α} (h : x = y) : RelR P x y := by
  subst h
  cases x <;> first | exact hP _ | rfl | trivial

theorem Cut.nothing_length {s s' : List Symbol} (h : Cut s s') (hn : .nothing ∈ s) :
    s.length > 1 ↔ s'.length > 1 := by
  have hle : ∀ {s s' : List Symbol}, Cut s s' → s.length ≤ s'.length := by
    intro s s' h
    induction h with
    | nil => exact Nat.le_refl _
    | same x _ ih => simpa using ih
    | cut u v _ _ _ ih => simp only [List.length_cons] at ih ⊢; omega
  constructor
  · intro h1; exact Nat.lt_of_lt_of_le h1 (hle h)
  · intro h1
    cases h with
    | nil => simp at hn
    | same x h =>
      cases h with
      | nil => simp at h1
      | same y h => simp
      | cut => simp
    | cut u v _ _ h =>
      simp only [List.mem_cons, reduceCtorEq, false_or] at hn
      have := List.length_pos_of_mem hn
      simp only [List.length_cons]
      omega

theorem terminalFirsts_append {u v : Str} (hu : u ≠ []) : terminalFirsts (u ++ v) = terminalFirsts u := by
  cases u with
  | nil => exact absurd rfl hu
  | cons c u => rfl

variable {tg tg' : TG.Gen}

theorem cut_sequenceFirstsLoop (hm : tg'.ruleMap = tg.ruleMap) (firsts : List ByteSet) {n n' : Nat} {s s' : List Symbol}
    (h : Cut s s') (hn : .nothing ∈ s → (n > 1 ↔ n' > 1)) (res : ByteSet) (b : Bool) :
    sequenceFirstsLoop tg' firsts n' s' res b = sequenceFirstsLoop tg firsts n s res b := by
  induction h generalizing res b with
  | nil => rfl
  | cut u v hu hv _ _ => simp only [sequenceFirstsLoop, terminalFirsts_append hu]
  | same x _ ih =>
    cases x with
    | terminal t => rfl
    | nothing =>
      simp only [sequenceFirstsLoop]
      have := hn (by simp)
      by_cases h1 : n > 1
      · simp [h1, this.1 h1]
      · have h2 : ¬ n' > 1 := fun hh => h1 (this.2 hh)
        simp [h1, h2]
    | nonTerminal name =>
      simp only [sequenceFirstsLoop, hm]
      cases tg.ruleMap.get name with
      | none => rfl
      | some i =>
        simp only []
        congr 1
        funext rf
        split
        · rfl
        · exact ih (fun hh => hn (by simp [hh])) _ _

theorem cut_sequenceFirsts (hm : tg'.ruleMap = tg.ruleMap) (firsts : List ByteSet) {s s' : Sequence}
    (h : Cut s.symbols s'.symbols) : sequenceFirsts tg' firsts s' = sequenceFirsts tg firsts s :=
  cut_sequenceFirstsLoop hm firsts h (fun hn => h.nothing_length hn) _ _

abbrev CutSeqs := AllPairs (fun s s' : Sequence => Cut s.symbols s'.symbols)

theorem cut_substitutionFirstsLoop (hm : tg'.ruleMap = tg.ruleMap) (firsts : List ByteSet) {ss ss' : List Sequence}
    (h : CutSeqs ss ss') (res : ByteSet) :
    substitutionFirstsLoop tg' firsts ss' res = substitutionFirstsLoop tg firsts ss res := by
  induction h generalizing res with
  | nil => rfl
  | cons h _ ih =>
    simp only [substitutionFirstsLoop, cut_sequenceFirsts hm firsts h]
    congr 1
    funext x
    exact ih _

/-- The two generators. -/
structure CutGen (tg tg' : TG.Gen) : Prop where
  map : tg'.ruleMap = tg.ruleMap
  count : tg'.ruleCount = tg.ruleCount
  rules : CutGrammar tg.g tg'.g

theorem allPairs_getElem? {α β : Type} {P : α → β → Prop} {a : List α} {b : List β} (h : AllPairs P a b) (i : Nat) :
    (a[i]? = none ∧ b[i]? = none) ∨ ∃ x y, a[i]? = some x ∧ b[i]? = some y ∧ P x y := by
  induction h generalizing i with
  | nil => exact .inl ⟨rfl, rfl⟩
  | cons h _ ih =>
    cases i with
    | zero => exact .inr ⟨_, _, rfl, rfl, h⟩
    | succ i => simpa using ih i

theorem allPairs_len {α β : Type} {P : α → β → Prop} {a : List α} {b : List β} (h : AllPairs P a b) :
    a.length = b.length := by
  induction h with
  | nil => rfl
  | cons _ _ ih => simp [ih]

theorem CutGen.length (h : CutGen tg tg') : tg'.g.rules.length = tg.g.rules.length := (allPairs_len h.rules).symm

/-- Reading rule `i` in both. -/
theorem CutGen.rule (h : CutGen tg tg') (i : Nat) {β : Type} {f f' : Rule → R β}
    (hf : ∀ r r', r.head = r'.head → CutSeqs r.tail.sequences r'.tail.sequences → f' r' = f r) :
    (idx tg'.g.rules i >>= f') = (idx tg.g.rules i >>= f) := by
  unfold idx
  rcases allPairs_getElem? h.rules i with ⟨h1, h2⟩ | ⟨r, r', h1, h2, h3, h4⟩
  · rw [h1, h2]; rfl
  · rw [h1, h2]; exact hf r r' h3 h4

theorem CutGen.ruleFirsts (h : CutGen tg tg') (i : Nat) (st : List ByteSet × Bool) :
    ruleFirsts tg' i st = ruleFirsts tg i st := by
  unfold TG.ruleFirsts
  rw [h.count]
  split
  · rfl
  · refine h.rule i fun r r' _ hs => ?_
    unfold substitutionFirsts
    rw [cut_substitutionFirstsLoop h.map st.1 hs]

theorem forEach_congr {σ : Type} {f f' : Nat → σ → R σ} (h : ∀ i s, f' i s = f i s) (l : List Nat) (s : σ) :
    forEach f' l s = forEach f l s := by
  have : f' = f := by funext i s; exact h i s
  rw [this]

theorem CutGen.findFirstsLoop (h : CutGen tg tg') (fuel : Nat) (firsts : List ByteSet) :
    findFirstsLoop tg' fuel firsts = findFirstsLoop tg fuel firsts := by
  induction fuel generalizing firsts with
  | zero => rfl
  | succ fuel ih =>
    simp only [TG.findFirstsLoop, firstsPass, h.length, forEach_congr h.ruleFirsts]
    congr 1
    funext ⟨f, c⟩
    simp only []
    split
    · exact ih f
    · rfl

/-- The loop over the symbols before the last one, front to back in the recursion. -/
def followsFwd (tg : TG.Gen) (firsts : List ByteSet) (i j : Nat) (head : Str) : List Symbol → FState → R FState
  | [], st => .ok st
  | [_], st => .ok st
  | x :: y :: rest, st => do
    let st ← followsFwd tg firsts i j head (y :: rest) st
    followsInner tg firsts i j head x y st

theorem followsInnerLoop_append (tg : TG.Gen) (firsts : List ByteSet) (i j : Nat) (head : Str) (x : Symbol) :
    ∀ (rev : List Symbol) (next : Symbol) (st : FState),
    followsInnerLoop tg firsts i j head next (rev ++ [x]) st =
      (followsInnerLoop tg firsts i j head next rev st >>= fun st =>
        followsInner tg firsts i j head x ((next :: rev).getLast (by simp)) st)
  | [], next, st => by
    simp only [List.nil_append, followsInnerLoop, Res.ok_bind, List.getLast_singleton]
    cases followsInner tg firsts i j head x next st <;> rfl
  | y :: rev, next, st => by
    simp only [List.cons_append, followsInnerLoop]
    cases followsInner tg firsts i j head y next st with
    | ok st' =>
      simp only [Res.ok_bind]
      rw [followsInnerLoop_append tg firsts i j head x rev y st']
      simp
    | err e => rfl
    | panic p => rfl
    | diverge => rfl

theorem followsFwd_eq (tg : TG.Gen) (firsts : List ByteSet) (i j : Nat) (head : Str) :
    ∀ (syms : List Symbol) (last : Symbol) (rev : List Symbol), syms.reverse = last :: rev → ∀ st,
    followsInnerLoop tg firsts i j head last rev st = followsFwd tg firsts i j head syms st
  | [], last, rev, h, st => by cases h
  | [x], last, rev, h, st => by cases h; rfl
  | x :: y :: rest, last, rev, h, st => by
    rw [List.reverse_cons] at h
    generalize hr : (y :: rest).reverse = l at h
    cases l with
    | nil => simp at hr
    | cons l0 rev' =>
      simp only [List.cons_append, List.cons.injEq] at h
      obtain ⟨rfl, rfl⟩ := h
      rw [followsInnerLoop_append]
      have hl : (l0 :: rev').getLast (by simp) = y := by
        have : (l0 :: rev') = rest.reverse ++ [y] := by rw [← hr]; simp
        simp [this]
      rw [hl, followsFwd_eq tg firsts i j head (y :: rest) l0 rev' hr]
      rfl

theorem followsFwd_terminal (firsts : List ByteSet) (i j : Nat) (head : Str) (t : Str) (rest : List Symbol) (st : FState) :
    followsFwd tg firsts i j head (.terminal t :: rest) st = followsFwd tg firsts i j head rest st := by
  cases rest with
  | nil => rfl
  | cons y rest =>
    simp only [followsFwd, followsInner]
    cases followsFwd tg firsts i j head (y :: rest) st <;> rfl

theorem CutGen.symbolFirsts (h : CutGen tg tg') (firsts : List ByteSet) (x : Symbol) :
    symbolFirsts tg' firsts x = symbolFirsts tg firsts x := by
  cases x <;> simp only [TG.symbolFirsts, h.map]

theorem CutGen.followsInner (h : CutGen tg tg') (firsts : List ByteSet) (i j : Nat) (head : Str) (x : Symbol)
    {a b : List Symbol} {y z : Symbol} (hc : Cut (y :: a) (z :: b)) (st : FState) :
    followsInner tg' firsts i j head x z st = followsInner tg firsts i j head x y st := by
  have : TG.symbolFirsts tg' firsts z = TG.symbolFirsts tg firsts y := by
    rw [h.symbolFirsts]
    cases hc with
    | same => rfl
    | cut u v hu hv _ =>
      have h1 : ¬ u.length = 0 := by simpa using hu
      have h2 : ¬ (u ++ v).length = 0 := by simp only [List.length_append]; omega
      simp only [TG.symbolFirsts, h1, h2, if_false, terminalFirsts_append hu]
  unfold TG.followsInner
  cases x with
  | terminal _ => rfl
  | nothing => rfl
  | nonTerminal name => simp only [this]

theorem CutGen.followsFwd (h : CutGen tg tg') (firsts : List ByteSet) (i j : Nat) (head : Str) {s s' : List Symbol}
    (hc : Cut s s') (st : FState) : followsFwd tg' firsts i j head s' st = followsFwd tg firsts i j head s st := by
  induction hc generalizing st with
  | nil => rfl
  | cut u v hu hv _ ih =>
    rw [followsFwd_terminal, followsFwd_terminal, ih, followsFwd_terminal]
  | @same x a b hab ih =>
    cases hab with
    | nil => rfl
    | same y hab' =>
      simp only [LL1.followsFwd, ih]
      congr 1
      funext st'
      exact h.followsInner firsts i j head x (.same y hab') st'
    | cut u v hu hv hab' =>
      simp only [LL1.followsFwd, ih]
      congr 1
      funext st'
      exact h.followsInner firsts i j head x (.cut u v hu hv hab') st'

theorem Cut.last {s s' : List Symbol} (h : Cut s s') :
    (s = [] ∧ s' = []) ∨ ∃ x y rev rev', s.reverse = x :: rev ∧ s'.reverse = y :: rev' ∧
      (x = y ∨ (∃ t, x = .terminal t) ∧ ∃ t, y = .terminal t) := by
  induction h with
  | nil => exact .inl ⟨rfl, rfl⟩
  | same x _ ih =>
    right
    rcases ih with ⟨rfl, rfl⟩ | ⟨a, b, r, r', h1, h2, h3⟩
    · exact ⟨x, x, [], [], rfl, rfl, .inl rfl⟩
    · exact ⟨a, b, r ++ [x], r' ++ [x], by simp [h1], by simp [h2], h3⟩
  | @cut u v a b _ _ hc ih =>
    right
    rcases ih with ⟨h1, _⟩ | ⟨x, y, r, r', h1, h2, h3⟩
    · cases h1
    · rw [List.reverse_cons] at h1
      generalize ha : a.reverse = l at h1
      cases l with
      | nil =>
        simp only [List.nil_append, List.cons.injEq] at h1
        obtain ⟨rfl, rfl⟩ := h1
        refine ⟨.terminal (u ++ v), y, [], r' ++ [.terminal u], by simp [ha], by simp [h2], .inr ⟨⟨_, rfl⟩, ?_⟩⟩
        rcases h3 with rfl | ⟨_, h⟩
        · exact ⟨_, rfl⟩
        · exact h
      | cons l0 l =>
        simp only [List.cons_append, List.cons.injEq] at h1
        obtain ⟨rfl, rfl⟩ := h1
        exact ⟨l0, y, l ++ [.terminal (u ++ v)], r' ++ [.terminal u], by simp [ha], by simp [h2], h3⟩

theorem CutGen.ruleFollowsInSequence (h : CutGen tg tg') (firsts : List ByteSet) (i : Nat) {s s' : Sequence}
    (hc : Cut s.symbols s'.symbols) (j : Nat) (st : FState) :
    ruleFollowsInSequence tg' firsts i s' j st = ruleFollowsInSequence tg firsts i s j st := by
  unfold TG.ruleFollowsInSequence
  refine h.rule i fun r r' hh _ => ?_
  rcases hc.last with ⟨h1, h2⟩ | ⟨x, y, rev, rev', h1, h2, h3⟩
  · simp [h1, h2]
  · have hl : followsLast i j r'.head y st = followsLast i j r.head x st := by
      rw [hh]
      unfold followsLast
      rcases h3 with rfl | ⟨⟨t, rfl⟩, ⟨t', rfl⟩⟩ <;> rfl
    simp only [h1, h2, hl]
    congr 1
    funext ⟨st', ret⟩
    simp only []
    split
    · rfl
    · rw [followsFwd_eq _ _ _ _ _ _ _ _ h1, followsFwd_eq _ _ _ _ _ _ _ _ h2, ← hh]
      exact h.followsFwd firsts i j r.head hc st'

theorem CutGen.followsSequences (h : CutGen tg tg') (firsts : List ByteSet) (i j : Nat) {ss ss' : List Sequence}
    (hs : CutSeqs ss ss') (st : FState) :
    followsSequences tg' firsts i j ss' st = followsSequences tg firsts i j ss st := by
  induction hs generalizing st with
  | nil => rfl
  | cons hc _ ih =>
    simp only [TG.followsSequences, h.ruleFollowsInSequence firsts i hc]
    congr 1
    funext st'
    exact ih st'

theorem CutGen.ruleFollowsInRule (h : CutGen tg tg') (firsts : List ByteSet) (i j : Nat) (st : FState) :
    ruleFollowsInRule tg' firsts i j st = ruleFollowsInRule tg firsts i j st := by
  unfold TG.ruleFollowsInRule
  rw [h.count]
  split
  · rfl
  split
  · rfl
  exact h.rule j fun r r' _ hs => h.followsSequences firsts i j hs st

theorem CutGen.findFollowsLoop (h : CutGen tg tg') (firsts : List ByteSet) (fuel : Nat) (follows : List ByteSet) :
    findFollowsLoop tg' firsts fuel follows = findFollowsLoop tg firsts fuel follows := by
  induction fuel generalizing follows with
  | zero => rfl
  | succ fuel ih =>
    have hp : followsPass tg' firsts follows = followsPass tg firsts follows := by
      unfold followsPass
      rw [h.length]
      exact forEach_congr (fun i st => forEach_congr (fun j st => h.ruleFollowsInRule firsts i j st) _ st) _ _
    simp only [TG.findFollowsLoop, hp]
    congr 1
    funext ⟨f, c⟩
    simp only []
    split
    · exact ih f
    · rfl

/-- The operations of a sequence of symbols. -/
def opsOf (tg : TG.Gen) : List Symbol → R (List ParserOp)
  | [] => .ok []
  | .terminal name :: rest => opsOf tg rest >>= fun ops => .ok (.terminal name :: ops)
  | .nonTerminal name :: rest =>
    match tg.ruleMap.get name with
    | none => .err (.undefined name)
    | some i => opsOf tg rest >>= fun ops => .ok (.nonTerminal (i : Int) :: ops)
  | .nothing :: _ => .panic .unreachable

theorem set_set (m : Row) (k : UInt8) (v w : List ParserOp) : GoMap.set (GoMap.set m k v) k w = GoMap.set m k w := by
  simp [GoMap.set, List.filter_filter]

theorem addSymbols_eq (tg : TG.Gen) (b : UInt8) : ∀ (syms : List Symbol) (row : Row),
    addSymbols tg b syms row = (opsOf tg syms >>= fun ops =>
      .ok (if ops = [] then row else GoMap.set row b ((GoMap.get row b).getD [] ++ ops))) := by
  have one : ∀ (row : Row) (op : ParserOp) (ops : List ParserOp),
      (if ops = [] then appendOp row b op else GoMap.set (appendOp row b op) b
        ((GoMap.get (appendOp row b op) b).getD [] ++ ops)) =
      GoMap.set row b ((GoMap.get row b).getD [] ++ op :: ops) := by
    intro row op ops
    unfold appendOp
    split
    · next h => subst h; rfl
    · rw [set_set, GoMap.get_set, if_pos rfl]
      simp
  intro syms
  induction syms with
  | nil => intro row; rfl
  | cons x rest ih =>
    intro row
    cases x with
    | terminal t =>
      simp only [addSymbols, opsOf, ih]
      cases opsOf tg rest with
      | ok ops => simp only [Res.ok_bind, one]; rfl
      | err e => rfl
      | panic p => rfl
      | diverge => rfl
    | nothing => rfl
    | nonTerminal name =>
      simp only [addSymbols, opsOf]
      cases tg.ruleMap.get name with
      | none => rfl
      | some i =>
        simp only [ih]
        cases opsOf tg rest with
        | ok ops => simp only [Res.ok_bind, one]; rfl
        | err e => rfl
        | panic p => rfl
        | diverge => rfl

theorem CutGen.opsOf (h : CutGen tg tg') {s s' : List Symbol} (hc : Cut s s') :
    RelR CutOps (opsOf tg s) (opsOf tg' s') := by
  induction hc with
  | nil => exact CutOps.nil
  | same x _ ih =>
    cases x with
    | terminal t => exact ih.bind fun _ _ h => CutOps.same _ h
    | nothing => rfl
    | nonTerminal name =>
      simp only [LL1.opsOf, h.map]
      cases tg.ruleMap.get name with
      | none => rfl
      | some i => exact ih.bind fun _ _ h => CutOps.same _ h
  | @cut u v a b hu hv _ ih =>
    simp only [LL1.opsOf] at ih ⊢
    cases ha : LL1.opsOf tg a with
    | ok l =>
      rw [ha] at ih
      cases hb : LL1.opsOf tg' b with
      | ok l' => rw [hb] at ih; exact CutOps.cut u v hu hv ih
      | err e => rw [hb] at ih; exact ih.elim
      | panic p => rw [hb] at ih; exact ih.elim
      | diverge => rw [hb] at ih; exact ih.elim
    | err e =>
      rw [ha] at ih
      cases hb : LL1.opsOf tg' b <;> rw [hb] at ih <;> exact ih
    | panic p =>
      rw [ha] at ih
      cases hb : LL1.opsOf tg' b <;> rw [hb] at ih <;> exact ih
    | diverge =>
      rw [ha] at ih
      cases hb : LL1.opsOf tg' b <;> rw [hb] at ih <;> exact ih

abbrev CutRow := AllPairs (fun c c' : UInt8 × List ParserOp => c.1 = c'.1 ∧ CutOps c.2 c'.2)

theorem CutRow.get {row row' : Row} (h : CutRow row row') (b : UInt8) :
    (GoMap.get row b = none ∧ GoMap.get row' b = none) ∨
      ∃ ops ops', GoMap.get row b = some ops ∧ GoMap.get row' b = some ops' ∧ CutOps ops ops' := by
  induction h with
  | nil => exact .inl ⟨rfl, rfl⟩
  | @cons c c' _ _ h _ ih =>
    obtain ⟨k, v⟩ := c
    obtain ⟨k', v'⟩ := c'
    obtain ⟨h1, h2⟩ := h
    simp only at h1 h2
    subst h1
    simp only [GoMap.get_cons]
    split
    · exact .inr ⟨_, _, rfl, rfl, h2⟩
    · exact ih

theorem allPairs_filter {α β : Type} {P : α → β → Prop} {p : α → Bool} {q : β → Bool} (hpq : ∀ a b, P a b → p a = q b)
    {l : List α} {l' : List β} (h : AllPairs P l l') : AllPairs P (l.filter p) (l'.filter q) := by
  induction h with
  | nil => exact .nil
  | cons h _ ih =>
    rw [List.filter_cons, List.filter_cons, hpq _ _ h]
    split
    · exact .cons h ih
    · exact ih

theorem CutRow.set {row row' : Row} (h : CutRow row row') (b : UInt8) {ops ops' : List ParserOp} (ho : CutOps ops ops') :
    CutRow (GoMap.set row b ops) (GoMap.set row' b ops') :=
  .cons ⟨rfl, ho⟩ (allPairs_filter (fun x y hxy => by rw [hxy.1]) h)

theorem CutGen.addSymbols (h : CutGen tg tg') (b : UInt8) {s s' : List Symbol} (hc : Cut s s') {row row' : Row}
    (hr : CutRow row row') : RelR CutRow (addSymbols tg b s row) (addSymbols tg' b s' row') := by
  rw [addSymbols_eq, addSymbols_eq]
  refine (h.opsOf hc).bind fun ops ops' ho => ?_
  show CutRow _ _
  by_cases he : ops = []
  · rw [if_pos he, if_pos (ho.nil_iff.1 he)]; exact hr
  · rw [if_neg he, if_neg (fun hh => he (ho.nil_iff.2 hh))]
    refine hr.set b (CutOps.append ?_ ho)
    rcases hr.get b with ⟨h1, h2⟩ | ⟨o, o', h1, h2, h3⟩
    · rw [h1, h2]; exact .nil
    · rw [h1, h2]; exact h3

theorem CutGen.addFirstCells (h : CutGen tg tg') {s s' : Sequence} (hc : Cut s.symbols s'.symbols) (bs : List UInt8)
    {row row' : Row} (hr : CutRow row row') :
    RelR CutRow (addFirstCells tg s bs row) (addFirstCells tg' s' bs row') := by
  induction bs generalizing row row' with
  | nil => exact hr
  | cons b bs ih => exact (h.addSymbols b hc hr).bind fun _ _ hr' => ih hr'

theorem cut_addEmptyCells (bs : List UInt8) {row row' : Row} (hr : CutRow row row') :
    RelR CutRow (addEmptyCells bs row) (addEmptyCells bs row') := by
  induction bs generalizing row row' with
  | nil => exact hr
  | cons b bs ih =>
    simp only [addEmptyCells]
    rcases hr.get b with ⟨h1, h2⟩ | ⟨o, o', h1, h2, h3⟩
    · simp only [h1, h2]; exact ih (hr.set b .nil)
    · simp only [h1, h2]; rfl

theorem CutGen.addSequence (h : CutGen tg tg') (firsts follows : List ByteSet) (i : Nat) {s s' : Sequence}
    (hc : Cut s.symbols s'.symbols) {row row' : Row} (hr : CutRow row row') :
    RelR CutRow (addSequence tg firsts follows i s row) (addSequence tg' firsts follows i s' row') := by
  unfold TG.addSequence
  rw [cut_sequenceFirsts h.map firsts hc]
  refine RelR.bind (P := Eq) (RelR.of_eq (fun _ => rfl) rfl) ?_
  rintro sf _ rfl
  split
  · refine RelR.bind (P := Eq) (RelR.of_eq (fun _ => rfl) rfl) ?_
    rintro fo _ rfl
    refine RelR.bind (P := Eq) (RelR.of_eq (fun _ => rfl) rfl) ?_
    rintro fb _ rfl
    refine RelR.bind (cut_addEmptyCells fb hr) fun _ _ hr' => ?_
    refine RelR.bind (P := Eq) (RelR.of_eq (fun _ => rfl) rfl) ?_
    rintro b _ rfl
    exact h.addFirstCells hc b hr'
  · refine RelR.bind (P := Eq) (RelR.of_eq (fun _ => rfl) rfl) ?_
    rintro b _ rfl
    exact h.addFirstCells hc b hr

theorem CutGen.addSequences (h : CutGen tg tg') (firsts follows : List ByteSet) (i : Nat) {ss ss' : List Sequence}
    (hs : CutSeqs ss ss') {row row' : Row} (hr : CutRow row row') :
    RelR CutRow (addSequences tg firsts follows i ss row) (addSequences tg' firsts follows i ss' row') := by
  induction hs generalizing row row' with
  | nil => exact hr
  | cons hc _ ih => exact (h.addSequence firsts follows i hc hr).bind fun _ _ hr' => ih hr'

theorem CutGen.makeTableRow (h : CutGen tg tg') (firsts follows : List ByteSet) (i : Nat) :
    RelR CutRow (makeTableRow tg firsts follows i) (makeTableRow tg' firsts follows i) := by
  unfold TG.makeTableRow idx
  rcases allPairs_getElem? h.rules i with ⟨h1, h2⟩ | ⟨r, r', h1, h2, h3, h4⟩
  · rw [h1, h2]; rfl
  · rw [h1, h2]; exact h.addSequences firsts follows i h4 .nil

theorem CutTable.set {tbl tbl' : Table} (h : CutTable tbl tbl') (n : Int) {row row' : Row} (hr : CutRow row row') :
    CutTable (GoMap.set tbl n row) (GoMap.set tbl' n row') :=
  .cons ⟨rfl, hr⟩ (allPairs_filter (fun x y hxy => by rw [hxy.1]) h)

theorem CutGen.makeTable (h : CutGen tg tg') (firsts follows : List ByteSet) :
    RelR CutTable (makeTable tg firsts follows) (makeTable tg' firsts follows) := by
  unfold TG.makeTable
  rw [h.length]
  generalize List.range tg.g.rules.length = l
  have : ∀ (t t' : Table), CutTable t t' → RelR CutTable
      (forEach (fun i (table : Table) => do
        let row ← TG.makeTableRow tg firsts follows i
        return table.set (i : Int) row) l t)
      (forEach (fun i (table : Table) => do
        let row ← TG.makeTableRow tg' firsts follows i
        return table.set (i : Int) row) l t') := by
    induction l with
    | nil => intro t t' ht; exact ht
    | cons i l ih =>
      intro t t' ht
      refine RelR.bind (P := CutTable) ?_ fun _ _ ht' => ih _ _ ht'
      exact (h.makeTableRow firsts follows i).bind fun _ _ hr => ht.set _ hr
  exact this [] [] .nil

theorem cut_fromGrammar {g g' : Grammar} (h : CutGrammar g g') (order : List (Str × Nat) → List (Str × Nat)) :
    RelR (fun x y => CutTable x.1 y.1 ∧ y.2 = x.2) (fromGrammar order g) (fromGrammar order g') := by
  have hh : collectRuleHeads g' = collectRuleHeads g := by
    unfold collectRuleHeads
    have h' : AllPairs _ g.rules g'.rules := h
    generalize g.rules = a at h'
    generalize g'.rules = b at h'
    induction h' with
    | nil => rfl
    | cons h _ ih => simp only [List.map_cons, h.1, ih]
  have hg : CutGen (newGen g) (newGen g') := ⟨by simp only [newGen, hh], by simp only [newGen, hh], h⟩
  unfold fromGrammar
  refine RelR.bind (P := CutTable) ?_ fun a b hab => ⟨hab, by simp only [newGen, hh]⟩
  unfold run
  rw [hg.count]
  refine RelR.bind (P := Eq) (RelR.of_eq (fun _ => rfl) ?_) ?_
  · unfold findFirsts
    rw [hg.count, hg.findFirstsLoop]
  rintro fs _ rfl
  refine RelR.bind (P := Eq) (RelR.of_eq (fun _ => rfl) ?_) ?_
  · unfold findFollows
    rw [hg.count]
    congr 1
    funext f0
    congr 1
    funext fo
    exact (hg.findFollowsLoop fs _ fo).symm
  rintro fo _ rfl
  exact hg.makeTable fs fo

/-! ## Parsing -/

theorem CutTable.row {tbl tbl' : Table} (h : CutTable tbl tbl') (n : Int) :
    (tbl.get n = none ∧ tbl'.get n = none) ∨
      ∃ row row', tbl.get n = some row ∧ tbl'.get n = some row' ∧ CutRow row row' := by
  have h' : AllPairs _ tbl tbl' := h
  clear h
  induction h' with
  | nil => exact .inl ⟨rfl, rfl⟩
  | @cons c c' _ _ h _ ih =>
    obtain ⟨k, v⟩ := c
    obtain ⟨k', v'⟩ := c'
    obtain ⟨h1, h2⟩ := h
    simp only at h1 h2
    subst h1
    simp only [GoMap.get_cons]
    split
    · exact .inr ⟨_, _, rfl, rfl, h2⟩
    · exact ih

variable {tbl tbl' : Table} {src : Str}

theorem CutTable.body (h : CutTable tbl tbl') (n : Int) (b : UInt8) :
    (bodyFor tbl n b = none ∧ bodyFor tbl' n b = none) ∨
      ∃ body body', bodyFor tbl n b = some body ∧ bodyFor tbl' n b = some body' ∧ CutOps body body' := by
  unfold bodyFor
  split
  · rcases h.row n with ⟨h1, h2⟩ | ⟨row, row', h1, h2, h3⟩
    · rw [h1, h2]; exact .inl ⟨rfl, rfl⟩
    · rw [h1, h2]; exact h3.get b
  · split
    · split
      · exact .inr ⟨_, _, rfl, rfl, .refl _⟩
      · split
        · exact .inr ⟨_, _, rfl, rfl, .refl _⟩
        · exact .inl ⟨rfl, rfl⟩
    · exact .inl ⟨rfl, rfl⟩

theorem CutTable.whyNot (h : CutTable tbl tbl') (names : Option Names) (n : Int) (b : UInt8) :
    whyNot tbl' names n b = whyNot tbl names n b := by
  unfold LL1.whyNot
  split
  · rcases h.row n with ⟨h1, h2⟩ | ⟨row, row', h1, h2, _⟩ <;> rw [h1, h2]
  · rfl

theorem cut_litAt_append {u v : Str} {i : Nat} : LitAt src (u ++ v) i ↔ LitAt src u i ∧ LitAt src v (i + u.length) := by
  unfold LitAt
  constructor
  · intro h
    refine ⟨fun k hk => ?_, fun k hk => ?_⟩
    · have := h k (by simp only [List.length_append]; omega)
      rwa [List.getElem?_append_left hk] at this
    · have := h (u.length + k) (by simp only [List.length_append]; omega)
      rw [List.getElem?_append_right (by omega)] at this
      rw [Nat.add_assoc, ← this]
      congr 1
      omega
  · rintro ⟨h1, h2⟩ k hk
    simp only [List.length_append] at hk
    by_cases hku : k < u.length
    · rw [List.getElem?_append_left hku]; exact h1 k hku
    · rw [List.getElem?_append_right (by omega), h2 (k - u.length) (by omega)]
      congr 2
      omega

theorem cutNodes_lit {u v : Str} (hu : u ≠ []) (hv : v ≠ []) {i : Nat} {a b : List Node}
    (h : CutNodes (literalNode v (i + u.length) :: a) b) :
    CutNodes (literalNode (u ++ v) i :: a) (literalNode u i :: b) := by
  have h1 : 0 < u.length := by cases u <;> simp_all
  have h2 : 0 < v.length := by cases v <;> simp_all
  have h3 : u ++ v ≠ [] := by simp [hu]
  unfold literalNode at h ⊢
  rw [if_neg hv] at h
  rw [if_neg h3, if_neg hu, List.length_append, ← Nat.add_assoc]
  exact .cut i (i + u.length) _ (by omega) (by omega) h

theorem cutNodes_nt {n : Int} {i j : Nat} {body body' : List ParserOp} {cs cs' ds ds' : List Node} (hb : CutOps body body')
    (h1 : CutNodes cs cs') (h2 : CutNodes ds ds') :
    CutNodes (ntNode n i j body cs :: ds) (ntNode n i j body' cs' :: ds') := by
  unfold ntNode
  refine .same n i j ?_ h2
  by_cases he : body = []
  · rw [if_pos he, if_pos (hb.nil_iff.1 he)]; exact .refl _
  · rw [if_neg he, if_neg (fun hh => he (hb.nil_iff.2 hh))]; exact h1

/-- A literal in front of something that can be derived in both. -/
theorem cut_lit_forward {a : List ParserOp} {cs : List Node} {m j : Nat}
    (ih : ∀ a', CutOps a a' → ∃ cs', Derives tbl' src a' m j cs' ∧ CutNodes cs cs') :
    ∀ (len : Nat) (s : Str) (i : Nat), s.length ≤ len → LitAt src s i → i + s.length = m →
    ∀ ops', CutOps (.terminal s :: a) ops' →
      ∃ cs', Derives tbl' src ops' i j cs' ∧ CutNodes (literalNode s i :: cs) cs' := by
  intro len
  induction len with
  | zero =>
    intro s i hlen hl hm ops' hc
    have hs : s = [] := by cases s <;> simp_all
    cases hc with
    | same _ h =>
      obtain ⟨cs', h1, h2⟩ := ih _ h
      exact ⟨_, .lit hl (hm ▸ h1), .same _ _ _ (.refl _) h2⟩
    | cut u v hu hv h => simp [hu] at hs
  | succ len ihl =>
    intro s i hlen hl hm ops' hc
    cases hc with
    | same _ h =>
      obtain ⟨cs', h1, h2⟩ := ih _ h
      exact ⟨_, .lit hl (hm ▸ h1), .same _ _ _ (.refl _) h2⟩
    | cut u v hu hv h =>
      have hu' : 0 < u.length := by cases u <;> simp_all
      obtain ⟨hl1, hl2⟩ := cut_litAt_append.1 hl
      rw [List.length_append] at hlen hm
      obtain ⟨cs', h1, h2⟩ := ihl v (i + u.length) (by omega) hl2 (by omega) _ h
      exact ⟨_, .lit hl1 h1, cutNodes_lit hu hv h2⟩

theorem CutTable.forward (h : CutTable tbl tbl') {ops : List ParserOp} {i j : Nat} {cs : List Node}
    (hd : Derives tbl src ops i j cs) :
    ∀ ops', CutOps ops ops' → ∃ cs', Derives tbl' src ops' i j cs' ∧ CutNodes cs cs' := by
  induction hd with
  | nil i =>
    intro ops' hc
    cases hc
    exact ⟨[], .nil i, .nil⟩
  | @lit s ops i j cs hl hd ih =>
    intro ops' hc
    exact cut_lit_forward ih s.length s i (Nat.le_refl _) hl rfl ops' hc
  | @nt n body ops i j k cs ds hb hd1 hd2 ih1 ih2 =>
    intro ops' hc
    cases hc with
    | same _ hc =>
      rcases h.body n (byteAt src i) with ⟨h1, _⟩ | ⟨body1, body', h1, h2, h3⟩
      · rw [hb] at h1; cases h1
      · rw [hb] at h1; cases h1
        obtain ⟨cs', h4, h5⟩ := ih1 _ h3
        obtain ⟨ds', h6, h7⟩ := ih2 _ hc
        exact ⟨_, .nt h2 h4 h6, cutNodes_nt h3 h5 h7⟩

theorem CutTable.backward (h : CutTable tbl tbl') {ops' : List ParserOp} {i j : Nat} {cs' : List Node}
    (hd : Derives tbl' src ops' i j cs') :
    ∀ ops, CutOps ops ops' → ∃ cs, Derives tbl src ops i j cs ∧ CutNodes cs cs' := by
  induction hd with
  | nil i =>
    intro ops hc
    cases hc
    exact ⟨[], .nil i, .nil⟩
  | @lit u b i j cs hl hd ih =>
    intro ops hc
    cases hc with
    | same _ hc =>
      obtain ⟨ds, h1, h2⟩ := ih _ hc
      exact ⟨_, .lit hl h1, .same _ _ _ (.refl _) h2⟩
    | @cut _ v a _ hu hv hc =>
      obtain ⟨ds, h1, h2⟩ := ih _ hc
      cases h1 with
      | lit hl2 h3 =>
        rw [Nat.add_assoc, ← List.length_append] at h3
        exact ⟨_, .lit (cut_litAt_append.2 ⟨hl, hl2⟩) h3, cutNodes_lit hu hv h2⟩
  | @nt n body ops i j k cs ds hb hd1 hd2 ih1 ih2 =>
    intro ops' hc
    cases hc with
    | same _ hc =>
      rcases h.body n (byteAt src i) with ⟨_, h1⟩ | ⟨body1, body', h1, h2, h3⟩
      · rw [hb] at h1; cases h1
      · rw [hb] at h2; cases h2
        obtain ⟨cs', h4, h5⟩ := ih1 _ h3
        obtain ⟨ds', h6, h7⟩ := ih2 _ hc
        exact ⟨_, .nt h1 h4 h6, cutNodes_nt h3 h5 h7⟩

theorem litAt_take_append {u v : Str} {i k : Nat} (hk : u.length ≤ k) :
    LitAt src ((u ++ v).take k) i ↔ LitAt src u i ∧ LitAt src (v.take (k - u.length)) (i + u.length) := by
  rw [List.take_append, List.take_of_length_le hk, cut_litAt_append]

variable {names : Option Names}

theorem cut_fail_lit {a : List ParserOp} : ∀ (len : Nat) (s : Str) (i k : Nat) (c : UInt8), s.length ≤ len →
    LitAt src (s.take k) i → s[k]? = some c → c ≠ byteAt src (i + k) → ∀ ops', CutOps (.terminal s :: a) ops' →
    FailsAt tbl' names src ops' i (i + k) (.expectedChar c (byteAt src (i + k))) := by
  intro len
  induction len with
  | zero =>
    intro s i k c hlen hl hk hne ops' hc
    have hs : s = [] := by cases s <;> simp_all
    subst hs
    simp at hk
  | succ len ih =>
    intro s i k c hlen hl hk hne ops' hc
    cases hc with
    | same _ h => exact .lit hl hk hne
    | cut u v hu hv h =>
      have hu' : 0 < u.length := by cases u <;> simp_all
      rw [List.length_append] at hlen
      by_cases hku : k < u.length
      · rw [List.getElem?_append_left hku] at hk
        rw [List.take_append_of_le_length (Nat.le_of_lt hku)] at hl
        exact .lit hl hk hne
      · rw [List.getElem?_append_right (by omega)] at hk
        obtain ⟨h1, h2⟩ := (litAt_take_append (by omega)).1 hl
        have he : i + k = i + u.length + (k - u.length) := by omega
        rw [he] at hne ⊢
        exact .afterLit h1 (ih v _ _ c (by omega) h2 hk hne _ h)

theorem cut_fail_after {a : List ParserOp} {m k : Nat} {e : PErr}
    (ih : ∀ a', CutOps a a' → FailsAt tbl' names src a' m k e) :
    ∀ (len : Nat) (s : Str) (i : Nat), s.length ≤ len → LitAt src s i → i + s.length = m →
    ∀ ops', CutOps (.terminal s :: a) ops' → FailsAt tbl' names src ops' i k e := by
  intro len
  induction len with
  | zero =>
    intro s i hlen hl hm ops' hc
    have hs : s = [] := by cases s <;> simp_all
    cases hc with
    | same _ h => exact .afterLit hl (hm ▸ ih _ h)
    | cut u v hu hv h => simp [hu] at hs
  | succ len ihl =>
    intro s i hlen hl hm ops' hc
    cases hc with
    | same _ h => exact .afterLit hl (hm ▸ ih _ h)
    | cut u v hu hv h =>
      have hu' : 0 < u.length := by cases u <;> simp_all
      obtain ⟨hl1, hl2⟩ := cut_litAt_append.1 hl
      rw [List.length_append] at hlen hm
      exact .afterLit hl1 (ihl v (i + u.length) (by omega) hl2 (by omega) _ h)

theorem CutTable.fails_forward (h : CutTable tbl tbl') {ops : List ParserOp} {i k : Nat} {e : PErr}
    (hd : FailsAt tbl names src ops i k e) : ∀ ops', CutOps ops ops' → FailsAt tbl' names src ops' i k e := by
  induction hd with
  | @lit s ops i k c hl hk hne =>
    intro ops' hc
    exact cut_fail_lit s.length s i k c (Nat.le_refl _) hl hk hne ops' hc
  | @afterLit s ops i k e hl _ ih =>
    intro ops' hc
    exact cut_fail_after ih s.length s i (Nat.le_refl _) hl rfl ops' hc
  | @noBody n ops i hb =>
    intro ops' hc
    cases hc with
    | same _ hc =>
      rcases h.body n (byteAt src i) with ⟨_, h2⟩ | ⟨body1, body', h1, h2, h3⟩
      · rw [← h.whyNot]; exact .noBody h2
      · rw [hb] at h1; cases h1
  | @inside n body ops i k e hb _ ih =>
    intro ops' hc
    cases hc with
    | same _ hc =>
      rcases h.body n (byteAt src i) with ⟨h1, _⟩ | ⟨body1, body', h1, h2, h3⟩
      · rw [hb] at h1; cases h1
      · rw [hb] at h1; cases h1
        exact .inside h2 (ih _ h3)
  | @afterNt n body ops i j k cs e hb hd _ ih =>
    intro ops' hc
    cases hc with
    | same _ hc =>
      rcases h.body n (byteAt src i) with ⟨h1, _⟩ | ⟨body1, body', h1, h2, h3⟩
      · rw [hb] at h1; cases h1
      · rw [hb] at h1; cases h1
        obtain ⟨cs', h4, _⟩ := h.forward hd _ h3
        exact .afterNt h2 h4 (ih _ hc)

theorem CutTable.fails_backward (h : CutTable tbl tbl') {ops' : List ParserOp} {i k : Nat} {e : PErr}
    (hd : FailsAt tbl' names src ops' i k e) : ∀ ops, CutOps ops ops' → FailsAt tbl names src ops i k e := by
  induction hd with
  | @lit u ops i k c hl hk hne =>
    intro ops' hc
    cases hc with
    | same _ h => exact .lit hl hk hne
    | @cut _ v a _ hu hv h =>
      obtain ⟨hku, _⟩ := List.getElem?_eq_some_iff.1 hk
      refine .lit ?_ ?_ hne
      · rwa [List.take_append_of_le_length (Nat.le_of_lt hku)]
      · rwa [List.getElem?_append_left hku]
  | @afterLit u ops i k e hl _ ih =>
    intro ops' hc
    cases hc with
    | same _ h => exact .afterLit hl (ih _ h)
    | @cut _ v a _ hu hv h =>
      have := ih _ h
      cases this with
      | @lit _ _ _ k c hl2 hk hne =>
        rw [Nat.add_assoc] at hne ⊢
        refine .lit ((litAt_take_append (by omega)).2 ⟨hl, ?_⟩) ?_ hne
        · rwa [Nat.add_sub_cancel_left]
        · rw [List.getElem?_append_right (by omega), Nat.add_sub_cancel_left]; exact hk
      | afterLit hl2 h3 =>
        rw [Nat.add_assoc, ← List.length_append] at h3
        exact .afterLit (cut_litAt_append.2 ⟨hl, hl2⟩) h3
  | @noBody n ops i hb =>
    intro ops' hc
    cases hc with
    | same _ hc =>
      rcases h.body n (byteAt src i) with ⟨h1, _⟩ | ⟨body1, body', h1, h2, h3⟩
      · rw [h.whyNot]; exact .noBody h1
      · rw [hb] at h2; cases h2
  | @inside n body ops i k e hb _ ih =>
    intro ops' hc
    cases hc with
    | same _ hc =>
      rcases h.body n (byteAt src i) with ⟨_, h1⟩ | ⟨body1, body', h1, h2, h3⟩
      · rw [hb] at h1; cases h1
      · rw [hb] at h2; cases h2
        exact .inside h1 (ih _ h3)
  | @afterNt n body ops i j k cs e hb hd _ ih =>
    intro ops' hc
    cases hc with
    | same _ hc =>
      rcases h.body n (byteAt src i) with ⟨_, h1⟩ | ⟨body1, body', h1, h2, h3⟩
      · rw [hb] at h1; cases h1
      · rw [hb] at h2; cases h2
        obtain ⟨cs', h4, _⟩ := h.backward hd _ h3
        exact .afterNt h1 h4 (ih _ hc)

end LL1
