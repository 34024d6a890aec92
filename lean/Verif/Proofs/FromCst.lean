import Verif.Model.FromCst
import Verif.Spec.ToAst

/-!
# `lrTraverse` and the functions built on it
-/

namespace LL1
namespace FC

@[simp] theorem topmost_mk (skip hit : Int → Bool) (t : Int) (s e : Nat) (cs : List Node) :
    topmost skip hit (.mk t s e cs) =
      if skip t then [] else if hit t then [.mk t s e cs] else (cs.map (topmost skip hit)).flatten := by
  rw [topmost]

/-- Call `f` on the nodes in order until it returns an error. -/
def runOn {σ : Type} (f : OnNode σ) : List Node → σ → Except Panic (σ × Option Err)
  | [], s => .ok (s, none)
  | n :: ns, s =>
    match f n s with
    | .error p => .error p
    | .ok (s', none) => runOn f ns s'
    | .ok (s', some e) => .ok (s', some e)

theorem runOn_append {σ : Type} (f : OnNode σ) (as bs : List Node) (s : σ) :
    runOn f (as ++ bs) s =
      match runOn f as s with
      | .error p => .error p
      | .ok (s', none) => runOn f bs s'
      | .ok (s', some e) => .ok (s', some e) := by
  induction as generalizing s with
  | nil => rfl
  | cons n as ih =>
    simp only [List.cons_append, runOn]
    cases f n s with
    | error p => rfl
    | ok r =>
      obtain ⟨s', e⟩ := r
      cases e with
      | none => exact ih s'
      | some e => rfl

variable {σ : Type} (ig se : Int → Bool) (f : OnNode σ)

mutual
/-- Once an error is set nothing happens any more. -/
theorem walk_err (t : Node) (s : σ) (e : Err) :
    walk (flexVisitor ig se f) () t (s, some e) = .ok (s, some e) := by
  cases t with
  | mk t p q cs => simp [walk, flexVisitor]
end

theorem walkList_err (cs : List Node) (s : σ) (e : Err) :
    walkList (flexVisitor ig se f) () cs (s, some e) = .ok (s, some e) := by
  induction cs with
  | nil => simp [walkList]
  | cons c cs ih => rw [walkList, walk_err]; exact ih

mutual
theorem walk_eq (t : Node) (s : σ) :
    walk (flexVisitor ig se f) () t (s, none) = runOn f (topmost ig se t) s := by
  cases t with
  | mk t p q cs =>
    rw [topmost_mk]
    by_cases h1 : ig t = true
    · simp [walk, flexVisitor, h1, runOn]
    · by_cases h2 : se t = true
      · simp only [walk, flexVisitor, Node.type_mk, h1, h2, ne_eq, not_true_eq_false, if_false, if_true,
          Bool.false_eq_true, runOn]
        cases f (.mk t p q cs) s with
        | error x => rfl
        | ok r =>
          obtain ⟨s', e⟩ := r
          cases e <;> rfl
      · have := walkList_eq cs s
        simp only [walk, flexVisitor, Node.type_mk, h1, h2, ne_eq, not_true_eq_false, if_false,
          Bool.false_eq_true]
        exact this
theorem walkList_eq (cs : List Node) (s : σ) :
    walkList (flexVisitor ig se f) () cs (s, none) = runOn f ((cs.map (topmost ig se)).flatten) s := by
  cases cs with
  | nil => rw [walkList]; rfl
  | cons c cs =>
    rw [walkList, walk_eq c s, List.map_cons, List.flatten_cons, runOn_append]
    cases runOn f (topmost ig se c) s with
    | error x => rfl
    | ok r =>
      obtain ⟨s', e⟩ := r
      cases e with
      | none => exact walkList_eq cs s'
      | some e => exact walkList_err ig se f cs s' e
end

theorem lrTraverse_eq (t : Node) (s : σ) : FC.lrTraverse t ig se f s = runOn f (topmost ig se t) s :=
  walk_eq ig se f t s

theorem Bindings.lrTraverse_eq (b : Bindings) (t : Node) (ty : Int) (s : σ) :
    b.lrTraverse t ty f s = runOn f (topmost b.isNodeIgnored (fun x => decide (x = ty)) t) s :=
  FC.lrTraverse_eq _ _ f t s

/-! ## Collecting -/

open Read (each)

/-- The closures `doOnRule`, `doOnSequence`: append the result, or stop. -/
def appender {α : Type} (f : Node → R α) : OnNode (List α) := fun n acc =>
  match f n with
  | .panic p => .error p
  | .diverge => .ok (acc, none)
  | .err e => .ok (acc, some e)
  | .ok a => .ok (acc ++ [a], none)

theorem runOn_appender {α β : Type} (f : Node → R α) (hd : ∀ n, f n ≠ .diverge) (ns : List Node)
    (acc : List α) (k : List α → β) :
    (match runOn (appender f) ns acc with
      | .error p => .panic p
      | .ok (xs, none) => .ok (k xs)
      | .ok (_, some e) => .err e : R β) =
    (do let xs ← each f ns; return k (acc ++ xs) : R β) := by
  induction ns generalizing acc with
  | nil => simp [runOn, each]
  | cons n ns ih =>
    simp only [runOn, each, appender]
    cases h : f n with
    | ok a =>
      simp only [Res.ok_bind]
      rw [ih]
      cases each f ns <;> simp
    | err e => simp
    | panic p => simp
    | diverge => exact (hd n h).elim

theorem each_ne_diverge {α : Type} {f : Node → R α} (hd : ∀ n, f n ≠ .diverge) (ns : List Node) :
    each f ns ≠ .diverge := by
  induction ns with
  | nil => simp [each]
  | cons n ns ih =>
    intro h
    rw [each, Res.bind_eq_diverge] at h
    rcases h with h | ⟨a, _, h⟩
    · exact hd n h
    · rw [Res.bind_eq_diverge] at h
      rcases h with h | ⟨as, _, h⟩
      · exact ih h
      · simp at h

theorem each_congr {α : Type} {f g : Node → R α} (h : ∀ n, f n = g n) (ns : List Node) :
    each f ns = each g ns := by
  rw [funext h]

/-- No error of a step is the sentinel. -/
theorem each_ne_sentinel {α : Type} {f : Node → R α} (hd : ∀ n, f n ≠ .err .searchComplete) (ns : List Node) :
    each f ns ≠ .err .searchComplete := by
  induction ns with
  | nil => simp [each]
  | cons n ns ih =>
    intro h
    rw [each, Res.bind_eq_err] at h
    rcases h with h | ⟨a, _, h⟩
    · exact hd n h
    · rw [Res.bind_eq_err] at h
      rcases h with h | ⟨as, _, h⟩
      · exact ih h
      · simp at h

/-! ## The functions one by one -/

/-- Neither the sentinel nor "still running". -/
def Clean {α : Type} (x : R α) : Prop := x ≠ .diverge ∧ x ≠ .err .searchComplete

theorem clean_ok {α : Type} (a : α) : Clean (.ok a : R α) := ⟨by simp, by simp⟩
theorem clean_panic {α : Type} (p : Panic) : Clean (.panic p : R α) := ⟨by simp, by simp⟩
theorem clean_bind {α β : Type} {x : R α} {f : α → R β} (h : Clean x) (hf : ∀ a, Clean (f a)) :
    Clean (x >>= f) := by
  cases x with
  | ok a => exact hf a
  | err e => exact ⟨by simp, fun h' => h.2 (by simpa using h')⟩
  | panic p => exact ⟨by simp, by simp⟩
  | diverge => exact (h.1 rfl).elim
theorem clean_each {α : Type} {f : Node → R α} (h : ∀ n, Clean (f n)) (ns : List Node) : Clean (each f ns) :=
  ⟨each_ne_diverge (fun n => (h n).1) ns, each_ne_sentinel (fun n => (h n).2) ns⟩

theorem text_eq (n : Node) (str : Str) : Read.text n str =
    match slice str n.pos n.stop with | .ok s => .ok s | .error p => .panic p := by
  unfold Read.text slice
  split <;> rfl

theorem clean_text (n : Node) (str : Str) : Clean (Read.text n str) := by
  unfold Read.text
  split
  · exact clean_ok _
  · exact clean_panic _

theorem clean_escape (skip : Int → Bool) (b : Bindings) (str : Str) (n : Node) :
    Clean (Read.escape skip b str n) := by
  unfold Read.escape
  split
  · exact ⟨by simp, by simp⟩
  · refine clean_bind (clean_text _ _) fun s => ?_
    split
    · exact ⟨by simp, by simp⟩
    · exact clean_ok _

theorem clean_terminalName (skip : Int → Bool) (b : Bindings) (str : Str) (n : Node) :
    Clean (Read.terminalName skip b str n) := by
  unfold Read.terminalName
  refine clean_bind (clean_each (fun c => ?_) _) fun _ => clean_ok _
  split
  · exact clean_text _ _
  · exact clean_escape _ _ _ _

theorem clean_symbol (skip : Int → Bool) (b : Bindings) (str : Str) (n : Node) :
    Clean (Read.symbol skip b str n) := by
  unfold Read.symbol
  split
  · exact clean_bind (clean_terminalName _ _ _ _) fun _ => clean_ok _
  · split
    · exact clean_bind (clean_text _ _) fun _ => clean_ok _
    · exact clean_bind (clean_text _ _) fun _ => ⟨by simp, by simp⟩

theorem clean_sequence (skip : Int → Bool) (b : Bindings) (str : Str) (n : Node) :
    Clean (Read.sequence skip b str n) :=
  clean_bind (clean_each (clean_symbol skip b str) _) fun _ => clean_ok _

theorem clean_substitution (skip : Int → Bool) (b : Bindings) (str : Str) (n : Node) :
    Clean (Read.substitution skip b str n) :=
  clean_bind (clean_each (clean_sequence skip b str) _) fun _ => clean_ok _

theorem clean_rule (skip : Int → Bool) (b : Bindings) (str : Str) (n : Node) :
    Clean (Read.rule skip b str n) := by
  unfold Read.rule
  split
  · exact clean_bind (clean_text _ _) fun _ => ⟨by simp, by simp⟩
  · refine clean_bind (clean_text _ _) fun _ => ?_
    split
    · exact clean_bind (clean_text _ _) fun _ => ⟨by simp, by simp⟩
    · exact clean_bind (clean_substitution _ _ _ _) fun _ => clean_ok _

theorem parseEscape_eq (b : Bindings) (n : Node) (str : Str) :
    b.parseEscape n str = Read.escape b.isNodeIgnored b str n := by
  unfold Bindings.parseEscape Read.escape Read.firstOf Read.allOf
  rw [Bindings.lrTraverse_eq]
  cases topmost b.isNodeIgnored (fun x => decide (x = b.escapeCharacterType)) n with
  | nil => rfl
  | cons c cs =>
    simp only [runOn, Bindings.doOnEscapedChar, List.head?_cons, text_eq]
    cases slice str c.pos c.stop with
    | error p => rfl
    | ok s =>
      simp only [Res.ok_bind]
      cases h : b.escapeMapping.get s with
      | none => rfl
      | some r => rfl

theorem parseTerminalName_eq (b : Bindings) (n : Node) (str : Str) :
    b.parseTerminalName n str = Read.terminalName b.isNodeIgnored b str n := by
  unfold Bindings.parseTerminalName Read.terminalName
  rw [FC.lrTraverse_eq]
  suffices h : ∀ (ns : List Node) (acc : Str),
      (match runOn (b.onTerminalPart str) ns acc with
        | .error p => .panic p
        | .ok (sb, none) => .ok sb
        | .ok (_, some e) => .err e : R Str) =
      (do let parts ← each (fun c => if c.type = -1 then Read.text c str
              else Read.escape b.isNodeIgnored b str c) ns
          return acc ++ parts.flatten : R Str) by
    refine Eq.trans ?_ (h _ [])
    rw [show (fun n : Int => decide (n = 16) || decide (n = builtinTerminal)) =
      (fun t : Int => decide (t = 16) || decide (t = -1)) from rfl]
    cases runOn (b.onTerminalPart str)
      (topmost (fun _ => false) (fun t => decide (t = 16) || decide (t = -1)) n) [] with
    | error p => rfl
    | ok r => obtain ⟨a, e⟩ := r; cases e <;> rfl
  intro ns
  induction ns with
  | nil => intro acc; simp [runOn, each]
  | cons c cs ih =>
    intro acc
    simp only [runOn, each, Bindings.onTerminalPart, builtinTerminal]
    by_cases hc : c.type = -1
    · simp only [hc, if_true]
      rw [text_eq c str]
      cases slice str c.pos c.stop with
      | error p => rfl
      | ok s =>
        simp only [Res.ok_bind]
        rw [ih]
        cases each _ cs <;> simp
    · simp only [hc, if_false]
      rw [parseEscape_eq]
      cases he : Read.escape b.isNodeIgnored b str c with
      | ok s =>
        simp only [Res.ok_bind]
        rw [ih]
        cases each _ cs <;> simp
      | err e => rfl
      | panic p => rfl
      | diverge => exact ((clean_escape _ _ _ _).1 he).elim

/-- `parseSymbol` (which returns a pointer to a possibly nil `Symbol`) always points to a symbol. -/
theorem parseSymbol_eq (b : Bindings) (n : Node) (str : Str) :
    b.parseSymbol n str = (Read.symbol b.isNodeIgnored b str n >>= fun y => return some y) := by
  unfold Bindings.parseSymbol Read.symbol
  have loop : ∀ (ts : List Int),
      b.symbolTermLoop n str ts none =
      match ts.findSome? (fun ty => Read.firstOf b.isNodeIgnored ty n) with
      | some c => (do
          let name ← Read.terminalName b.isNodeIgnored b str c
          return some (some (if name = [] then .nothing else .terminal name)) : R (Option (Option Symbol)))
      | none => .ok none := by
    intro ts
    induction ts with
    | nil => rfl
    | cons t ts ih =>
      rw [Bindings.symbolTermLoop, Bindings.lrTraverse_eq, List.findSome?_cons]
      simp only [Read.firstOf, Read.allOf]
      cases topmost b.isNodeIgnored (fun x => decide (x = t)) n with
      | nil => exact ih
      | cons c cs =>
        simp only [runOn, Bindings.doOnTerminalName, List.head?_cons, parseTerminalName_eq]
        cases hn : Read.terminalName b.isNodeIgnored b str c with
        | ok name =>
          simp only [Res.ok_bind]
          cases name <;> rfl
        | err e =>
          have : e ≠ .searchComplete := by
            rintro rfl; exact (clean_terminalName _ _ _ _).2 hn
          cases e with
          | searchComplete => exact (this rfl).elim
          | _ => rfl
        | panic p => rfl
        | diverge => exact ((clean_terminalName _ _ _ _).1 hn).elim
  rw [loop]
  cases b.symbolTerminalTypes.findSome? (fun ty => Read.firstOf b.isNodeIgnored ty n) with
  | some c =>
    simp only
    cases Read.terminalName b.isNodeIgnored b str c <;> simp
  | none =>
    simp only [Res.ok_bind, Bindings.lrTraverse_eq, Read.firstOf, Read.allOf]
    cases topmost b.isNodeIgnored (fun x => decide (x = b.symbolNonTerminalType)) n with
    | nil =>
      simp only [runOn, List.head?_nil, nodeName, text_eq]
      cases slice str n.pos n.stop <;> rfl
    | cons c cs =>
      simp only [runOn, List.head?_cons, doOnNonTerminalName, nodeName, text_eq]
      cases slice str c.pos c.stop <;> rfl

theorem parseSequence_eq (b : Bindings) (n : Node) (str : Str) :
    b.parseSequence n str = Read.sequence b.isNodeIgnored b str n := by
  unfold Bindings.parseSequence Read.sequence Read.allOf
  rw [Bindings.lrTraverse_eq]
  have hf : b.doOnSymbol str = appender (Read.symbol b.isNodeIgnored b str) := by
    funext c acc
    unfold Bindings.doOnSymbol appender
    rw [parseSymbol_eq]
    cases Read.symbol b.isNodeIgnored b str c <;> rfl
  rw [hf]
  have := runOn_appender (Read.symbol b.isNodeIgnored b str) (fun n => (clean_symbol _ _ _ n).1)
    (topmost b.isNodeIgnored (fun x => decide (x = b.sequencesSymbolType)) n) [] Sequence.mk
  refine Eq.trans ?_ this
  cases runOn (appender (Read.symbol b.isNodeIgnored b str))
    (topmost b.isNodeIgnored (fun x => decide (x = b.sequencesSymbolType)) n) [] with
  | error p => rfl
  | ok r => obtain ⟨a, e⟩ := r; cases e <;> rfl

theorem parseSubstitution_eq (b : Bindings) (n : Node) (str : Str) :
    b.parseSubstitution n str = Read.substitution b.isNodeIgnored b str n := by
  unfold Bindings.parseSubstitution Read.substitution Read.allOf
  rw [Bindings.lrTraverse_eq]
  have hf : b.doOnSequence str = appender (Read.sequence b.isNodeIgnored b str) := by
    funext c acc
    unfold Bindings.doOnSequence appender
    rw [parseSequence_eq]
    cases Read.sequence b.isNodeIgnored b str c <;> rfl
  rw [hf]
  have := runOn_appender (Read.sequence b.isNodeIgnored b str) (fun n => (clean_sequence _ _ _ n).1)
    (topmost b.isNodeIgnored (fun x => decide (x = b.expressionSequencesType)) n) [] Substitution.mk
  refine Eq.trans ?_ this
  cases runOn (appender (Read.sequence b.isNodeIgnored b str))
    (topmost b.isNodeIgnored (fun x => decide (x = b.expressionSequencesType)) n) [] with
  | error p => rfl
  | ok r => obtain ⟨a, e⟩ := r; cases e <;> rfl

theorem parseRule_eq (b : Bindings) (n : Node) (str : Str) :
    b.parseRule n str = Read.rule b.isNodeIgnored b str n := by
  unfold Bindings.parseRule Read.rule
  simp only [Bindings.lrTraverse_eq, Read.firstOf, Read.allOf]
  cases topmost b.isNodeIgnored (fun x => decide (x = b.ruleHeadType)) n with
  | nil =>
    simp only [runOn, List.head?_nil, nodeName, text_eq]
    cases slice str n.pos n.stop <;> rfl
  | cons h hs =>
    simp only [runOn, List.head?_cons, doOnHead, nodeName, text_eq]
    cases slice str h.pos h.stop with
    | error p => rfl
    | ok head =>
      simp only [Res.ok_bind]
      cases topmost b.isNodeIgnored (fun x => decide (x = b.ruleTailType)) n with
      | nil =>
        simp only [runOn, List.head?_nil]
        cases slice str n.pos n.stop <;> rfl
      | cons e es =>
        simp only [runOn, List.head?_cons, Bindings.doOnSubstitution, parseSubstitution_eq]
        cases hn : Read.substitution b.isNodeIgnored b str e with
        | ok s => rfl
        | err x =>
          cases x with
          | searchComplete => exact ((clean_substitution _ _ _ _).2 hn).elim
          | _ => rfl
        | panic p => rfl
        | diverge => exact ((clean_substitution _ _ _ _).1 hn).elim

/-! ## The sorted slice is the set -/

theorem mem_insertInt (x y : Int) (l : List Int) : y ∈ insertInt x l ↔ y = x ∨ y ∈ l := by
  induction l with
  | nil => simp [insertInt]
  | cons z l ih =>
    unfold insertInt
    split
    · simp
    · simp only [List.mem_cons, ih]
      constructor
      · rintro (h | h | h)
        · exact .inr (.inl h)
        · exact .inl h
        · exact .inr (.inr h)
      · rintro (h | h | h)
        · exact .inr (.inl h)
        · exact .inl h
        · exact .inr (.inr h)

theorem mem_sortInts (y : Int) (l : List Int) : y ∈ sortInts l ↔ y ∈ l := by
  induction l with
  | nil => simp [sortInts]
  | cons x l ih => simp [sortInts, mem_insertInt, ih]

theorem sorted_insertInt (x : Int) (l : List Int) (h : l.Pairwise (· ≤ ·)) :
    (insertInt x l).Pairwise (· ≤ ·) := by
  induction l with
  | nil => simp [insertInt]
  | cons y l ih =>
    rw [List.pairwise_cons] at h
    unfold insertInt
    split
    · rename_i hxy
      rw [List.pairwise_cons]
      refine ⟨?_, List.pairwise_cons.2 h⟩
      intro z hz
      rcases List.mem_cons.1 hz with rfl | hz
      · exact hxy
      · exact Int.le_trans hxy (h.1 z hz)
    · rename_i hxy
      rw [List.pairwise_cons]
      refine ⟨?_, ih h.2⟩
      intro z hz
      rcases (mem_insertInt x z l).1 hz with rfl | hz
      · omega
      · exact h.1 z hz

theorem sorted_sortInts (l : List Int) : (sortInts l).Pairwise (· ≤ ·) := by
  induction l with
  | nil => simp [sortInts]
  | cons x l ih => exact sorted_insertInt x _ ih

theorem searchLoop_spec (f : Nat → Bool) (n : Nat) (hm : ∀ k l, k ≤ l → l < n → f k = true → f l = true) :
    ∀ (fuel i j : Nat), i ≤ j → j ≤ n → j - i ≤ fuel → (∀ k, k < i → f k = false) →
      (∀ k, j ≤ k → k < n → f k = true) →
      searchLoop f fuel i j ≤ n ∧ (∀ k, k < searchLoop f fuel i j → f k = false) ∧
      (∀ k, searchLoop f fuel i j ≤ k → k < n → f k = true) := by
  intro fuel
  induction fuel with
  | zero =>
    intro i j hij hj hf h1 h2
    have : i = j := by omega
    subst this
    exact ⟨hj, h1, h2⟩
  | succ fuel ih =>
    intro i j hij hj hf h1 h2
    unfold searchLoop
    by_cases hlt : i < j
    · rw [if_pos hlt]
      simp only
      cases hfh : f ((i + j) / 2) with
      | true =>
        simp only [Bool.not_true, Bool.false_eq_true, if_false]
        refine ih i ((i + j) / 2) (by omega) (by omega) (by omega) h1 ?_
        intro k hk hkn
        exact hm _ k hk hkn hfh
      | false =>
        simp only [Bool.not_false, if_true]
        refine ih ((i + j) / 2 + 1) j (by omega) (by omega) (by omega) ?_ h2
        intro k hk
        cases hfk : f k with
        | false => rfl
        | true =>
          have := hm k ((i + j) / 2) (by omega) (by omega) hfk
          rw [hfh] at this; cases this
    · rw [if_neg hlt]
      have : i = j := by omega
      subst this
      exact ⟨hj, h1, h2⟩

theorem isNodeIgnored_sorted (b : Bindings) (hs : b.ignoreNodeTypes.Pairwise (· ≤ ·)) (t : Int) :
    b.isNodeIgnored t = decide (t ∈ b.ignoreNodeTypes) := by
  unfold Bindings.isNodeIgnored
  generalize b.ignoreNodeTypes = a at hs
  simp only
  rw [List.pairwise_iff_getElem] at hs
  have hspec := searchLoop_spec (fun h => match a[h]? with | some y => decide (y ≥ t) | none => false) a.length
    (by
      intro k l hkl hl hk
      have hk' : k < a.length := by omega
      rw [List.getElem?_eq_getElem hk'] at hk
      rw [List.getElem?_eq_getElem hl]
      simp only [decide_eq_true_eq] at hk ⊢
      rcases Nat.lt_or_eq_of_le hkl with h | rfl
      · have := hs k l hk' hl h
        omega
      · exact hk)
    a.length 0 a.length (Nat.zero_le _) (Nat.le_refl _) (by omega) (by intro k hk; omega)
    (by intro k hk hk'; omega)
  change searchInts a t ≤ _ ∧ (∀ k, k < searchInts a t → _) ∧ (∀ k, searchInts a t ≤ k → _) at hspec
  obtain ⟨h1, h2, h3⟩ := hspec
  generalize searchInts a t = r at h1 h2 h3
  have hform : (if h : r < a.length then decide (a[r] = t) else false) =
      (decide (r < a.length) && decide (a[r]? = some t)) := by
    split
    · next h => rw [List.getElem?_eq_getElem h]; simp [h]
    · next h => simp [h]
  rw [hform, Bool.eq_iff_iff]
  simp only [Bool.and_eq_true, decide_eq_true_eq]
  constructor
  · rintro ⟨_, h⟩
    exact List.mem_of_getElem? h
  · intro hm
    obtain ⟨k, hk⟩ := List.getElem?_of_mem hm
    have hkl := (List.getElem?_eq_some_iff.1 hk).1
    have hrk : r ≤ k := by
      rcases Nat.lt_or_ge k r with h | h
      · have := h2 k h
        simp [hk] at this
      · exact h
    refine ⟨by omega, ?_⟩
    have hr := h3 r (Nat.le_refl _) (by omega)
    rw [List.getElem?_eq_getElem (by omega)] at hr ⊢
    simp only [decide_eq_true_eq, Option.some.injEq] at hr ⊢
    rcases Nat.lt_or_eq_of_le hrk with h | rfl
    · have := hs r k (by omega) hkl h
      rw [List.getElem?_eq_getElem hkl] at hk
      simp only [Option.some.injEq] at hk
      omega
    · rw [List.getElem?_eq_getElem hkl] at hk
      simpa using hk

section
variable (skip : Int → Bool) (b : Bindings) (ig : List Int) (str : Str)

theorem escape_ig : Read.escape skip { b with ignoreNodeTypes := ig } str = Read.escape skip b str := rfl
theorem terminalName_ig :
    Read.terminalName skip { b with ignoreNodeTypes := ig } str = Read.terminalName skip b str := by
  funext n; unfold Read.terminalName; rw [escape_ig]
theorem symbol_ig : Read.symbol skip { b with ignoreNodeTypes := ig } str = Read.symbol skip b str := by
  funext n; unfold Read.symbol; rw [terminalName_ig]
theorem sequence_ig : Read.sequence skip { b with ignoreNodeTypes := ig } str = Read.sequence skip b str := by
  funext n; unfold Read.sequence; rw [symbol_ig]
theorem substitution_ig :
    Read.substitution skip { b with ignoreNodeTypes := ig } str = Read.substitution skip b str := by
  funext n; unfold Read.substitution; rw [sequence_ig]
theorem rule_ig : Read.rule skip { b with ignoreNodeTypes := ig } str = Read.rule skip b str := by
  funext n; unfold Read.rule; rw [substitution_ig]
end

/-- `ToAST` is the direct reading. -/
theorem toAST_eq (b : Bindings) (root : Node) (str : Str) :
    b.toAST root str = Read.grammar (fun t => decide (t ∈ b.ignoreNodeTypes)) b str root := by
  unfold Bindings.toAST Bindings.toASTBody Read.grammar Read.allOf
  simp only
  have hig : ({ b with ignoreNodeTypes := sortInts b.ignoreNodeTypes } : Bindings).isNodeIgnored =
      fun t => decide (t ∈ b.ignoreNodeTypes) := by
    funext t
    rw [isNodeIgnored_sorted _ (sorted_sortInts _)]
    simp only [mem_sortInts]
  rw [Bindings.lrTraverse_eq]
  have hf : ({ b with ignoreNodeTypes := sortInts b.ignoreNodeTypes } : Bindings).doOnRule str =
      appender (Read.rule (fun t => decide (t ∈ b.ignoreNodeTypes)) b str) := by
    funext c acc
    unfold Bindings.doOnRule appender
    rw [parseRule_eq, hig, rule_ig]
    cases Read.rule (fun t => decide (t ∈ b.ignoreNodeTypes)) b str c <;> rfl
  rw [hf, hig]
  have := runOn_appender (Read.rule (fun t => decide (t ∈ b.ignoreNodeTypes)) b str)
    (fun n => (clean_rule _ _ _ n).1)
    (topmost (fun t => decide (t ∈ b.ignoreNodeTypes)) (fun x => decide (x = b.ruleType)) root) [] Grammar.mk
  refine Eq.trans ?_ this
  cases runOn (appender (Read.rule (fun t => decide (t ∈ b.ignoreNodeTypes)) b str))
    (topmost (fun t => decide (t ∈ b.ignoreNodeTypes)) (fun x => decide (x = b.ruleType)) root) [] with
  | error p => rfl
  | ok r => obtain ⟨a, e⟩ := r; cases e <;> rfl

end FC
end LL1
