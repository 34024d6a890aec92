import Verif.Model.TableGenCost
import Verif.Proofs.TableTop

/-!
# Lemmas for C82: the steps of `FromGrammar`
-/

namespace LL1
namespace TG

/-! ## The counting monad -/

namespace CR
variable {α β : Type}

@[simp] theorem pure_res (a : α) : (pure a : CR α).res = .ok a := rfl
@[simp] theorem pure_steps (a : α) : (pure a : CR α).steps = 0 := rfl

@[simp] theorem bind_res (x : CR α) (f : α → CR β) : (x >>= f).res = x.res >>= fun a => (f a).res := by
  show (CR.bind x f).res = _
  unfold CR.bind
  cases x.res <;> rfl

theorem bind_steps_le (x : CR α) (f : α → CR β) {a b : Nat} (hx : x.steps ≤ a)
    (hf : ∀ v, x.res = .ok v → (f v).steps ≤ b) : (x >>= f).steps ≤ a + b := by
  show (CR.bind x f).steps ≤ _
  unfold CR.bind
  split
  · next v h => have := hf v h; simp only; omega
  all_goals simp only; omega

theorem bind_steps_ok (x : CR α) (f : α → CR β) {v : α} (h : x.res = .ok v) :
    (x >>= f).steps = x.steps + (f v).steps := by
  show (CR.bind x f).steps = _
  unfold CR.bind
  rw [h]

end CR

@[simp] theorem free_res {α : Type} (x : R α) : (free x).res = x := rfl
@[simp] theorem free_steps {α : Type} (x : R α) : (free x).steps = 0 := rfl
@[simp] theorem tick_res : tick.res = .ok () := rfl
@[simp] theorem ticks_res (n : Nat) : (ticks n).res = .ok () := rfl

theorem tick_bind_steps {α : Type} (f : Unit → CR α) : (tick >>= f).steps = 1 + (f ()).steps :=
  CR.bind_steps_ok _ _ rfl
theorem ticks_bind_steps {α : Type} (n : Nat) (f : Unit → CR α) : (ticks n >>= f).steps = n + (f ()).steps :=
  CR.bind_steps_ok _ _ rfl

theorem free_bind_steps_le {α β : Type} (x : R α) (f : α → CR β) {b : Nat} (hf : ∀ v, x = .ok v → (f v).steps ≤ b) :
    (free x >>= f).steps ≤ b := by
  have := CR.bind_steps_le (free x) f (a := 0) (b := b) (by simp) hf
  omega

/-! ## The results are those of `Model/TableGen.lean` -/

theorem sequenceFirstsLoopC_res (tg : Gen) (firsts : List ByteSet) (n : Nat) (ss : List Symbol) (res : ByteSet) (b : Bool) :
    (sequenceFirstsLoopC tg firsts n ss res b).res = sequenceFirstsLoop tg firsts n ss res b := by
  induction ss generalizing res b with
  | nil => simp [sequenceFirstsLoopC, sequenceFirstsLoop]
  | cons s ss ih =>
    cases s with
    | terminal name => simp [sequenceFirstsLoopC, sequenceFirstsLoop]
    | nothing =>
      simp only [sequenceFirstsLoopC, sequenceFirstsLoop, CR.bind_res, tick_res, Res.ok_bind]
      split <;> simp
    | nonTerminal name =>
      simp only [sequenceFirstsLoopC, sequenceFirstsLoop, CR.bind_res, tick_res, Res.ok_bind]
      cases tg.ruleMap.get name with
      | none => rfl
      | some k =>
        simp only [CR.bind_res, free_res]
        congr 1; funext rf
        split
        · simp
        · exact ih _ _

theorem sequenceFirstsC_res (tg : Gen) (firsts : List ByteSet) (s : Sequence) :
    (sequenceFirstsC tg firsts s).res = sequenceFirsts tg firsts s := sequenceFirstsLoopC_res ..

theorem substitutionFirstsLoopC_res (tg : Gen) (firsts : List ByteSet) (ss : List Sequence) (res : ByteSet) :
    (substitutionFirstsLoopC tg firsts ss res).res = substitutionFirstsLoop tg firsts ss res := by
  induction ss generalizing res with
  | nil => simp [substitutionFirstsLoopC, substitutionFirstsLoop]
  | cons s ss ih => simp [substitutionFirstsLoopC, substitutionFirstsLoop, sequenceFirstsC_res, ih]

theorem ruleFirstsC_res (tg : Gen) (i : Nat) (st : List ByteSet × Bool) :
    (ruleFirstsC tg i st).res = ruleFirsts tg i st := by
  unfold ruleFirstsC ruleFirsts
  split
  · rfl
  · simp only [CR.bind_res, free_res, substitutionFirstsLoopC_res, substitutionFirsts]
    congr 1; funext r; congr 1; funext t; congr 1; funext c
    split
    · simp
    · simp

theorem forEachC_res {σ : Type} {f : Nat → σ → CR σ} {f' : Nat → σ → R σ} (h : ∀ i s, (f i s).res = f' i s)
    (is : List Nat) (s : σ) : (forEachC f is s).res = forEach f' is s := by
  induction is generalizing s with
  | nil => simp [forEachC, forEach]
  | cons i is ih => simp [forEachC, forEach, h, ih]

theorem firstsPassC_res (tg : Gen) (firsts : List ByteSet) : (firstsPassC tg firsts).res = firstsPass tg firsts :=
  forEachC_res (ruleFirstsC_res tg) _ _

theorem fixLoopC_res {pass : List ByteSet → CR (List ByteSet × Bool)} {pass' : List ByteSet → R (List ByteSet × Bool)}
    (h : ∀ s, (pass s).res = pass' s) (fuel : Nat) (sets : List ByteSet) :
    (fixLoopC pass fuel sets).res = fixLoop pass' fuel sets := by
  induction fuel generalizing sets with
  | zero => simp [fixLoopC, fixLoop]
  | succ n ih =>
    simp only [fixLoopC, fixLoop, CR.bind_res, tick_res, Res.ok_bind, h]
    congr 1; funext p
    split
    · exact ih _
    · rfl

theorem findFirstsC_res (tg : Gen) (firsts : List ByteSet) : (findFirstsC tg firsts).res = findFirsts tg firsts := by
  unfold findFirstsC findFirsts
  rw [findFirstsLoop_eq]
  exact fixLoopC_res (firstsPassC_res tg) _ _

theorem followsInnerLoopC_res (tg : Gen) (firsts : List ByteSet) (i j : Nat) (hd : Str) (next : Symbol) (ss : List Symbol)
    (st : FState) : (followsInnerLoopC tg firsts i j hd next ss st).res = followsInnerLoop tg firsts i j hd next ss st := by
  induction ss generalizing next st with
  | nil => simp [followsInnerLoopC, followsInnerLoop]
  | cons s ss ih => simp [followsInnerLoopC, followsInnerLoop, ih]

theorem ruleFollowsInSequenceC_res (tg : Gen) (firsts : List ByteSet) (i : Nat) (s : Sequence) (j : Nat) (st : FState) :
    (ruleFollowsInSequenceC tg firsts i s j st).res = ruleFollowsInSequence tg firsts i s j st := by
  unfold ruleFollowsInSequenceC ruleFollowsInSequence
  simp only [CR.bind_res, free_res]
  congr 1; funext r
  cases s.symbols.reverse with
  | nil => rfl
  | cons last rp =>
    simp only [CR.bind_res, free_res]
    congr 1; funext p
    split
    · simp
    · exact followsInnerLoopC_res ..

theorem followsSequencesC_res (tg : Gen) (firsts : List ByteSet) (i j : Nat) (ss : List Sequence) (st : FState) :
    (followsSequencesC tg firsts i j ss st).res = followsSequences tg firsts i j ss st := by
  induction ss generalizing st with
  | nil => simp [followsSequencesC, followsSequences]
  | cons s ss ih => simp [followsSequencesC, followsSequences, ruleFollowsInSequenceC_res, ih]

theorem ruleFollowsInRuleC_res (tg : Gen) (firsts : List ByteSet) (i j : Nat) (st : FState) :
    (ruleFollowsInRuleC tg firsts i j st).res = ruleFollowsInRule tg firsts i j st := by
  unfold ruleFollowsInRuleC ruleFollowsInRule
  split
  · rfl
  · split
    · rfl
    · simp [followsSequencesC_res]

theorem followsPassC_res (tg : Gen) (firsts follows : List ByteSet) :
    (followsPassC tg firsts follows).res = followsPass tg firsts follows :=
  forEachC_res (fun _ _ => forEachC_res (fun _ _ => ruleFollowsInRuleC_res ..) _ _) _ _

theorem findFollowsC_res (tg : Gen) (firsts follows : List ByteSet) :
    (findFollowsC tg firsts follows).res = findFollows tg firsts follows := by
  unfold findFollowsC findFollows
  simp only [CR.bind_res, free_res, findFollowsLoop_eq]
  congr 1; funext f0; congr 1; funext fs
  exact fixLoopC_res (followsPassC_res tg firsts) _ _

theorem addEmptyCellsC_res (bs : List UInt8) (res : Row) : (addEmptyCellsC bs res).res = addEmptyCells bs res := by
  induction bs generalizing res with
  | nil => simp [addEmptyCellsC, addEmptyCells]
  | cons b bs ih =>
    simp only [addEmptyCellsC, addEmptyCells, CR.bind_res, tick_res, Res.ok_bind]
    cases GoMap.get res b with
    | some _ => rfl
    | none => exact ih _

theorem addSymbolsC_res (tg : Gen) (term : UInt8) (ss : List Symbol) (res : Row) :
    (addSymbolsC tg term ss res).res = addSymbols tg term ss res := by
  induction ss generalizing res with
  | nil => simp [addSymbolsC, addSymbols]
  | cons s ss ih =>
    cases s with
    | terminal name => simp [addSymbolsC, addSymbols, ih]
    | nothing => simp [addSymbolsC, addSymbols]
    | nonTerminal name =>
      simp only [addSymbolsC, addSymbols, CR.bind_res, tick_res, Res.ok_bind]
      cases tg.ruleMap.get name with
      | none => rfl
      | some k => exact ih _

theorem addFirstCellsC_res (tg : Gen) (s : Sequence) (bs : List UInt8) (res : Row) :
    (addFirstCellsC tg s bs res).res = addFirstCells tg s bs res := by
  induction bs generalizing res with
  | nil => simp [addFirstCellsC, addFirstCells]
  | cons b bs ih => simp [addFirstCellsC, addFirstCells, addSymbolsC_res, ih]

theorem addSequenceC_res (tg : Gen) (firsts follows : List ByteSet) (i : Nat) (s : Sequence) (res : Row) :
    (addSequenceC tg firsts follows i s res).res = addSequence tg firsts follows i s res := by
  unfold addSequenceC addSequence
  simp only [CR.bind_res, sequenceFirstsC_res]
  congr 1; funext sf
  split
  · simp [addEmptyCellsC_res, addFirstCellsC_res]
  · simp [addFirstCellsC_res]

theorem addSequencesC_res (tg : Gen) (firsts follows : List ByteSet) (i : Nat) (ss : List Sequence) (res : Row) :
    (addSequencesC tg firsts follows i ss res).res = addSequences tg firsts follows i ss res := by
  induction ss generalizing res with
  | nil => simp [addSequencesC, addSequences]
  | cons s ss ih => simp [addSequencesC, addSequences, addSequenceC_res, ih]

theorem makeTableC_res (tg : Gen) (firsts follows : List ByteSet) :
    (makeTableC tg firsts follows).res = makeTable tg firsts follows := by
  refine forEachC_res (fun i t => ?_) _ _
  simp [makeTableRowC, makeTableRow, addSequencesC_res]

theorem runC_res (tg : Gen) (firsts follows : List ByteSet) : (runC tg firsts follows).res = run tg firsts follows := by
  simp [runC, run, findFirstsC_res, findFollowsC_res, makeTableC_res]

end TG

theorem fromGrammarC_res (order : List (Str × Nat) → List (Str × Nat)) (g : Grammar) :
    (fromGrammarC order g).res = fromGrammar order g := by
  simp [fromGrammarC, fromGrammar, TG.runC_res]

namespace TG

/-! ## The number of steps -/

/-- Alternatives and symbols of a rule. -/
def seqW (s : Sequence) : Nat := 1 + s.symbols.length
def seqsW (ss : List Sequence) : Nat := (ss.map seqW).sum
def ruleW (r : Rule) : Nat := seqsW r.tail.sequences
def rulesW (rs : List Rule) : Nat := (rs.map ruleW).sum

theorem sequenceFirstsLoopC_steps (tg : Gen) (firsts : List ByteSet) (n : Nat) (ss : List Symbol) (res : ByteSet)
    (b : Bool) : (sequenceFirstsLoopC tg firsts n ss res b).steps ≤ ss.length := by
  induction ss generalizing res b with
  | nil => simp [sequenceFirstsLoopC]
  | cons s ss ih =>
    rw [List.length_cons, Nat.add_comm]
    cases s with
    | terminal name =>
      simp only [sequenceFirstsLoopC, tick_bind_steps]
      refine Nat.add_le_add_left (Nat.le_trans (free_bind_steps_le (b := 0) _ _ fun v _ => ?_) (Nat.zero_le _)) _
      simp
    | nothing =>
      simp only [sequenceFirstsLoopC, tick_bind_steps]
      split <;> simp
    | nonTerminal name =>
      simp only [sequenceFirstsLoopC, tick_bind_steps]
      refine Nat.add_le_add_left ?_ _
      split
      · simp
      · refine free_bind_steps_le _ _ fun v _ => ?_
        split
        · simp
        · exact ih _ _

theorem sequenceFirstsC_steps (tg : Gen) (firsts : List ByteSet) (s : Sequence) :
    (sequenceFirstsC tg firsts s).steps ≤ s.symbols.length := sequenceFirstsLoopC_steps ..

theorem seqsW_cons (s : Sequence) (ss : List Sequence) : seqsW (s :: ss) = 1 + s.symbols.length + seqsW ss := by
  simp [seqsW, seqW]

theorem substitutionFirstsLoopC_steps (tg : Gen) (firsts : List ByteSet) (ss : List Sequence) (res : ByteSet) :
    (substitutionFirstsLoopC tg firsts ss res).steps ≤ seqsW ss := by
  induction ss generalizing res with
  | nil => simp [substitutionFirstsLoopC]
  | cons s ss ih =>
    simp only [substitutionFirstsLoopC, tick_bind_steps, seqsW_cons, Nat.add_assoc]
    exact Nat.add_le_add_left (CR.bind_steps_le _ _ (sequenceFirstsC_steps ..) fun _ _ => ih _) _

/-- Work attributed to the rule number `i`. -/
def at' (rs : List Rule) (w : Rule → Nat) (i : Nat) : Nat := match rs[i]? with | some r => w r | none => 0

theorem ruleFirstsC_steps (tg : Gen) (i : Nat) (st : List ByteSet × Bool) :
    (ruleFirstsC tg i st).steps ≤ at' tg.g.rules ruleW i := by
  unfold ruleFirstsC
  split
  · simp
  · refine free_bind_steps_le _ _ fun r hr => ?_
    have hr := idx_ok.1 hr
    rw [at', hr]
    simp only
    have := CR.bind_steps_le (substitutionFirstsLoopC tg st.1 r.tail.sequences (ByteSet.new []))
      (fun tempRes => do
        let cur ← free (idx st.1 i)
        if cur.isSuperSet tempRes then return st
        else
          let firsts ← free (setIdx st.1 i (cur.union tempRes))
          return (firsts, true)) (b := 0) (substitutionFirstsLoopC_steps ..) (fun v _ => by
        refine free_bind_steps_le _ _ fun c _ => ?_
        split
        · simp
        · exact free_bind_steps_le _ _ fun c _ => by simp)
    exact this

theorem forEachC_steps {σ : Type} {f : Nat → σ → CR σ} {w : Nat → Nat} (h : ∀ i s, (f i s).steps ≤ w i)
    (is : List Nat) (s : σ) : (forEachC f is s).steps ≤ is.length + (is.map w).sum := by
  induction is generalizing s with
  | nil => simp [forEachC]
  | cons i is ih =>
    simp only [forEachC, tick_bind_steps, List.length_cons, List.map_cons, List.sum_cons]
    have := CR.bind_steps_le (f i s) (fun s' => forEachC f is s') (h i s) (fun v _ => ih v)
    omega

theorem sum_at' (rs : List Rule) (w : Rule → Nat) : ((List.range rs.length).map (at' rs w)).sum = (rs.map w).sum := by
  congr 1
  apply List.ext_getElem (by simp)
  intro i h1 h2
  simp at h1
  simp [at', h1]

theorem sum_const (n k : Nat) : ((List.range n).map fun _ => k).sum = n * k := by
  simp [List.map_const']

theorem firstsPassC_steps (tg : Gen) (firsts : List ByteSet) :
    (firstsPassC tg firsts).steps ≤ tg.g.rules.length + rulesW tg.g.rules := by
  have := forEachC_steps (ruleFirstsC_steps tg) (List.range tg.g.rules.length) (firsts, false)
  rw [sum_at', List.length_range] at this
  exact this

theorem fixLoopC_steps {pass : List ByteSet → CR (List ByteSet × Bool)} {k : Nat} (h : ∀ s, (pass s).steps ≤ k)
    (fuel : Nat) (sets : List ByteSet) : (fixLoopC pass fuel sets).steps ≤ fuel * (1 + k) := by
  induction fuel generalizing sets with
  | zero => simp [fixLoopC]
  | succ n ih =>
    simp only [fixLoopC, tick_bind_steps]
    rw [Nat.succ_mul]
    have := CR.bind_steps_le (pass sets)
      (fun x => match x with | (sets, changed) => if changed = true then fixLoopC pass n sets else pure sets)
      (h sets) (b := n * (1 + k)) (fun v _ => by
        obtain ⟨v1, v2⟩ := v
        simp only
        split
        · exact ih _
        · simp)
    have h2 : n * (1 + k) + (1 + k) = 1 + (k + n * (1 + k)) := by omega
    rw [h2]
    exact Nat.add_le_add_left this _

theorem followsInnerLoopC_steps (tg : Gen) (firsts : List ByteSet) (i j : Nat) (hd : Str) (next : Symbol)
    (ss : List Symbol) (st : FState) : (followsInnerLoopC tg firsts i j hd next ss st).steps ≤ ss.length := by
  induction ss generalizing next st with
  | nil => simp [followsInnerLoopC]
  | cons s ss ih =>
    simp only [followsInnerLoopC, tick_bind_steps, List.length_cons]
    rw [Nat.add_comm]
    exact Nat.add_le_add_right (free_bind_steps_le _ _ fun v _ => ih _ _) _

theorem ruleFollowsInSequenceC_steps (tg : Gen) (firsts : List ByteSet) (i : Nat) (s : Sequence) (j : Nat) (st : FState) :
    (ruleFollowsInSequenceC tg firsts i s j st).steps ≤ s.symbols.length := by
  unfold ruleFollowsInSequenceC
  refine free_bind_steps_le _ _ fun r _ => ?_
  split
  · simp
  · next last rp h =>
    have hl : s.symbols.length = rp.length + 1 := by
      rw [← List.length_reverse, h]; rfl
    refine free_bind_steps_le _ _ fun p _ => ?_
    obtain ⟨p1, p2⟩ := p
    simp only
    split
    · simp
    · have := followsInnerLoopC_steps tg firsts i j r.head last rp p1
      omega

theorem followsSequencesC_steps (tg : Gen) (firsts : List ByteSet) (i j : Nat) (ss : List Sequence) (st : FState) :
    (followsSequencesC tg firsts i j ss st).steps ≤ seqsW ss := by
  induction ss generalizing st with
  | nil => simp [followsSequencesC]
  | cons s ss ih =>
    simp only [followsSequencesC, tick_bind_steps, seqsW_cons, Nat.add_assoc]
    exact Nat.add_le_add_left (CR.bind_steps_le _ _ (ruleFollowsInSequenceC_steps ..) fun _ _ => ih _) _

theorem ruleFollowsInRuleC_steps (tg : Gen) (firsts : List ByteSet) (i j : Nat) (st : FState) :
    (ruleFollowsInRuleC tg firsts i j st).steps ≤ at' tg.g.rules ruleW j := by
  unfold ruleFollowsInRuleC
  split
  · simp
  · split
    · simp
    · refine free_bind_steps_le _ _ fun r hr => ?_
      have hr := idx_ok.1 hr
      rw [at', hr]
      exact followsSequencesC_steps ..

theorem followsPassC_steps (tg : Gen) (firsts follows : List ByteSet) :
    (followsPassC tg firsts follows).steps ≤
      tg.g.rules.length + tg.g.rules.length * (tg.g.rules.length + rulesW tg.g.rules) := by
  have h1 : ∀ (i : Nat) (st : FState),
      (forEachC (fun j st => ruleFollowsInRuleC tg firsts i j st) (List.range tg.g.rules.length) st).steps ≤
        tg.g.rules.length + rulesW tg.g.rules := by
    intro i st
    have := forEachC_steps (fun j st => ruleFollowsInRuleC_steps tg firsts i j st) (List.range tg.g.rules.length) st
    rw [sum_at', List.length_range] at this
    exact this
  have := forEachC_steps (w := fun _ => tg.g.rules.length + rulesW tg.g.rules) h1 (List.range tg.g.rules.length)
    (follows, false)
  rw [sum_const, List.length_range] at this
  exact this

theorem addEmptyCellsC_steps (bs : List UInt8) (res : Row) : (addEmptyCellsC bs res).steps ≤ bs.length := by
  induction bs generalizing res with
  | nil => simp [addEmptyCellsC]
  | cons b bs ih =>
    simp only [addEmptyCellsC, tick_bind_steps, List.length_cons]
    rw [Nat.add_comm]
    refine Nat.add_le_add_right ?_ _
    split
    · simp
    · exact ih _

theorem addSymbolsC_steps (tg : Gen) (term : UInt8) (ss : List Symbol) (res : Row) :
    (addSymbolsC tg term ss res).steps ≤ ss.length := by
  induction ss generalizing res with
  | nil => simp [addSymbolsC]
  | cons s ss ih =>
    rw [List.length_cons, Nat.add_comm]
    cases s with
    | terminal name => simp only [addSymbolsC, tick_bind_steps]; exact Nat.add_le_add_left (ih _) _
    | nothing => simp [addSymbolsC, tick_bind_steps]
    | nonTerminal name =>
      simp only [addSymbolsC, tick_bind_steps]
      refine Nat.add_le_add_left ?_ _
      split
      · simp
      · exact ih _

theorem addFirstCellsC_steps (tg : Gen) (s : Sequence) (bs : List UInt8) (res : Row) :
    (addFirstCellsC tg s bs res).steps ≤ bs.length * (1 + s.symbols.length) := by
  induction bs generalizing res with
  | nil => simp [addFirstCellsC]
  | cons b bs ih =>
    simp only [addFirstCellsC, tick_bind_steps, List.length_cons]
    rw [Nat.succ_mul]
    have := CR.bind_steps_le (addSymbolsC tg b s.symbols res) (fun r => addFirstCellsC tg s bs r)
      (addSymbolsC_steps ..) (fun v _ => ih v)
    omega

theorem bytesOf_length {s : ByteSet} {l : List UInt8} (h : bytesOf s = .ok l) : l.length ≤ 256 := by
  unfold bytesOf at h
  split at h
  · next bs hb =>
    cases h
    rw [ByteSet.bytes_eq] at hb
    rw [← Option.some.inj hb]
    exact card_le s
  · cases h

theorem addSequenceC_steps (tg : Gen) (firsts follows : List ByteSet) (i : Nat) (s : Sequence) (res : Row) :
    (addSequenceC tg firsts follows i s res).steps ≤ 512 + 257 * s.symbols.length := by
  unfold addSequenceC
  refine Nat.le_trans (CR.bind_steps_le (b := 256 + 256 * (1 + s.symbols.length)) _ _ (sequenceFirstsC_steps ..)
    fun sf _ => ?_) (by omega)
  have hc : ∀ (bs : List UInt8) (r : Row), bs.length ≤ 256 →
      (addFirstCellsC tg s bs r).steps ≤ 256 * (1 + s.symbols.length) := fun bs r hb =>
    Nat.le_trans (addFirstCellsC_steps ..) (Nat.mul_le_mul_right _ hb)
  split
  · refine free_bind_steps_le _ _ fun fo _ => free_bind_steps_le _ _ fun fb hfb => ?_
    refine CR.bind_steps_le _ _ (Nat.le_trans (addEmptyCellsC_steps ..) (bytesOf_length hfb)) fun r _ => ?_
    exact free_bind_steps_le _ _ fun bs hbs => hc _ _ (bytesOf_length hbs)
  · exact Nat.le_trans (free_bind_steps_le _ _ fun bs hbs => hc _ _ (bytesOf_length hbs)) (by omega)

theorem addSequencesC_steps (tg : Gen) (firsts follows : List ByteSet) (i : Nat) (ss : List Sequence) (res : Row) :
    (addSequencesC tg firsts follows i ss res).steps ≤ 513 * seqsW ss := by
  induction ss generalizing res with
  | nil => simp [addSequencesC]
  | cons s ss ih =>
    simp only [addSequencesC, tick_bind_steps, seqsW_cons]
    have := CR.bind_steps_le _ (fun r => addSequencesC tg firsts follows i ss r)
      (addSequenceC_steps tg firsts follows i s res) (fun v _ => ih v)
    omega

theorem makeTableC_steps (tg : Gen) (firsts follows : List ByteSet) :
    (makeTableC tg firsts follows).steps ≤ tg.g.rules.length + 513 * rulesW tg.g.rules := by
  have h1 : ∀ (i : Nat) (t : Table), (do
      let row ← makeTableRowC tg firsts follows i
      return GoMap.set t (i : Int) row : CR Table).steps ≤ at' tg.g.rules (fun r => 513 * ruleW r) i := by
    intro i t
    refine CR.bind_steps_le (b := 0) _ _ ?_ fun _ _ => by simp
    refine free_bind_steps_le _ _ fun r hr => ?_
    have hr := idx_ok.1 hr
    rw [hr]
    exact addSequencesC_steps ..
  have := forEachC_steps h1 (List.range tg.g.rules.length) []
  rw [sum_at', List.length_range] at this
  have e : (tg.g.rules.map fun r => 513 * ruleW r).sum = 513 * rulesW tg.g.rules := by
    unfold rulesW
    generalize tg.g.rules = rs
    induction rs with
    | nil => rfl
    | cons r rs ih => simp only [List.map_cons, List.sum_cons, ih]; omega
  rw [e] at this
  exact this

theorem set_length_le {K V : Type} [DecidableEq K] (m : GoMap K V) (k : K) (v : V) :
    (m.set k v).length ≤ m.length + 1 := by
  exact Nat.succ_le_succ (List.length_filter_le _ _)

theorem enumerateFrom_length_le (i : Nat) (ss : List Str) (m : GoMap Str Nat) :
    (enumerateFrom i ss m).length ≤ ss.length + m.length := by
  induction ss generalizing i m with
  | nil => simp [enumerateFrom]
  | cons s ss ih =>
    rw [enumerateFrom]
    have := ih (i + 1) (m.set s i)
    have := set_length_le m s i
    simp only [List.length_cons]
    omega

theorem runC_steps (tg : Gen) (firsts follows : List ByteSet) :
    (runC tg firsts follows).steps ≤
      (256 * tg.ruleCount + 1) * (1 + (tg.g.rules.length + rulesW tg.g.rules)) +
      ((256 * tg.ruleCount + 1) *
        (1 + (tg.g.rules.length + tg.g.rules.length * (tg.g.rules.length + rulesW tg.g.rules))) +
      (tg.g.rules.length + 513 * rulesW tg.g.rules)) := by
  unfold runC
  refine CR.bind_steps_le _ _ (fixLoopC_steps (firstsPassC_steps tg) _ _) fun fi _ => ?_
  refine CR.bind_steps_le _ _ ?_ fun fo _ => makeTableC_steps ..
  unfold findFollowsC
  exact free_bind_steps_le _ _ fun _ _ => free_bind_steps_le _ _ fun _ _ =>
    fixLoopC_steps (followsPassC_steps tg fi) _ _

end TG

open TG in
theorem fromGrammarC_steps (order : List (Str × Nat) → List (Str × Nat)) (ho : ∀ l, (order l).length ≤ l.length)
    (g : Grammar) :
    (fromGrammarC order g).steps ≤
      5 * g.rules.length +
      ((256 * g.rules.length + 1) * (1 + (g.rules.length + rulesW g.rules)) +
      ((256 * g.rules.length + 1) *
        (1 + (g.rules.length + g.rules.length * (g.rules.length + rulesW g.rules))) +
      (g.rules.length + 513 * rulesW g.rules)) + g.rules.length) := by
  have hc : (newGen g).ruleCount = g.rules.length := by simp [newGen, collectRuleHeads]
  have hg : (newGen g).g = g := rfl
  unfold fromGrammarC
  simp only [ticks_bind_steps]
  refine Nat.add_le_add_left ?_ _
  have h1 := runC_steps (newGen g) (newSets (newGen g).ruleCount) (newSets (newGen g).ruleCount)
  rw [hc, hg] at h1
  rw [hc]
  refine CR.bind_steps_le _ _ h1 fun t _ => ?_
  rw [ticks_bind_steps, CR.pure_steps, Nat.add_zero]
  have h2 := ho (newGen g).ruleMap
  have h3 := enumerateFrom_length_le 0 (collectRuleHeads g) []
  have h4 : (collectRuleHeads g).length = g.rules.length := by simp [collectRuleHeads]
  simp only [newGen, enumerate] at h2 ⊢
  simp only [List.length_nil] at h3
  omega

/-- The arithmetic of the bound. -/
theorem cubic_arith (n w : Nat) :
    5 * n + ((256 * n + 1) * (1 + (n + w)) + ((256 * n + 1) * (1 + (n + n * (n + w))) + (n + 513 * w)) + n) ≤
      1031 * (n + 1) ^ 2 * (n + w + 1) := by
  have e1 : (256 * n + 1) * (1 + (n + w)) + (256 * n + 1) * (1 + (n + n * (n + w))) ≤
      512 * ((n + 1) ^ 2 * (n + w + 1)) := by
    have h1 : (1 + (n + w)) + (1 + (n + n * (n + w))) ≤ 2 * ((n + 1) * (n + w + 1)) := by
      have : (n + 1) * (n + w + 1) = n * (n + w) + n + (n + w + 1) := by
        rw [Nat.add_mul, Nat.mul_add, Nat.mul_one, Nat.one_mul]
      generalize n * (n + w) = z at *
      omega
    rw [← Nat.mul_add]
    have h2 : (256 * n + 1) ≤ 256 * (n + 1) := by omega
    refine Nat.le_trans (Nat.mul_le_mul h2 h1) (Nat.le_of_eq ?_)
    rw [Nat.pow_two, Nat.mul_assoc (n + 1), Nat.mul_mul_mul_comm]
  have e2 : n + w + 1 ≤ (n + 1) ^ 2 * (n + w + 1) := Nat.le_mul_of_pos_left _ (Nat.pow_pos (by omega))
  rw [Nat.mul_assoc]
  generalize (n + 1) ^ 2 * (n + w + 1) = z at *
  generalize (256 * n + 1) * (1 + (n + w)) = a at *
  generalize (256 * n + 1) * (1 + (n + n * (n + w))) = b at *
  omega

end LL1
