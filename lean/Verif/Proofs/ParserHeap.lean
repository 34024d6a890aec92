import Verif.Spec.MemTree
import Verif.Proofs.SliceMem

/-!
# The parser in memory computes what the parser on values computes
-/

namespace LL1
namespace PH

open Mem (Roomy Fits)

theorem mem_own {s : SliceRef} (h : 0 < s.cap) : s.arr ∈ own s := by
  unfold own; rw [if_neg (by omega)]; exact List.mem_singleton.2 rfl

mutual
theorem shows_congr {m m' : Mem HNode} : (t : Node) → {h : HNode} → {fp : List Nat} → Shows m t h fp →
    (∀ a ∈ fp, m'.arrays a = m.arrays a) → Shows m' t h fp
  | .mk ty p e cs, h, fp, hs, hc => by
    simp only [Shows] at hs ⊢
    obtain ⟨h1, h2, h3, fp', h4, rfl⟩ := hs
    refine ⟨h1, h2, h3, fp', ?_, rfl⟩
    rw [Mem.read_congr (fun hp => hc _ (List.mem_append_left _ (mem_own hp)))]
    exact showsAll_congr cs h4 fun a ha => hc a (List.mem_append_right _ ha)
theorem showsAll_congr {m m' : Mem HNode} : (ts : List Node) → {hs : List HNode} → {fp : List Nat} → ShowsAll m ts hs fp →
    (∀ a ∈ fp, m'.arrays a = m.arrays a) → ShowsAll m' ts hs fp
  | [], _, _, h, _ => by simp only [ShowsAll] at h ⊢; exact h
  | t :: ts, hs, fp, h, hc => by
    simp only [ShowsAll] at h ⊢
    obtain ⟨x, hs', fp1, fp2, rfl, h1, h2, rfl⟩ := h
    exact ⟨x, hs', fp1, fp2, rfl, shows_congr t h1 fun a ha => hc a (List.mem_append_left _ ha),
      showsAll_congr ts h2 fun a ha => hc a (List.mem_append_right _ ha), rfl⟩
end

theorem showsAll_append {m : Mem HNode} {ts ts' : List Node} {hs hs' : List HNode} {fp fp' : List Nat}
    (h : ShowsAll m ts hs fp) (h' : ShowsAll m ts' hs' fp') : ShowsAll m (ts ++ ts') (hs ++ hs') (fp ++ fp') := by
  induction ts generalizing hs fp with
  | nil => simp only [ShowsAll] at h; obtain ⟨rfl, rfl⟩ := h; exact h'
  | cons t ts ih =>
    simp only [ShowsAll, List.cons_append] at h ⊢
    obtain ⟨x, hs₁, fp1, fp2, rfl, h1, h2, rfl⟩ := h
    exact ⟨x, _, fp1, _, rfl, h1, ih h2, by rw [List.append_assoc]⟩

theorem showsAll_single {m : Mem HNode} {t : Node} {h : HNode} {fp : List Nat} (hs : Shows m t h fp) : ShowsAll m [t] [h] fp := by
  simp only [ShowsAll]
  exact ⟨h, [], fp, [], rfl, hs, ⟨rfl, rfl⟩, by simp⟩

theorem showsAll_snoc {m : Mem HNode} {ts : List Node} {t : Node} {hs : List HNode} {fp : List Nat}
    (h : ShowsAll m (ts ++ [t]) hs fp) :
    ∃ hs' x fp0 fp1, hs = hs' ++ [x] ∧ fp = fp0 ++ fp1 ∧ ShowsAll m ts hs' fp0 ∧ Shows m t x fp1 := by
  induction ts generalizing hs fp with
  | nil =>
    simp only [List.nil_append, ShowsAll] at h
    obtain ⟨x, hs', fp1, fp2, rfl, h1, ⟨rfl, rfl⟩, rfl⟩ := h
    exact ⟨[], x, [], fp1, rfl, by simp, ⟨rfl, rfl⟩, h1⟩
  | cons t' ts ih =>
    simp only [List.cons_append, ShowsAll] at h
    obtain ⟨y, hs₁, fp1, fp2, rfl, h1, h2, rfl⟩ := h
    obtain ⟨hs', x, fp0, fp3, rfl, rfl, h3, h4⟩ := ih h2
    refine ⟨y :: hs', x, fp1 ++ fp0, fp3, rfl, by rw [List.append_assoc], ?_, h4⟩
    simp only [ShowsAll]
    exact ⟨y, hs', fp1, fp0, rfl, h1, h3, rfl⟩

theorem Shows.type_eq {m : Mem HNode} {t : Node} {h : HNode} {fp : List Nat} (hs : Shows m t h fp) : h.type = t.type := by
  cases t; simp only [Shows] at hs; exact hs.1

/-- The node stack in memory is the node stack as a value (top first). -/
structure NRel (base : Nat) (old : Nat → List HNode) (m : Mem HNode) (prod : SliceRef) (stack : List Node)
    (fp : List Nat) : Prop where
  base_le : base ≤ m.next
  frame : ∀ a, a < base → m.arrays a = old a
  fits : m.Fits base prod
  shows' : ShowsAll m stack.reverse (m.read prod) fp
  nodup : (own prod ++ fp).Nodup
  bounds : ∀ a ∈ fp, base ≤ a ∧ a < m.next

variable {base : Nat} {old : Nat → List HNode} {m : Mem HNode} {prod : SliceRef} {stack : List Node} {fp fp1 : List Nat}

theorem own_lt (h : m.Fits base prod) {a : Nat} (ha : a ∈ own prod) : base ≤ a ∧ a < m.next ∧ a = prod.arr ∧ 0 < prod.cap := by
  unfold own at ha
  split at ha
  · cases ha
  · next h0 =>
    rw [List.mem_singleton] at ha
    subst ha
    obtain ⟨h1, h2, _⟩ := h.alloc (Nat.pos_of_ne_zero h0)
    exact ⟨h1, h2, rfl, Nat.pos_of_ne_zero h0⟩

theorem NRel.push {grow : Nat → Nat → Nat} (hg : Roomy grow) (hr : NRel base old m prod stack fp) {t : Node} {h : HNode}
    (ht : Shows m t h fp1) (hn : (own prod ++ (fp ++ fp1)).Nodup) (hb : ∀ a ∈ fp1, base ≤ a ∧ a < m.next) :
    NRel base old (m.append grow zeroNode prod h).1 (m.append grow zeroNode prod h).2 (t :: stack) (fp ++ fp1) := by
  have ha := Mem.append_spec hg zeroNode hr.fits hr.base_le h
  generalize (m.append grow zeroNode prod h).1 = m' at ha
  generalize (m.append grow zeroNode prod h).2 = p' at ha
  have hbb : ∀ a ∈ fp ++ fp1, base ≤ a ∧ a < m.next := by
    intro a h'
    rcases List.mem_append.1 h' with h' | h'
    · exact hr.bounds a h'
    · exact hb a h'
  have hkeep : ∀ a ∈ fp ++ fp1, m'.arrays a = m.arrays a := by
    intro a h'
    refine ha.others a (hbb a h').2 ?_
    rintro hc rfl
    exact (List.nodup_append.1 hn).2.2 _ (mem_own hc) _ h' rfl
  refine ⟨Nat.le_trans hr.base_le ha.next, ?_, ha.fits, ?_, ?_, ?_⟩
  · intro a hlt
    rw [ha.others a (Nat.lt_of_lt_of_le hlt hr.base_le) ?_, hr.frame a hlt]
    intro hc
    have := (hr.fits.alloc hc).1
    omega
  · rw [ha.read, List.reverse_cons]
    exact showsAll_append (showsAll_congr _ hr.shows' fun a h' => hkeep a (List.mem_append_left _ h'))
      (showsAll_single (shows_congr _ ht fun a h' => hkeep a (List.mem_append_right _ h')))
  · rw [List.nodup_append] at hn ⊢
    refine ⟨?_, hn.2.1, ?_⟩
    · unfold own; split <;> simp
    · intro a h1 b h2 hab
      obtain ⟨_, _, e, _⟩ := own_lt ha.fits h1
      subst hab
      rcases ha.place with ⟨hc, hp⟩ | hp
      · rw [hp] at e
        exact hn.2.2 a (e ▸ mem_own hc) a h2 rfl
      · have := (hbb a h2).2
        omega
  · intro a h'
    obtain ⟨h1, h2⟩ := hbb a h'
    exact ⟨h1, Nat.lt_of_lt_of_le h2 ha.next⟩

theorem NRel.pop {t : Node} (hr : NRel base old m prod (t :: stack) fp) :
    ∃ h fp0 fp1, fp = fp0 ++ fp1 ∧ prod.len ≠ 0 ∧ (m.read prod)[prod.len - 1]? = some h ∧ Shows m t h fp1 ∧
      NRel base old m { prod with len := prod.len - 1 } stack fp0 := by
  have hs := hr.shows'
  rw [List.reverse_cons] at hs
  obtain ⟨hs', x, fp0, fp1, he, rfl, h1, h2⟩ := showsAll_snoc hs
  obtain ⟨p1, p2, p3, p4⟩ := Mem.read_pop hr.fits he
  refine ⟨x, fp0, fp1, rfl, p1, p2, h2, hr.base_le, hr.frame, p4, by rw [p3]; exact h1, ?_, ?_⟩
  · have := hr.nodup
    rw [← List.append_assoc] at this
    exact (List.nodup_append.1 this).1
  · exact fun a ha => hr.bounds a (List.mem_append_left _ ha)

theorem NRel.pop_nil (hr : NRel base old m prod [] fp) : prod.len = 0 := by
  have := hr.shows'
  simp only [List.reverse_nil, ShowsAll] at this
  exact Mem.read_nil hr.fits this.1

/-- Everything at once: both stacks. -/
structure HRel (baseO : Nat) (oldO : Nat → List ParserOp) (base : Nat) (old : Nat → List HNode) (hs : HState) (s : PState) :
    Prop where
  offset : hs.offset = s.offset
  opBase : baseO ≤ hs.opMem.next
  opFrame : ∀ a, a < baseO → hs.opMem.arrays a = oldO a
  opFits : hs.opMem.Fits baseO hs.opStack
  opView : hs.opMem.read hs.opStack = s.opStack.reverse
  nodes : ∃ fp, NRel base old hs.nodeMem hs.prodStack s.prodStack fp

variable {baseO : Nat} {oldO : Nat → List ParserOp} {hs : HState} {s : PState}

theorem HRel.pushOp {grow : Nat → Nat → Nat} (hg : Roomy grow) (hr : HRel baseO oldO base old hs s) (op : ParserOp) :
    HRel baseO oldO base old (pushOp grow hs op) { s with opStack := op :: s.opStack } := by
  have ha := Mem.append_spec hg .nil hr.opFits hr.opBase op
  refine ⟨hr.offset, Nat.le_trans hr.opBase ha.next, ?_, ha.fits, ?_, hr.nodes⟩
  · intro a hlt
    rw [← hr.opFrame a hlt]
    refine ha.others a (Nat.lt_of_lt_of_le hlt hr.opBase) fun hc => ?_
    have := (hr.opFits.alloc hc).1
    omega
  · show Mem.read _ _ = _
    rw [List.reverse_cons, ← hr.opView]
    exact ha.read

theorem HRel.pushOps {grow : Nat → Nat → Nat} (hg : Roomy grow) (ops : List ParserOp) (hr : HRel baseO oldO base old hs s) :
    HRel baseO oldO base old (pushOps grow hs ops) { s with opStack := ops.reverse ++ s.opStack } := by
  induction ops generalizing hs s with
  | nil => exact hr
  | cons op ops ih =>
    have := ih (hr.pushOp hg op)
    simpa [PH.pushOps] using this

/-- `Pop` on the operation stack. -/
theorem HRel.popOp (hr : HRel baseO oldO base old hs s) :
    (s.opStack = [] → popOp hs = none) ∧
    (∀ op rest, s.opStack = op :: rest → ∃ hs', popOp hs = some (op, hs') ∧
      HRel baseO oldO base old hs' { s with opStack := rest }) := by
  constructor
  · intro h
    have := hr.opView
    rw [h] at this
    simp [PH.popOp, Mem.read_nil hr.opFits this]
  · intro op rest h
    have hv := hr.opView
    rw [h, List.reverse_cons] at hv
    obtain ⟨p1, p2, p3, p4⟩ := Mem.read_pop hr.opFits hv
    refine ⟨{ hs with opStack := { hs.opStack with len := hs.opStack.len - 1 } }, ?_, hr.offset, hr.opBase, hr.opFrame, p4,
      p3, hr.nodes⟩
    unfold PH.popOp
    rw [if_neg p1, p2]

/-- The popping loop that keeps the children: `k` still to pop, the array `c` holds the rest. -/
theorem popChilds_keep {c amount : Nat} (k : Nat) (hk : k ≤ amount) {hs : HState} {stack acc : List Node} {fp fpA : List Nat}
    (hr : NRel base old hs.nodeMem hs.prodStack stack fp)
    (hc : base ≤ c ∧ c < hs.nodeMem.next) (hl : (hs.nodeMem.arrays c).length = amount)
    (ha : ShowsAll hs.nodeMem acc ((hs.nodeMem.arrays c).drop k) fpA)
    (hn : (c :: (own hs.prodStack ++ (fp ++ fpA))).Nodup) (hb : ∀ a ∈ fpA, base ≤ a ∧ a < hs.nodeMem.next) :
    (∃ p, LL1.popChilds false k stack acc = .error p ∧ popChilds false ⟨c, amount, amount⟩ k hs = .error p) ∨
    (∃ cs stack' hs' fp' fpA', LL1.popChilds false k stack acc = .ok (cs, stack') ∧
      popChilds false ⟨c, amount, amount⟩ k hs = .ok hs' ∧ hs'.offset = hs.offset ∧ hs'.opMem = hs.opMem ∧
      hs'.opStack = hs.opStack ∧ NRel base old hs'.nodeMem hs'.prodStack stack' fp' ∧ c < hs'.nodeMem.next ∧
      (hs'.nodeMem.arrays c).length = amount ∧ ShowsAll hs'.nodeMem cs (hs'.nodeMem.arrays c) fpA' ∧
      (c :: (own hs'.prodStack ++ (fp' ++ fpA'))).Nodup ∧ ∀ a ∈ fpA', base ≤ a ∧ a < hs'.nodeMem.next) := by
  induction k generalizing hs stack acc fp fpA with
  | zero =>
    right
    exact ⟨acc, stack, hs, fp, fpA, rfl, rfl, rfl, rfl, rfl, hr, hc.2, hl, by simpa using ha, hn, hb⟩
  | succ k ih =>
    cases stack with
    | nil =>
      left
      refine ⟨.popEmpty, rfl, ?_⟩
      simp [popChilds, popNode, hr.pop_nil]
    | cons t stack =>
      obtain ⟨x, fp0, fp1, rfl, p1, p2, p3, p4⟩ := hr.pop
      have hown : own { hs.prodStack with len := hs.prodStack.len - 1 } = own hs.prodStack := rfl
      have hcn : c ∉ own hs.prodStack ++ ((fp0 ++ fp1) ++ fpA) := (List.nodup_cons.1 hn).1
      simp only [List.mem_append, not_or] at hcn
      have hother : ∀ a, a ≠ c →
          (hs.nodeMem.store ⟨c, amount, amount⟩ k x).arrays a = hs.nodeMem.arrays a := by
        intro a hac; simp [Mem.store, Mem.write, hac]
      have hself : (hs.nodeMem.store ⟨c, amount, amount⟩ k x).arrays c = (hs.nodeMem.arrays c).set k x := by
        simp [Mem.store, Mem.write]
      have hstep : popChilds false ⟨c, amount, amount⟩ (k + 1) hs =
          popChilds false ⟨c, amount, amount⟩ k
            { hs with
              prodStack := { hs.prodStack with len := hs.prodStack.len - 1 }
              nodeMem := hs.nodeMem.store ⟨c, amount, amount⟩ k x } := by
        simp only [popChilds, popNode, p1, if_false, p2, Bool.not_false, if_true]
      have hval : LL1.popChilds false (k + 1) (t :: stack) acc = LL1.popChilds false k stack (t :: acc) := by
        simp [LL1.popChilds]
      rw [hstep, hval]
      apply ih (by omega) (fp := fp0) (fpA := fp1 ++ fpA)
      · refine ⟨p4.base_le, ?_, ?_, ?_, p4.nodup, p4.bounds⟩
        · intro a hlt
          rw [hother a (by omega)]
          exact p4.frame a hlt
        · refine Mem.fits_congr p4.fits (Nat.le_refl _) fun hcap => hother _ ?_
          intro he
          have he : hs.prodStack.arr = c := he
          exact hcn.1 (he ▸ mem_own hcap)
        · show ShowsAll _ _ (Mem.read (hs.nodeMem.store _ _ _) _) _
          have hrd : (hs.nodeMem.store ⟨c, amount, amount⟩ k x).read { hs.prodStack with len := hs.prodStack.len - 1 } =
              hs.nodeMem.read { hs.prodStack with len := hs.prodStack.len - 1 } := by
            refine Mem.read_congr fun hcap => hother _ ?_
            intro he
            have he : hs.prodStack.arr = c := he
            exact hcn.1 (he ▸ mem_own hcap)
          rw [hrd]
          refine showsAll_congr _ p4.shows' fun a h' => hother a ?_
          rintro rfl
          exact hcn.2.1.1 h'
      · exact hc
      · show (Mem.arrays (hs.nodeMem.store _ _ _) c).length = amount
        rw [hself, List.length_set]; exact hl
      · show ShowsAll _ _ ((Mem.arrays (hs.nodeMem.store _ _ _) c).drop k) _
        rw [hself]
        have hd : ((hs.nodeMem.arrays c).set k x).drop k = x :: (hs.nodeMem.arrays c).drop (k + 1) := by
          rw [List.drop_eq_getElem_cons (by rw [List.length_set]; omega), List.getElem_set_self,
            List.drop_set_of_lt (Nat.lt_succ_self k)]
        rw [hd]
        simp only [ShowsAll]
        refine ⟨x, _, fp1, fpA, rfl, shows_congr _ p3 fun a h' => hother a ?_,
          showsAll_congr _ ha fun a h' => hother a ?_, rfl⟩
        · rintro rfl; exact hcn.2.1.2 h'
        · rintro rfl; exact hcn.2.2 h'
      · show (c :: (own hs.prodStack ++ (fp0 ++ (fp1 ++ fpA)))).Nodup
        rw [← List.append_assoc fp0]; exact hn
      · intro a h'
        rcases List.mem_append.1 h' with h' | h'
        · exact hr.bounds a (List.mem_append_right _ h')
        · exact hb a h'

/-- The popping loop that drops the characters of a literal. -/
theorem popChilds_drop (k : Nat) {hs : HState} {stack : List Node} {fp : List Nat} {r : SliceRef}
    (hr : NRel base old hs.nodeMem hs.prodStack stack fp) :
    (∃ p, LL1.popChilds true k stack [] = .error p ∧ popChilds true r k hs = .error p) ∨
    (∃ stack' hs' fp', LL1.popChilds true k stack [] = .ok ([], stack') ∧
      popChilds true r k hs = .ok hs' ∧ hs'.offset = hs.offset ∧ hs'.opMem = hs.opMem ∧
      hs'.opStack = hs.opStack ∧ NRel base old hs'.nodeMem hs'.prodStack stack' fp') := by
  induction k generalizing hs stack fp with
  | zero => right; exact ⟨stack, hs, fp, rfl, rfl, rfl, rfl, rfl, hr⟩
  | succ k ih =>
    cases stack with
    | nil =>
      left
      refine ⟨.popEmpty, rfl, ?_⟩
      simp [popChilds, popNode, hr.pop_nil]
    | cons t stack =>
      obtain ⟨x, fp0, fp1, rfl, p1, p2, p3, p4⟩ := hr.pop
      have hty := p3.type_eq
      by_cases htt : t.type = builtinTerminal
      · have hstep : popChilds true r (k + 1) hs =
            popChilds true r k { hs with prodStack := { hs.prodStack with len := hs.prodStack.len - 1 } } := by
          simp [popChilds, popNode, p1, p2, hty, htt]
        have hval : LL1.popChilds true (k + 1) (t :: stack) [] = LL1.popChilds true k stack [] := by
          simp [LL1.popChilds, htt]
        rw [hstep, hval]
        exact ih (hs := { hs with prodStack := { hs.prodStack with len := hs.prodStack.len - 1 } }) p4
      · left
        refine ⟨.combine, by simp [LL1.popChilds, htt], by simp [popChilds, popNode, p1, p2, hty, htt]⟩

/-- Nothing that was in memory before has changed. -/
structure Frame (baseO : Nat) (oldO : Nat → List ParserOp) (base : Nat) (old : Nat → List HNode) (om : Mem ParserOp)
    (nm : Mem HNode) : Prop where
  opBase : baseO ≤ om.next
  ops : ∀ a, a < baseO → om.arrays a = oldO a
  base_le : base ≤ nm.next
  nodes : ∀ a, a < base → nm.arrays a = old a

inductive StepSim (baseO : Nat) (oldO : Nat → List ParserOp) (base : Nat) (old : Nat → List HNode) : HStepRes → StepRes → Prop
  | next {hs : HState} {s : PState} : HRel baseO oldO base old hs s → StepSim baseO oldO base old (.next hs) (.next s)
  | done {hs : HState} {ho : HOutcome} {o : Outcome} : Frame baseO oldO base old hs.opMem hs.nodeMem →
      OutRel base hs.nodeMem ho o → StepSim baseO oldO base old (.done hs ho) (.done o)

theorem HRel.toFrame (hr : HRel baseO oldO base old hs s) : Frame baseO oldO base old hs.opMem hs.nodeMem := by
  obtain ⟨fp, hn⟩ := hr.nodes
  exact ⟨hr.opBase, hr.opFrame, hn.base_le, hn.frame⟩

theorem sim_function {grow : Nat → Nat → Nat} (hg : Roomy grow) (hr : HRel baseO oldO base old hs s) (name : Int)
    (pos amount : Nat) :
    StepSim baseO oldO base old (processFunction grow hs name pos amount) (LL1.processFunction s name pos amount) := by
  obtain ⟨fp, hn⟩ := hr.nodes
  unfold processFunction LL1.processFunction
  by_cases ham : amount = 0
  · rw [if_pos ham, if_pos ham]
    refine .next ⟨hr.offset, hr.opBase, hr.opFrame, hr.opFits, hr.opView, fp ++ [hs.nodeMem.next], ?_⟩
    -- the memory with the new one-element array
    have hlt := hn.base_le
    have hmem : ∀ a, a ≠ hs.nodeMem.next →
        (((hs.nodeMem.make zeroNode 1).1.store (hs.nodeMem.make zeroNode 1).2 0
          ⟨builtinNothing, hs.offset, hs.offset, SliceRef.empty⟩).arrays a) = hs.nodeMem.arrays a := by
      intro a ha; simp [Mem.store, Mem.make, Mem.write, ha]
    have hnew : (((hs.nodeMem.make zeroNode 1).1.store (hs.nodeMem.make zeroNode 1).2 0
          ⟨builtinNothing, hs.offset, hs.offset, SliceRef.empty⟩).arrays hs.nodeMem.next) =
        [⟨builtinNothing, hs.offset, hs.offset, SliceRef.empty⟩] := by
      simp [Mem.store, Mem.make, Mem.write]
    have hnext : ((hs.nodeMem.make zeroNode 1).1.store (hs.nodeMem.make zeroNode 1).2 0
          ⟨builtinNothing, hs.offset, hs.offset, SliceRef.empty⟩).next = hs.nodeMem.next + 1 := rfl
    have href : (hs.nodeMem.make zeroNode 1).2 = ⟨hs.nodeMem.next, 1, 1⟩ := rfl
    show NRel base old (Mem.append grow zeroNode _ hs.prodStack _).1 (Mem.append grow zeroNode _ hs.prodStack _).2 _ _
    generalize (hs.nodeMem.make zeroNode 1).1.store (hs.nodeMem.make zeroNode 1).2 0
          ⟨builtinNothing, hs.offset, hs.offset, SliceRef.empty⟩ = m at hmem hnew hnext
    rw [href]
    have hold : ∀ a, a < hs.nodeMem.next → m.arrays a = hs.nodeMem.arrays a := fun a h => hmem a (by omega)
    have hn' : NRel base old m hs.prodStack s.prodStack fp := by
      refine ⟨by omega, fun a h => by rw [hold a (by omega)]; exact hn.frame a h, ?_, ?_, hn.nodup, ?_⟩
      · exact Mem.fits_congr hn.fits (by omega) fun hc => hold _ (hn.fits.alloc hc).2.1
      · rw [Mem.read_congr fun hc => hold _ (hn.fits.alloc hc).2.1]
        exact showsAll_congr _ hn.shows' fun a h => hold a (hn.bounds a h).2
      · intro a h; have := hn.bounds a h; omega
    refine hn'.push hg ?_ ?_ ?_
    · rw [← hr.offset]
      simp only [Shows, true_and]
      refine ⟨[], ?_, by simp [own]⟩
      simp only [Mem.read, hnew]
      refine showsAll_single ?_
      simp only [Shows, true_and]
      exact ⟨[], by simp [ShowsAll, Mem.read, SliceRef.empty], by simp [own, SliceRef.empty]⟩
    · rw [← List.append_assoc, List.nodup_append]
      refine ⟨hn.nodup, by simp, ?_⟩
      intro a h b hb hab
      rw [List.mem_singleton] at hb
      subst hb; subst hab
      rcases List.mem_append.1 h with h | h
      · have := (own_lt hn.fits h).2.1; omega
      · have := (hn.bounds _ h).2; omega
    · intro a h
      rw [List.mem_singleton] at h
      omega
  · rw [if_neg ham, if_neg ham]
    by_cases hd : name = builtinTerminal
    · simp only [hd, decide_true, Bool.not_true, Bool.false_eq_true, if_false]
      rcases popChilds_drop amount (r := SliceRef.empty) hn with ⟨p, h1, h2⟩ | ⟨stack', hs', fp', h1, h2, h3, h4, h5, h6⟩
      · rw [h1, h2]; exact .done hr.toFrame .panic
      · rw [h1, h2]
        refine .next ⟨by rw [← hr.offset]; exact h3, ?_, ?_, ?_, ?_, fp', ?_⟩
        · show baseO ≤ hs'.opMem.next; rw [h4]; exact hr.opBase
        · show ∀ a, a < baseO → hs'.opMem.arrays a = _; rw [h4]; exact hr.opFrame
        · show hs'.opMem.Fits baseO hs'.opStack; rw [h4, h5]; exact hr.opFits
        · show hs'.opMem.read hs'.opStack = _; rw [h4, h5]; exact hr.opView
        · have := h6.push hg (t := Node.mk builtinTerminal pos s.offset []) (fp1 := [])
            (h := ⟨builtinTerminal, pos, hs'.offset, SliceRef.empty⟩)
            (by
              simp only [Shows, true_and]
              exact ⟨by rw [h3, hr.offset], [], by simp [ShowsAll, Mem.read, SliceRef.empty], by simp [own, SliceRef.empty]⟩)
            (by simpa using h6.nodup) (by simp)
          rw [List.append_nil] at this
          exact this
    · simp only [hd, decide_false, Bool.not_false, if_true]
      have hlt := hn.base_le
      have hnext : (hs.nodeMem.make zeroNode amount).1.next = hs.nodeMem.next + 1 := rfl
      have href : (hs.nodeMem.make zeroNode amount).2 = ⟨hs.nodeMem.next, amount, amount⟩ := rfl
      have hnew : (hs.nodeMem.make zeroNode amount).1.arrays hs.nodeMem.next = List.replicate amount zeroNode := by
        simp [Mem.make, Mem.write]
      have hmem : ∀ a, a ≠ hs.nodeMem.next → (hs.nodeMem.make zeroNode amount).1.arrays a = hs.nodeMem.arrays a := by
        intro a ha; simp [Mem.make, Mem.write, ha]
      rw [href]
      generalize (hs.nodeMem.make zeroNode amount).1 = m at hnext hnew hmem
      have hold : ∀ a, a < hs.nodeMem.next → m.arrays a = hs.nodeMem.arrays a := fun a h => hmem a (by omega)
      have hn' : NRel base old m hs.prodStack s.prodStack fp := by
        refine ⟨by omega, fun a h => by rw [hold a (by omega)]; exact hn.frame a h, ?_, ?_, hn.nodup, ?_⟩
        · exact Mem.fits_congr hn.fits (by omega) fun hc => hold _ (hn.fits.alloc hc).2.1
        · rw [Mem.read_congr fun hc => hold _ (hn.fits.alloc hc).2.1]
          exact showsAll_congr _ hn.shows' fun a h => hold a (hn.bounds a h).2
        · intro a h; have := hn.bounds a h; omega
      have hfresh : hs.nodeMem.next ∉ own hs.prodStack ++ fp := by
        intro h
        rcases List.mem_append.1 h with h | h
        · have := (own_lt hn.fits h).2.1; omega
        · have := (hn.bounds _ h).2; omega
      rcases popChilds_keep (base := base) (old := old) (c := hs.nodeMem.next) amount (Nat.le_refl _)
          (hs := { hs with nodeMem := m }) (acc := []) (fpA := []) hn' ⟨hlt, by show _ < m.next; omega⟩
          (by show (m.arrays _).length = _; rw [hnew]; simp)
          (by show ShowsAll m [] ((m.arrays _).drop amount) []; rw [hnew]; simp [ShowsAll])
          (by rw [List.append_nil]; exact List.nodup_cons.2 ⟨hfresh, hn'.nodup⟩) (by simp) with
        ⟨p, h1, h2⟩ | ⟨cs, stack', hs', fp', fpA', h1, h2, h3, h4, h5, h6, h7, h8, h9, h10, h11⟩
      · rw [h1, h2]; exact .done hr.toFrame .panic
      · rw [h1, h2]
        refine .next ⟨by rw [← hr.offset]; exact h3, ?_, ?_, ?_, ?_, fp' ++ (hs.nodeMem.next :: fpA'), ?_⟩
        · show baseO ≤ hs'.opMem.next; rw [h4]; exact hr.opBase
        · show ∀ a, a < baseO → hs'.opMem.arrays a = _; rw [h4]; exact hr.opFrame
        · show hs'.opMem.Fits baseO hs'.opStack; rw [h4, h5]; exact hr.opFits
        · show hs'.opMem.read hs'.opStack = _; rw [h4, h5]; exact hr.opView
        · refine h6.push hg (t := Node.mk name pos s.offset cs) ?_ ?_ ?_
          · simp only [Shows, true_and]
            refine ⟨by rw [h3]; exact hr.offset, fpA', ?_, by simp [own, ham]⟩
            simp only [Mem.read, ham, if_false]
            rw [List.take_of_length_le (by omega)]
            exact h9
          · refine (List.Perm.nodup_iff ?_).1 h10
            rw [← List.append_assoc, ← List.append_assoc]
            exact List.perm_middle.symm
          · intro a h
            rcases List.mem_cons.1 h with rfl | h
            · exact ⟨hlt, h7⟩
            · exact h11 a h

theorem sim_step {grow : Nat → Nat → Nat} (hg : Roomy grow) (table : Table) (names : Option Names) (src : Str)
    (hr : HRel baseO oldO base old hs s) :
    StepSim baseO oldO base old (step grow table names src hs) (LL1.step table names src s) := by
  obtain ⟨e1, e2⟩ := hr.popOp
  unfold step LL1.step
  cases hop : s.opStack with
  | nil => rw [e1 hop]; exact .done hr.toFrame .panic
  | cons op rest =>
    obtain ⟨hs', hp, hr'⟩ := e2 op rest hop
    rw [hp]
    have hoff := hr'.offset
    simp only at hoff
    cases op with
    | nonTerminal name =>
      show StepSim baseO oldO base old (processNonTerminal grow table names src hs' name)
        (LL1.processNonTerminal table names src { s with opStack := rest } name)
      unfold processNonTerminal LL1.processNonTerminal
      by_cases hneg : name < 0
      · rw [if_pos hneg, if_pos hneg]
        unfold processBuiltinNonTerminal LL1.processBuiltinNonTerminal
        simp only [hoff]
        by_cases h2 : name = -2
        · rw [if_pos h2, if_pos h2]
          by_cases hA : peek src s.offset = 10
          · rw [if_pos hA, if_pos hA]
            exact .next ((hr'.pushOp hg _).pushOp hg _)
          · rw [if_neg hA, if_neg hA]
            by_cases hB : peek src s.offset = 13
            · rw [if_pos hB, if_pos hB]
              exact .next (((hr'.pushOp hg _).pushOp hg _).pushOp hg _)
            · rw [if_neg hB, if_neg hB]; exact .done hr'.toFrame .err
        · rw [if_neg h2, if_neg h2]; exact .done hr'.toFrame .err
      · rw [if_neg hneg, if_neg hneg]
        unfold processTableNonTerminal LL1.processTableNonTerminal
        simp only [hoff]
        cases table.get name with
        | none => exact .done hr'.toFrame .err
        | some row =>
          simp only
          cases GoMap.get row (peek src s.offset) with
          | none => exact .done hr'.toFrame .err
          | some ops =>
            have := (hr'.pushOp hg (.function name s.offset ops.length)).pushOps hg ops.reverse
            rw [List.reverse_reverse] at this
            exact .next this
    | terminal v =>
      have := (hr'.pushOp hg (.function builtinTerminal s.offset v.length)).pushOps hg (v.map ParserOp.char).reverse
      rw [List.reverse_reverse] at this
      refine .next ?_
      unfold processTerminal LL1.processTerminal
      rw [hoff]
      exact this
    | function name pos amount => exact sim_function hg hr' name pos amount
    | nil => exact .done hr'.toFrame .panic
    | char c =>
      show StepSim baseO oldO base old (processChar grow src hs' c) (LL1.processChar src { s with opStack := rest } c)
      unfold processChar LL1.processChar
      simp only [hoff]
      by_cases hc : c = peek src s.offset
      · rw [if_neg (by simpa using hc), if_neg (by simpa using hc)]
        obtain ⟨fp, hn⟩ := hr'.nodes
        refine .next ⟨by show hs'.offset + 1 = s.offset + 1; rw [hoff], hr'.opBase, hr'.opFrame, hr'.opFits, hr'.opView, fp ++ [], ?_⟩
        refine hn.push hg ?_ (by simpa using hn.nodup) (by simp)
        simp only [Shows, true_and]
        exact ⟨[], by simp [ShowsAll, Mem.read, SliceRef.empty], by simp [own, SliceRef.empty]⟩
      · rw [if_pos hc, if_pos hc]; exact .done hr'.toFrame .err
    | eos =>
      refine .done hr'.toFrame ?_
      unfold processEOS LL1.processEOS
      rw [hoff]
      obtain ⟨fp, hn⟩ := hr'.nodes
      by_cases hp0 : peek src s.offset = 0
      · simp only [hp0, ne_eq, not_true_eq_false, if_false]
        simp only at hn
        cases hps : s.prodStack with
        | nil =>
          rw [hps] at hn
          simp [popNode, hn.pop_nil]; exact .err
        | cons t stack =>
          rw [hps] at hn
          obtain ⟨x, fp0, fp1, rfl, p1, p2, p3, p4⟩ := hn.pop
          simp only [popNode, p1, if_false, p2]
          cases names with
          | none => exact .panic
          | some nm =>
            have hnd := hn.nodup
            rw [← List.append_assoc] at hnd
            exact .ok p3 (List.nodup_append.1 hnd).2.1 fun a h => hn.bounds a (List.mem_append_right _ h)
      · simp only [ne_eq, hp0, not_false_eq_true, if_true]; exact .err

theorem sim_run {grow : Nat → Nat → Nat} (hg : Roomy grow) (table : Table) (names : Option Names) (src : Str) (fuel : Nat)
    (hr : HRel baseO oldO base old hs s) :
    (runFuel grow table names src fuel hs = none ∧ LL1.runFuel table names src fuel s = none) ∨
    ∃ hs' ho o, runFuel grow table names src fuel hs = some (hs', ho) ∧ LL1.runFuel table names src fuel s = some o ∧
      Frame baseO oldO base old hs'.opMem hs'.nodeMem ∧ OutRel base hs'.nodeMem ho o := by
  induction fuel generalizing hs s with
  | zero => exact .inl ⟨rfl, rfl⟩
  | succ fuel ih =>
    have hst := sim_step hg table names src hr
    unfold runFuel LL1.runFuel
    generalize step grow table names src hs = x at hst
    generalize LL1.step table names src s = y at hst
    cases hst with
    | next h => exact ih h
    | done h1 h2 => exact .inr ⟨_, _, _, rfl, rfl, h1, h2⟩

end PH
end LL1
