import Verif.Proofs.LinearAll
import Verif.Props.CanHang

/-!
# A parser hangs on some source or is linear on all

The cells that can never be wanted are cut out of the table; this changes no run, step by step.  What is left can be ranked
if no row comes to itself.
-/

namespace LL1

variable {tbl : Table}

/-! ## Runs on two tables that are the same where the first can come to -/

/-- What the operations on the stack have still to read. -/
def flat : List ParserOp → List ParserOp
  | [] => []
  | .nonTerminal n :: S => .nonTerminal n :: flat S
  | .terminal s :: S => .terminal s :: flat S
  | .char c :: S => .terminal [c] :: flat S
  | .function _ _ _ :: S => flat S
  | .eos :: S => flat S
  | .nil :: S => flat S

theorem flat_public {body : List ParserOp} (h : ∀ op ∈ body, op.Public) (S : List ParserOp) : flat (body ++ S) = body ++ flat S := by
  induction body with
  | nil => rfl
  | cons op body ih =>
    have := ih fun o ho => h o (List.mem_cons_of_mem _ ho)
    have hop := h op List.mem_cons_self
    cases op <;> simp_all [flat, ParserOp.Public]

theorem flat_chars (s : Str) (S : List ParserOp) :
    flat (s.map ParserOp.char ++ S) = s.map (fun c => ParserOp.terminal [c]) ++ flat S := by
  induction s with
  | nil => rfl
  | cons c s ih => simp [flat, ih]

theorem leads_append {xs ys : List ParserOp} {b c : UInt8} (h : Leads tbl (xs ++ ys) b c) :
    ∃ d, Leads tbl xs b d ∧ Leads tbl ys d c := by
  induction xs generalizing b with
  | nil => exact ⟨b, .nil b, h⟩
  | cons x xs ih =>
    cases h with
    | empty h => obtain ⟨d, h1, h2⟩ := ih h; exact ⟨d, .empty h1, h2⟩
    | lit h => obtain ⟨d, h1, h2⟩ := ih h; exact ⟨d, .lit h1, h2⟩
    | nt hb h1 h2 => obtain ⟨d, h3, h4⟩ := ih h2; exact ⟨d, .nt hb h1 h3, h4⟩

theorem leads_chars {s : Str} {ys : List ParserOp} {b c : UInt8}
    (h : Leads tbl (s.map (fun c => ParserOp.terminal [c]) ++ ys) b c) : Leads tbl (.terminal s :: ys) b c := by
  cases s with
  | nil => exact .empty h
  | cons a s =>
    cases h with
    | lit h =>
      obtain ⟨d, _, h2⟩ := leads_append h
      exact .lit h2

theorem Within.expand {n : Int} {b : UInt8} {body ops : List ParserOp} (h : Within tbl (.nonTerminal n :: ops) b)
    (hb : bodyFor tbl n b = some body) : Within tbl (body ++ ops) b := by
  intro pre m post c he hl
  rcases List.append_eq_append_iff.1 he with ⟨a, rfl, ha⟩ | ⟨a, rfl, ha⟩
  · obtain ⟨d, h1, h2⟩ := leads_append hl
    exact h (.nonTerminal n :: a) m post c (by rw [ha]; rfl) (.nt hb h1 h2)
  · cases a with
    | nil =>
      simp only [List.nil_append] at ha
      rw [List.append_nil] at hb
      exact h [.nonTerminal n] m post c (by rw [← ha]; rfl) (.nt hb hl (.nil _))
    | cons x a =>
      simp only [List.cons_append, List.cons.injEq] at ha
      rw [← ha.1] at hb
      exact .inner h.head hb hl

theorem Within.chars {s : Str} {b : UInt8} {ops : List ParserOp} (h : Within tbl (.terminal s :: ops) b) :
    Within tbl (s.map (fun c => ParserOp.terminal [c]) ++ ops) b := by
  intro pre m post c he hl
  rcases List.append_eq_append_iff.1 he with ⟨a, rfl, ha⟩ | ⟨a, hpre, ha⟩
  · exact h (.terminal s :: a) m post c (by rw [ha]; rfl) (leads_chars hl)
  · cases a with
    | nil =>
      simp only [List.nil_append] at ha
      rw [List.append_nil] at hpre
      have hl' : Leads tbl (s.map (fun c => ParserOp.terminal [c]) ++ []) b c := by
        rw [List.append_nil, hpre]; exact hl
      exact h [.terminal s] m post c (by rw [← ha]; rfl) (leads_chars hl')
    | cons x a =>
      simp only [List.cons_append, List.cons.injEq] at ha
      have : ParserOp.nonTerminal m ∈ s.map (fun c => ParserOp.terminal [c]) := by rw [hpre, ← ha.1]; simp
      simp at this

theorem runFuel_unused {tbl' : Table} (hs : SameWhereUsed tbl tbl') (hpub : tbl.Public) (names : Option Names) (src : Str) :
    ∀ (f : Nat) (s : PState), Within tbl (flat s.opStack) (byteAt src s.offset) →
      runFuel tbl' names src f s = runFuel tbl names src f s := by
  intro f
  induction f with
  | zero => intro s _; rfl
  | succ f ih =>
    rintro ⟨i, S, P⟩ hw
    unfold runFuel
    cases S with
    | nil => rfl
    | cons op S =>
      cases op with
      | nonTerminal n =>
        rw [step_nonTerminal, step_nonTerminal]
        have hc : CanEnter tbl n (byteAt src i) := Within.head hw
        rw [(hs n _ hc).1]
        cases hb : bodyFor tbl n (byteAt src i) with
        | none => simp only; rw [whyNot_same hs hc]
        | some body =>
          simp only
          apply ih
          simp only
          rw [flat_public (bodyFor_public hpub hb)]
          exact Within.expand hw hb
      | terminal s =>
        simp only [step, processTerminal]
        apply ih
        simp only
        rw [flat_chars]
        exact Within.chars hw
      | function name pos amount =>
        by_cases ha : amount = 0
        · simp only [step, processFunction, ha, if_true]
          exact ih _ hw
        · simp only [step, processFunction, ha, if_false]
          cases popChilds (decide (name = builtinTerminal)) amount P [] with
          | error p => rfl
          | ok r => exact ih _ hw
      | char c =>
        by_cases hne : c ≠ peek src i
        · simp only [step, processChar, if_pos hne]
        · simp only [step, processChar, if_neg hne]
          apply ih
          have hc : c = byteAt src i := by rw [← peek_eq]; simpa using hne
          exact Within.tail hw fun h => hc ▸ .lit h
      | eos => rfl
      | nil => rfl

/-! ## Cutting cells out -/

open Classical in
/-- The table with only the cells in `p`. -/
noncomputable def prune (p : Int → UInt8 → Prop) (tbl : Table) : Table :=
  tbl.map fun e => (e.1, e.2.filter fun c => decide (p e.1 c.1))

theorem prune_get (p : Int → UInt8 → Prop) (tbl : Table) (n : Int) :
    (prune p tbl).get n = (tbl.get n).map fun row => row.filter fun c => @decide (p n c.1) (Classical.propDecidable _) := by
  induction tbl with
  | nil => rfl
  | cons e tbl ih =>
    obtain ⟨k, row⟩ := e
    simp only [prune, List.map_cons, GoMap.get] at ih ⊢
    split
    · next h => subst h; rfl
    · exact ih

open Classical in
theorem filter_get (q : UInt8 → Prop) (row : Row) (b : UInt8) :
    GoMap.get (row.filter fun c => decide (q c.1)) b = if q b then GoMap.get row b else none := by
  induction row with
  | nil => simp [GoMap.get]
  | cons e row ih =>
    obtain ⟨k, v⟩ := e
    by_cases hk : q k
    · rw [List.filter_cons_of_pos (by simpa using hk)]
      simp only [GoMap.get]
      by_cases h : k = b
      · subst h; simp [hk]
      · simp only [h, if_false]; exact ih
    · rw [List.filter_cons_of_neg (by simpa using hk), ih]
      by_cases h : k = b
      · subst h; simp [hk]
      · simp only [GoMap.get, h, if_false]

open Classical in
theorem prune_body (p : Int → UInt8 → Prop) (tbl : Table) (n : Int) (b : UInt8) (hn : 0 ≤ n) :
    bodyFor (prune p tbl) n b = if p n b then bodyFor tbl n b else none := by
  unfold bodyFor
  simp only [hn, if_true]
  rw [prune_get]
  cases tbl.get n with
  | none => simp
  | some row => exact filter_get (p n) row b

theorem prune_body_neg (p : Int → UInt8 → Prop) (tbl : Table) (n : Int) (b : UInt8) (hn : ¬ 0 ≤ n) :
    bodyFor (prune p tbl) n b = bodyFor tbl n b := by
  unfold bodyFor
  simp only [hn, if_false]

theorem prune_sub {p : Int → UInt8 → Prop} {n : Int} {b : UInt8} {body : List ParserOp}
    (h : bodyFor (prune p tbl) n b = some body) : bodyFor tbl n b = some body ∧ (0 ≤ n → p n b) := by
  by_cases hn : 0 ≤ n
  · rw [prune_body p tbl n b hn] at h
    split at h
    · next hp => exact ⟨h, fun _ => hp⟩
    · cases h
  · rw [prune_body_neg p tbl n b hn] at h
    exact ⟨h, fun h' => absurd h' hn⟩

theorem prune_same (tbl : Table) : SameWhereUsed tbl (prune (CanEnter tbl) tbl) := by
  intro n b h
  constructor
  · by_cases hn : 0 ≤ n
    · rw [prune_body _ _ _ _ hn, if_pos h]
    · rw [prune_body_neg _ _ _ _ hn]
  · rw [prune_get]; cases tbl.get n <;> rfl

theorem prune_public (p : Int → UInt8 → Prop) (h : tbl.Public) : (prune p tbl).Public := by
  intro n row b ops h1 h2 op hop
  rw [prune_get, Option.map_eq_some_iff] at h1
  obtain ⟨row', h1, rfl⟩ := h1
  have := filter_get (p n) row' b
  rw [h2] at this
  split at this
  · exact h n row' b ops h1 this.symm op hop
  · cases this

/-! ## Ranking what is left -/

theorem ReadsNothing.mono {tbl tbl' : Table} (hm : ∀ n b body, bodyFor tbl' n b = some body → bodyFor tbl n b = some body)
    {b : UInt8} {ops : List ParserOp} (h : ReadsNothing tbl' b ops) : ReadsNothing tbl b ops := by
  induction h with
  | nil => exact .nil
  | lit _ ih => exact .lit ih
  | nt hb _ _ ih1 ih2 => exact .nt (hm _ _ _ hb) ih1 ih2

theorem ReadsNuls.mono {tbl tbl' : Table} (hm : ∀ n b body, bodyFor tbl' n b = some body → bodyFor tbl n b = some body)
    {ops : List ParserOp} (h : ReadsNuls tbl' ops) : ReadsNuls tbl ops := by
  induction h with
  | nil => exact .nil
  | lit hs _ ih => exact .lit hs ih
  | nt hb _ _ ih1 ih2 => exact .nt (hm _ _ _ hb) ih1 ih2

theorem ComesTo.mono {tbl tbl' : Table} (hm : ∀ n b body, bodyFor tbl' n b = some body → bodyFor tbl n b = some body)
    {b : UInt8} {n m : Int} (h : ComesTo tbl' b n m) : ComesTo tbl b n m := by
  obtain ⟨pre, post, h1, h2⟩ := h
  exact ⟨pre, post, hm _ _ _ h1, h2.imp (·.mono hm) fun h => ⟨h.1, h.2.mono hm⟩⟩

theorem Steps.mono {α : Type} {r r' : α → α → Prop} (h : ∀ x y, r x y → r' x y) {x y : α} (hs : Steps r x y) : Steps r' x y := by
  induction hs with
  | refl => exact .refl
  | step _ h2 ih => exact .step ih (h _ _ h2)

theorem Steps1.first {α : Type} {r : α → α → Prop} {x z : α} (h : Steps1 r x z) : ∃ y, r x y := by
  obtain ⟨y, h1, h2⟩ := h
  induction h1 generalizing z with
  | refl => exact ⟨z, h2⟩
  | step _ h4 ih => exact ih h4

/-- Row `n` surely reads something when it is wanted before `b`. -/
def SureRow (tbl : Table) (n : Int) (b : UInt8) : Prop :=
  ¬ (ReadsNothing tbl b [.nonTerminal n] ∨ b = 0 ∧ ReadsNuls tbl [.nonTerminal n])

theorem ReadsNothing.cons_nt {b : UInt8} {n : Int} {ops : List ParserOp} (h1 : ReadsNothing tbl b [.nonTerminal n])
    (h2 : ReadsNothing tbl b ops) : ReadsNothing tbl b (.nonTerminal n :: ops) := by
  cases h1 with
  | nt hb h _ => exact .nt hb h h2

theorem ReadsNuls.cons_nt {n : Int} {ops : List ParserOp} (h1 : ReadsNuls tbl [.nonTerminal n])
    (h2 : ReadsNuls tbl ops) : ReadsNuls tbl (.nonTerminal n :: ops) := by
  cases h1 with
  | nt hb h _ => exact .nt hb h h2

theorem ReadsNothing.nuls {ops : List ParserOp} (h : ReadsNothing tbl 0 ops) : ReadsNuls tbl ops := by
  induction h with
  | nil => exact .nil
  | lit _ ih => exact .lit (by simp) ih
  | nt hb _ _ ih1 ih2 => exact .nt hb ih1 ih2

theorem reads_of_not_sure {b : UInt8} {ops : List ParserOp} (hp : ∀ op ∈ ops, op.Public)
    (h : ¬ ∃ op ∈ ops, SureOp (SureRow tbl) b op) : ReadsNothing tbl b ops ∨ b = 0 ∧ ReadsNuls tbl ops := by
  induction ops with
  | nil => exact .inl .nil
  | cons op ops ih =>
    have hrest := ih (fun o ho => hp o (List.mem_cons_of_mem _ ho))
      fun ⟨o, ho, hs⟩ => h ⟨o, List.mem_cons_of_mem _ ho, hs⟩
    have hop : ¬ SureOp (SureRow tbl) b op := fun hs => h ⟨op, List.mem_cons_self, hs⟩
    have hpo := hp op List.mem_cons_self
    cases op with
    | terminal s =>
      simp only [SureOp] at hop
      by_cases hs : s = []
      · subst hs
        exact hrest.imp .lit fun h => ⟨h.1, .lit (by simp) h.2⟩
      · by_cases hb : b = 0
        · subst hb
          right
          refine ⟨rfl, .lit ?_ (hrest.elim (·.nuls) (·.2))⟩
          intro a ha
          apply Classical.byContradiction
          intro hne
          exact hop ⟨hs, fun _ => ⟨a, ha, hne⟩⟩
        · exact absurd ⟨hs, fun h => absurd h hb⟩ hop
    | nonTerminal m =>
      simp only [SureOp, SureRow, Classical.not_not] at hop
      rcases hop with h1 | ⟨rfl, h1⟩
      · rcases hrest with h2 | ⟨rfl, h2⟩
        · exact .inl (h1.cons_nt h2)
        · exact .inr ⟨rfl, h1.nuls.cons_nt h2⟩
      · exact .inr ⟨rfl, h1.cons_nt (hrest.elim (·.nuls) (·.2))⟩
    | _ => simp [ParserOp.Public] at hpo

/-- The rows asked for in a table. -/
def asked (tbl : Table) : List Int :=
  (Lin.cells tbl).flatMap fun c => c.2.2.filterMap fun op => match op with | .nonTerminal m => some m | _ => none

theorem ComesTo.asked {b : UInt8} {n m : Int} (h : ComesTo tbl b n m) : m ∈ asked tbl := by
  obtain ⟨pre, post, hb, _⟩ := h
  exact List.mem_flatMap.2 ⟨_, Lin.mem_cells hb, List.mem_filterMap.2 ⟨.nonTerminal m, by simp, rfl⟩⟩

theorem linear_of_noLoop (he : tbl.HasEntry) (hpub : tbl.Public)
    (hno : ∀ n b, CanEnter tbl n b → ¬ Steps1 (ComesTo tbl b) n n) :
    ∃ K, ∀ (names : Option Names) (src : Source), ∀ text, readSource src = .ok text →
      ∃ o, (Parser.mk tbl names).parseFuel (K * (text.length + 1)) src = some o := by
  classical
  generalize ht : prune (CanEnter tbl) tbl = tbl'
  have hm : ∀ n b body, bodyFor tbl' n b = some body → bodyFor tbl n b = some body := by
    subst ht; exact fun n b body h => (prune_sub h).1
  have hpub' : tbl'.Public := by subst ht; exact prune_public _ hpub
  have he' : tbl'.HasEntry := by
    subst ht
    obtain ⟨row, hrow⟩ := he
    exact ⟨_, by rw [prune_get, hrow]; rfl⟩
  have hacyc : ∀ b n, ¬ Steps1 (ComesTo tbl' b) n n := by
    intro b n hl
    obtain ⟨m, pre, post, hb, _⟩ := hl.first
    have hn : 0 ≤ n := by
      apply Classical.byContradiction
      intro hn
      unfold bodyFor at hb
      simp only [hn, if_false] at hb
      split at hb
      · split at hb
        · have := congrArg (fun o => o.map fun l => l.contains (ParserOp.nonTerminal m)) hb
          simp at this
        · split at hb
          · have := congrArg (fun o => o.map fun l => l.contains (ParserOp.nonTerminal m)) hb
            simp at this
          · cases hb
      · cases hb
    have hce : CanEnter tbl n b := by subst ht; exact (prune_sub hb).2 hn
    obtain ⟨y, h1, h2⟩ := hl
    exact hno n b hce ⟨y, h1.mono fun _ _ h => h.mono hm, h2.mono hm⟩
  have hrank : ∀ b n m, ComesTo tbl' b n m →
      (asked tbl').countP (fun k => decide (Steps1 (ComesTo tbl' b) m k)) <
        (asked tbl').countP (fun k => decide (Steps1 (ComesTo tbl' b) n k)) := by
    intro b n m h
    refine countP_lt (x := m) ?_ h.asked (decide_eq_true ⟨n, .refl, h⟩) (decide_eq_false (hacyc b m))
    intro x _ hx
    obtain ⟨y, h1, h2⟩ := of_decide_eq_true hx
    exact decide_eq_true ⟨y, .head h h1, h2⟩
  obtain ⟨K, hK⟩ := LinAll.linear_of_rank (tbl := tbl') hpub' he' (Sure := SureRow tbl')
    (rank := fun n b => (asked tbl').countP (fun k => decide (Steps1 (ComesTo tbl' b) n k)))
    (fun n b body hs hb => by
      apply Classical.byContradiction
      intro hne
      apply hs
      rcases reads_of_not_sure (bodyFor_public hpub' hb) hne with h | ⟨rfl, h⟩
      · exact .inl (.nt hb h .nil)
      · exact .inr ⟨rfl, .nt hb h .nil⟩)
    (fun n b body hb => by
      refine rankBelow_of fun P m post hP => ?_
      by_cases hs : ∃ op ∈ P, SureOp (SureRow tbl') b op
      · exact .inl hs
      · right
        apply hrank
        refine ⟨P, post, hP ▸ hb, reads_of_not_sure (fun op hop => ?_) hs⟩
        exact bodyFor_public hpub' hb op (by rw [hP]; exact List.mem_append_left _ hop))
  refine ⟨K, fun names src text hr => ?_⟩
  obtain ⟨o, ho⟩ := hK names src text hr
  refine ⟨o, ?_⟩
  rw [parseFuel_eq (p := Parser.mk tbl' names) he' hr] at ho
  rw [parseFuel_eq (p := Parser.mk tbl names) he hr]
  rw [← ho]
  refine (runFuel_unused (by subst ht; exact prune_same tbl) hpub names text _ _ ?_).symm
  exact Within.start _

end LL1
