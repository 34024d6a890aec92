import Verif.Spec.Budget
import Verif.Props.Memory
import Verif.Props.Hang

/-!
# An explicit budget for the loop of `Parse`

Potential of a state: the bytes still to be read, the number of rules that can still be entered before the next byte is
read, and what stands on the operation stack.  Every iteration lets it go down.
-/

namespace LL1.Budget

/-- What an operation costs. -/
def opCost : ParserOp → Nat
  | .nonTerminal _ => 2
  | .terminal t => t.length + 2
  | .function _ _ _ => 1
  | .char _ => 1
  | .eos => 1
  | .nil => 1

def opsCost (ops : List ParserOp) : Nat := (ops.map opCost).sum

theorem opsCost_append (xs ys : List ParserOp) : opsCost (xs ++ ys) = opsCost xs + opsCost ys := by
  simp [opsCost]

theorem opsCost_cons (x : ParserOp) (ys : List ParserOp) : opsCost (x :: ys) = opCost x + opsCost ys := by
  simp [opsCost]

theorem length_le_opsCost (ops : List ParserOp) : ops.length ≤ opsCost ops := by
  induction ops with
  | nil => simp [opsCost]
  | cons op ops ih =>
    rw [opsCost_cons, List.length_cons]
    have : 1 ≤ opCost op := by cases op <;> simp [opCost]
    omega

/-- How many rules can be entered before the next byte is read. -/
def ahead (tbl : Table) (rank : Nat → UInt8 → Nat) (b : UInt8) : List ParserOp → Nat
  | [] => 0
  | .nonTerminal n :: S =>
    match bodyFor tbl n b with
    | none => 0
    | some [] => ahead tbl rank b S
    | some (_ :: _) => rank n.toNat b + 1
  | .terminal [] :: S => ahead tbl rank b S
  | .terminal (_ :: _) :: _ => 0
  | .function _ _ _ :: S => ahead tbl rank b S
  | .char _ :: _ => 0
  | .eos :: _ => 0
  | .nil :: _ => 0

/-- What the argument needs of a table. -/
structure Good (tbl : Table) (W R : Nat) (Live : Nat → Prop) (rank : Nat → UInt8 → Nat) : Prop where
  cost : ∀ (i : Nat) b body, Live i → bodyFor tbl i b = some body → opsCost body ≤ W
  live : ∀ (i : Nat) b body (m : Int), Live i → bodyFor tbl i b = some body → .nonTerminal m ∈ body → ∃ k : Nat, m = k ∧ Live k
  down : ∀ (i : Nat) b body S, Live i → bodyFor tbl i b = some body → body ≠ [] →
    ahead tbl rank b (body ++ S) ≤ rank i b
  most : ∀ (i : Nat) b body, Live i → bodyFor tbl i b = some body → body ≠ [] → rank i b + 1 ≤ R
  zero : ∀ (i : Nat) body, Live i → bodyFor tbl i 0 = some body → body = []

/-- Rules on the stack. -/
def AllLive (Live : Nat → Prop) (S : List ParserOp) : Prop := ∀ m : Int, .nonTerminal m ∈ S → ∃ k : Nat, m = k ∧ Live k

variable {tbl : Table} {names : Option Names} {src : Str} {W R : Nat} {Live : Nat → Prop} {rank : Nat → UInt8 → Nat}

theorem ahead_le (hg : Good tbl W R Live rank) (b : UInt8) {S : List ParserOp} (hS : AllLive Live S) :
    ahead tbl rank b S ≤ R ∧ (b = 0 → ahead tbl rank b S = 0) := by
  induction S with
  | nil => simp [ahead]
  | cons op S ih =>
    have ih := ih (fun m hm => hS m (List.mem_cons_of_mem _ hm))
    cases op with
    | nonTerminal n =>
      obtain ⟨k, rfl, hk⟩ := hS n List.mem_cons_self
      unfold ahead
      cases hb : bodyFor tbl k b with
      | none => simp
      | some body =>
        cases body with
        | nil => simpa using ih
        | cons op body =>
          have := hg.most k b _ hk hb (by simp)
          refine ⟨by simpa using this, ?_⟩
          rintro rfl
          exact absurd (hg.zero k _ hk hb) (by simp)
    | terminal t => cases t <;> simp [ahead, ih] ; simpa using ih.2
    | function n p a => simpa [ahead] using ih
    | char c => simp [ahead]
    | eos => simp [ahead]
    | nil => simp [ahead]

/-- The potential. -/
def potential (tbl : Table) (rank : Nat → UInt8 → Nat) (src : Str) (W R : Nat) (s : PState) : Nat :=
  W * R * (src.length - s.offset) + W * ahead tbl rank (byteAt src s.offset) s.opStack + opsCost s.opStack

theorem step_down (hg : Good tbl W R Live rank) {s s' : PState} (hS : AllLive Live s.opStack)
    (h : step tbl names src s = .next s') :
    AllLive Live s'.opStack ∧ potential tbl rank src W R s' < potential tbl rank src W R s := by
  obtain ⟨i, S, P⟩ := s
  cases S with
  | nil => simp [step] at h
  | cons op S =>
    have hS' : AllLive Live S := fun m hm => hS m (List.mem_cons_of_mem _ hm)
    cases op with
    | nonTerminal n =>
      obtain ⟨k, rfl, hk⟩ := hS n List.mem_cons_self
      rw [step_nonTerminal] at h
      cases hb : bodyFor tbl k (byteAt src i) with
      | none => rw [hb] at h; cases h
      | some body =>
        rw [hb] at h
        cases h
        refine ⟨?_, ?_⟩
        · intro m hm
          simp only [List.mem_append, List.mem_cons] at hm
          rcases hm with hm | hm | hm
          · exact hg.live k _ _ m hk hb hm
          · cases hm
          · exact hS' m hm
        · simp only [potential, opsCost_append, opsCost_cons, opCost]
          cases body with
          | nil => simp [ahead, hb, opsCost]
          | cons op body =>
            have h1 := hg.down k _ _ (.function k i (op :: body).length :: S) hk hb (by simp)
            have h2 := hg.cost k _ _ hk hb
            have h3 : ahead tbl rank (byteAt src i) (.nonTerminal (k : Int) :: S) = rank k (byteAt src i) + 1 := by
              simp [ahead, hb]
            rw [h3]
            have h4 := Nat.mul_le_mul_left W h1
            rw [Nat.mul_add, Nat.mul_one]
            simp only [List.length_cons] at h4 ⊢
            omega
    | terminal t =>
      simp only [step, processTerminal] at h
      cases h
      refine ⟨?_, ?_⟩
      · intro m hm
        simp only [List.mem_append, List.mem_cons, List.mem_map] at hm
        rcases hm with ⟨_, _, hm⟩ | hm | hm
        · cases hm
        · cases hm
        · exact hS' m hm
      · have hc : opsCost (t.map .char) = t.length := by
          clear hS
          induction t with
          | nil => rfl
          | cons c t ih => rw [List.map_cons, opsCost_cons, ih, List.length_cons]; simp only [opCost]; omega
        simp only [potential, opsCost_append, opsCost_cons, opCost, hc]
        cases t with
        | nil => simp [ahead]
        | cons c t => simp only [List.map_cons, List.cons_append, ahead]; omega
    | function n pos a =>
      have hres : s'.opStack = S ∧ s'.offset = i := by
        by_cases ha : a = 0
        · simp only [step, processFunction, ha, if_true] at h; cases h; exact ⟨rfl, rfl⟩
        · simp only [step, processFunction, ha, if_false] at h
          cases hp : popChilds (decide (n = builtinTerminal)) a P [] with
          | error p => rw [hp] at h; cases h
          | ok r => rw [hp] at h; cases h; exact ⟨rfl, rfl⟩
      refine ⟨by rw [hres.1]; exact hS', ?_⟩
      simp only [potential, hres.1, hres.2, ahead, opsCost_cons, opCost]
      omega
    | char c =>
      by_cases hne : c ≠ peek src i
      · simp only [step, processChar, if_pos hne] at h; cases h
      · simp only [step, processChar, if_neg hne] at h
        cases h
        refine ⟨hS', ?_⟩
        simp only [potential, ahead, opsCost_cons, opCost]
        obtain ⟨h1, h2⟩ := ahead_le hg (byteAt src (i + 1)) hS'
        rcases Nat.lt_or_ge i src.length with hi | hi
        · have h3 := Nat.mul_le_mul_left W h1
          have h4 : src.length - i = (src.length - (i + 1)) + 1 := by omega
          rw [h4, Nat.mul_add, Nat.mul_one]
          omega
        · rw [h2 (byteAt_ge (by omega))]
          have h4 : src.length - i = src.length - (i + 1) := by omega
          rw [h4]
          omega
    | eos => simp [step] at h
    | nil => simp [step] at h

theorem run_budget (hg : Good tbl W R Live rank) (f : Nat) : ∀ (s : PState), AllLive Live s.opStack →
    potential tbl rank src W R s < f → ∃ o, runFuel tbl names src f s = some o := by
  induction f with
  | zero => intro s _ h; omega
  | succ f ih =>
    intro s hs hp
    rw [runFuel]
    cases hst : step tbl names src s with
    | done o => exact ⟨o, rfl⟩
    | next s' =>
      obtain ⟨h1, h2⟩ := step_down hg hs hst
      exact ih s' h1 (by omega)

theorem reaches_budget (hg : Good tbl W R Live rank) (h0 : Live 0) {k : Nat} {s : PState} (h : Reaches tbl names src k s) :
    AllLive Live s.opStack ∧ potential tbl rank src W R s + k ≤ potential tbl rank src W R initState := by
  induction h with
  | start =>
    refine ⟨?_, Nat.le_refl _⟩
    intro m hm
    simp only [initState, List.mem_cons] at hm
    rcases hm with hm | hm | hm
    · cases hm; exact ⟨0, rfl, h0⟩
    · cases hm
    · cases hm
  | step _ hs ih =>
    obtain ⟨h1, h2⟩ := step_down hg ih.1 hs
    exact ⟨h1, by omega⟩

theorem init_le (hg : Good tbl W R Live rank) (h0 : Live 0) :
    potential tbl rank src W R initState ≤ W * R * (src.length + 1) + 3 := by
  have hl : AllLive Live initState.opStack := (reaches_budget (names := none) (src := src) hg h0 .start).1
  have h1 := Nat.mul_le_mul_left W (ahead_le hg (byteAt src initState.offset) hl).1
  have h2 : opsCost initState.opStack = 3 := rfl
  have h3 : initState.offset = 0 := rfl
  rw [Nat.mul_add, Nat.mul_one]
  simp only [potential, h2, h3, Nat.sub_zero] at h1 ⊢
  omega

/-! ## Generated tables -/

section
variable {g : Grammar}

theorem le_foldr_max {x : Nat} {L : List Nat} (h : x ∈ L) : x ≤ L.foldr max 0 := by
  induction L with
  | nil => cases h
  | cons y L ih =>
    simp only [List.foldr_cons]
    rcases List.mem_cons.1 h with rfl | h
    · omega
    · have := ih h; omega

theorem cost_of_pairs {syms : List Symbol} {ops : List ParserOp} (h : AllPairs (OpOf g) syms ops) :
    opsCost ops = (syms.map Symbol.cost).sum := by
  induction h with
  | nil => rfl
  | @cons x op xs ops hx _ ih =>
    rw [opsCost_cons, ih, List.map_cons, List.sum_cons]
    cases x with
    | terminal t => cases (hx : _ = _); rfl
    | nothing => exact (hx : False).elim
    | nonTerminal name => obtain ⟨k, _, hk⟩ := hx; cases hk; rfl

theorem cost_of_predicted {b : UInt8} {alts : List Sequence} {body : List ParserOp} (h : RPredicted g b alts body) :
    opsCost body ≤ (alts.map Sequence.cost).sum := by
  induction h with
  | nil => simp [opsCost]
  | take _ ho _ ih =>
    rw [opsCost_append, cost_of_pairs ho, List.map_cons, List.sum_cons]
    unfold Sequence.cost at *
    omega
  | skip _ _ ih => rw [List.map_cons, List.sum_cons]; omega

theorem first_of_predicted {b : UInt8} {alts : List Sequence} {body : List ParserOp} (h : RPredicted g b alts body)
    (hne : body ≠ []) : ∃ alt ∈ alts, RFirst g alt.symbols b := by
  induction h with
  | nil => exact (hne rfl).elim
  | take hf _ _ _ => exact ⟨_, List.mem_cons_self, hf⟩
  | skip _ _ ih =>
    obtain ⟨a, ha, hf⟩ := ih hne
    exact ⟨a, List.mem_cons_of_mem _ ha, hf⟩

/-- The cell of a rule. -/
theorem cell_of (h : TG.RTableOk g tbl) {i : Nat} {r : Rule} (hr : g.rules[i]? = some r) {b : UInt8} {body : List ParserOp}
    (hb : bodyFor tbl i b = some body) : RPredicted g b r.tail.sequences body := by
  have hi : i < g.rules.length := by
    rw [List.getElem?_eq_some_iff] at hr
    exact hr.1
  obtain ⟨row, hrow, hok⟩ := h.rows i hi
  have : bodyFor tbl i b = GoMap.get row b := by simp [bodyFor, hrow]
  rw [this] at hb
  exact ((hok.spec r hr b).2 body hb).2

/-- Number of rules that a rule leads on to on a byte. -/
noncomputable def corners (g : Grammar) (i : Nat) (b : UInt8) : Nat :=
  open Classical in (List.range g.rules.length).countP (fun k => decide (Steps1 (RLeadsOn g b) i k))

theorem RLeadsOn.lt {b : UInt8} {i k : Nat} (h : RLeadsOn g b i k) : k < g.rules.length := by
  obtain ⟨_, _, _, _, _, _, _, _, hr, _⟩ := h
  exact hr.lt

theorem RLeadsOn.mentions {b : UInt8} {i k : Nat} (h : RLeadsOn g b i k) : Mentions g i k := by
  obtain ⟨alt, pre, name, post, ha, _, he, _, hr, _⟩ := h
  exact ⟨alt, name, ha, by rw [he]; simp, hr⟩

theorem corners_lt {b : UInt8} {i k : Nat} (h : RLeadsOn g b i k) (hk : ¬ Steps1 (RLeadsOn g b) k k) :
    corners g k b < corners g i b := by
  classical
  unfold corners
  refine countP_lt (x := k) ?_ (List.mem_range.2 (RLeadsOn.lt h)) (decide_eq_true ⟨i, .refl, h⟩) (decide_eq_false hk)
  intro x _ hx
  obtain ⟨y, h1, h2⟩ := of_decide_eq_true hx
  exact decide_eq_true ⟨y, .head h h1, h2⟩

theorem corners_le {b : UInt8} {i : Nat} (hi : i < g.rules.length) (hl : ¬ Steps1 (RLeadsOn g b) i i) :
    corners g i b + 1 ≤ g.rules.length := by
  classical
  unfold corners
  have := countP_lt (L := List.range g.rules.length) (p := fun k => decide (Steps1 (RLeadsOn g b) i k)) (q := fun _ => true)
    (x := i) (fun _ _ _ => rfl) (List.mem_range.2 hi) rfl (decide_eq_false hl)
  simp at this
  exact this

theorem alts_of_steps {i : Nat} (h : Steps (Mentions g) 0 i) (h0 : g.rules ≠ []) : i < g.rules.length := by
  cases h with
  | refl => exact List.length_pos_iff.2 h0
  | step _ h2 => obtain ⟨_, _, _, _, hr⟩ := h2; exact hr.lt

/-- An operation that certainly reads something when the next byte is `b`. -/
def Sure (g : Grammar) (b : UInt8) : ParserOp → Prop
  | .terminal s => s ≠ []
  | .nonTerminal m => ∃ k : Nat, m = k ∧ k < g.rules.length ∧ RRuleFirst g k b
  | _ => False

/-- What stands first in the operations of an alternative that reads as beginning with `b`. -/
theorem rfirstOps {syms : List Symbol} {b : UInt8} (hF : RFirst g syms b) :
    ∀ {ops : List ParserOp}, AllPairs (OpOf g) syms ops →
      (∃ op ∈ ops, Sure g b op) ∧
      ∀ (P : List ParserOp) (m : Int) (post rest : List ParserOp), ops ++ rest = P ++ .nonTerminal m :: post →
      (∃ op ∈ P, Sure g b op) ∨
      ∃ (pre : List Symbol) (name : Str) (post' : List Symbol) (k : Nat), syms = pre ++ .nonTerminal name :: post' ∧
        (∀ x ∈ pre, RNullable g [x] ∧ ∀ t, x ≠ .terminal (0 :: t)) ∧ g.Refers name k ∧ m = k := by
  induction hF with
  | @terminal b t r hb0 =>
    intro ops ho
    cases ho with
    | @cons _ op _ ops hx ho =>
      cases (hx : _ = _)
      refine ⟨⟨_, List.mem_cons_self, by simp [Sure]⟩, fun P m post rest he => ?_⟩
      cases P with
      | nil => cases he
      | cons op P =>
        simp only [List.cons_append, List.cons.injEq] at he
        obtain ⟨rfl, _⟩ := he
        exact .inl ⟨_, List.mem_cons_self, by simp [Sure]⟩
  | @head name i alt r b hr ha hf _ =>
    intro ops ho
    cases ho with
    | @cons _ op _ ops hx ho =>
      obtain ⟨i', hr', h'⟩ := hx
      cases h'
      have : i' = i := hr'.det hr
      subst this
      have hs : Sure g b (.nonTerminal (i' : Int)) := ⟨i', rfl, hr.lt, alt, ha, hf⟩
      refine ⟨⟨_, List.mem_cons_self, hs⟩, fun P m post rest he => ?_⟩
      cases P with
      | nil =>
        cases he
        exact .inr ⟨[], name, r, i', rfl, by simp, hr, rfl⟩
      | cons op P =>
        simp only [List.cons_append, List.cons.injEq] at he
        obtain ⟨rfl, _⟩ := he
        exact .inl ⟨_, List.mem_cons_self, hs⟩
  | @skip x r b hx0 hn hf ih =>
    intro ops ho
    cases ho with
    | @cons _ op _ ops hx ho =>
      obtain ⟨⟨op', h1, h2⟩, ih⟩ := ih ho
      refine ⟨⟨op', List.mem_cons_of_mem _ h1, h2⟩, fun P m post rest he => ?_⟩
      cases P with
      | nil =>
        cases he
        cases x with
        | terminal t => cases (hx : _ = _)
        | nothing => exact (hx : False).elim
        | nonTerminal name =>
          obtain ⟨k, hr, h'⟩ := hx
          cases h'
          exact .inr ⟨[], name, r, k, rfl, by simp, hr, rfl⟩
      | cons op' P =>
        simp only [List.cons_append, List.cons.injEq] at he
        rcases ih P m post rest he.2 with ⟨op'', h1, h2⟩ | ⟨pre, name, post', k, h1, h2, h3⟩
        · exact .inl ⟨op'', List.mem_cons_of_mem _ h1, h2⟩
        · refine .inr ⟨x :: pre, name, post', k, by rw [h1]; rfl, ?_, h3⟩
          intro y hy
          rcases List.mem_cons.1 hy with rfl | hy
          · exact ⟨hn, hx0⟩
          · exact h2 y hy

/-- What stands in a cell before the first operation that certainly reads. -/
theorem predicted_comes {i : Nat} {b : UInt8} {alts : List Sequence} {body : List ParserOp}
    (h : RPredicted g b alts body) (ha : ∀ alt ∈ alts, g.Alt i alt) :
    ((∃ alt ∈ alts, RFirst g alt.symbols b) → ∃ op ∈ body, Sure g b op) ∧
    (∀ (P : List ParserOp) (m : Int) (post : List ParserOp), body = P ++ .nonTerminal m :: post →
      (∃ op ∈ P, Sure g b op) ∨ ∃ k : Nat, m = k ∧ k < g.rules.length ∧ (RRuleFirst g k b → RLeadsOn g b i k)) := by
  induction h with
  | nil => exact ⟨fun ⟨_, h, _⟩ => (by cases h), fun P m post h => (by cases P <;> cases h)⟩
  | @take alt alts ops rest hf ho _ ih =>
    have halt := ha alt List.mem_cons_self
    obtain ⟨⟨op, h1, h2⟩, h3⟩ := rfirstOps hf ho
    refine ⟨fun _ => ⟨op, List.mem_append_left _ h1, h2⟩, fun P m post he => ?_⟩
    rcases h3 P m post rest he with h | ⟨pre, name, post', k, h1, h2, h3, h4⟩
    · exact .inl h
    · exact .inr ⟨k, h4, h3.lt, fun hk => ⟨alt, pre, name, post', halt, hf, h1, h2, h3, hk⟩⟩
  | @skip alt alts rest hn _ ih =>
    obtain ⟨h1, h2⟩ := ih (fun a h => ha a (List.mem_cons_of_mem _ h))
    refine ⟨?_, h2⟩
    rintro ⟨a, h, hf⟩
    rcases List.mem_cons.1 h with rfl | h
    · exact (hn hf).elim
    · exact h1 ⟨a, h, hf⟩

theorem cell_first (h : TG.RTableOk g tbl) {i : Nat} (hi : i < g.rules.length) {b : UInt8} {body : List ParserOp}
    (hb : bodyFor tbl i b = some body) (hne : body ≠ []) : RRuleFirst g i b := by
  obtain ⟨r, hr⟩ : ∃ r, g.rules[i]? = some r := ⟨_, List.getElem?_eq_getElem hi⟩
  obtain ⟨alt, ha, hf⟩ := first_of_predicted (cell_of h hr hb) hne
  exact ⟨alt, ⟨r, hr, ha⟩, hf⟩

theorem cell_sure (h : TG.RTableOk g tbl) {i : Nat} {b : UInt8} {body : List ParserOp}
    (hb : bodyFor tbl i b = some body) (hf : RRuleFirst g i b) : ∃ op ∈ body, Sure g b op := by
  obtain ⟨alt, ⟨r, hr, ha⟩, hf⟩ := hf
  exact (predicted_comes (cell_of h hr hb) (i := i) (fun alt ha => ⟨r, hr, ha⟩)).1 ⟨alt, ha, hf⟩

/-- Before the next byte is read only rules of lower rank are entered. -/
theorem ahead_body (h : TG.RTableOk g tbl) {rank : Nat → UInt8 → Nat}
    {i : Nat} (hi : i < g.rules.length) {b : UInt8} {body : List ParserOp} (hb : bodyFor tbl i b = some body)
    (hne : body ≠ []) (hr : ∀ k, RLeadsOn g b i k → rank k b < rank i b) (X : List ParserOp) :
    ahead tbl rank b (body ++ X) ≤ rank i b := by
  obtain ⟨r, hrr⟩ : ∃ r, g.rules[i]? = some r := ⟨_, List.getElem?_eq_getElem hi⟩
  have hs := cell_sure h hb (cell_first h hi hb hne)
  have hc := (predicted_comes (cell_of h hrr hb) (i := i) (fun alt ha => ⟨r, hrr, ha⟩)).2
  have key : ∀ (Q P : List ParserOp), body = P ++ Q → (¬ ∃ op ∈ P, Sure g b op) →
      (∃ op ∈ Q, Sure g b op) → ahead tbl rank b (Q ++ X) ≤ rank i b := by
    intro Q
    induction Q with
    | nil => rintro P _ _ ⟨_, h, _⟩; cases h
    | cons op Q ih =>
      intro P he hP hQ
      by_cases hop : Sure g b op
      · cases op with
        | terminal t =>
          cases t with
          | nil => exact (hop rfl).elim
          | cons c t => simp [ahead]
        | nonTerminal m =>
          rcases hc P m Q he with h1 | ⟨k, rfl, hk, h3⟩
          · exact (hP h1).elim
          · rw [List.cons_append, ahead]
            cases hbk : bodyFor tbl k b with
            | none => simp
            | some bd =>
              obtain ⟨k', hk', _, hf⟩ := hop
              have : k' = k := by omega
              subst this
              obtain ⟨op', h4, _⟩ := cell_sure h hbk hf
              cases bd with
              | nil => cases h4
              | cons o bd => exact hr k' (h3 hf)
        | _ => exact (hop : False).elim
      · have hrest : ahead tbl rank b (Q ++ X) ≤ rank i b := by
          refine ih (P ++ [op]) (by rw [he]; simp) ?_ ?_
          · rintro ⟨o, h1, h2⟩
            rcases List.mem_append.1 h1 with h1 | h1
            · exact hP ⟨o, h1, h2⟩
            · simp only [List.mem_singleton] at h1; subst h1; exact hop h2
          · obtain ⟨o, h1, h2⟩ := hQ
            rcases List.mem_cons.1 h1 with rfl | h1
            · exact (hop h2).elim
            · exact ⟨o, h1, h2⟩
        cases op with
        | terminal t => cases t <;> simp [ahead, hrest]
        | nonTerminal m =>
          rcases hc P m Q he with h1 | ⟨k, rfl, hk, h3⟩
          · exact (hP h1).elim
          · rw [List.cons_append, ahead]
            cases hbk : bodyFor tbl k b with
            | none => simp
            | some bd =>
              cases bd with
              | nil => simpa using hrest
              | cons o bd => exact hr k (h3 (cell_first h hk hbk (by simp)))
        | function n p a => simpa [ahead] using hrest
        | _ => simp [ahead]
  exact key body [] rfl (by rintro ⟨_, h, _⟩; cases h) hs

theorem good_generated {order : Order} {names : Names} (h : fromGrammar order g = .ok (tbl, names))
    (hl : RNoLoop g) {W : Nat}
    (hW : ∀ (i : Nat) b body, i < g.rules.length → bodyFor tbl i b = some body → opsCost body ≤ W) :
    Good tbl W g.rules.length (fun i => Steps (Mentions g) 0 i) (corners g) := by
  have hok := TG.fromGrammar_rok h
  have hne := hok.rules
  refine ⟨fun i b body hi hb => hW i b body (alts_of_steps hi hne) hb, ?_, ?_, ?_, ?_⟩
  · intro i b body m hi hb hm
    obtain ⟨_, _, h3⟩ := TG.fromGrammar_closed h
    unfold bodyFor at hb
    rw [if_pos (by omega)] at hb
    cases hg : tbl.get i with
    | none => simp [hg] at hb
    | some row =>
      simp only [hg, Option.bind_some] at hb
      obtain ⟨alt, x, ⟨a, ha', ha⟩, hx, ho⟩ := h3 i row _ _ hg hb (.nonTerminal m) hm
      have : a = i := by omega
      subst this
      cases x with
      | terminal t => cases (ho : _ = _)
      | nothing => exact (ho : False).elim
      | nonTerminal name =>
        obtain ⟨k, hr, hk⟩ := ho
        cases hk
        exact ⟨k, rfl, .step hi ⟨alt, name, ha, hx, hr⟩⟩
  · intro i b body S hi hb hbne
    refine ahead_body hok (alts_of_steps hi hne) hb hbne ?_ S
    intro k hk
    exact corners_lt hk (hl k b (.step hi (RLeadsOn.mentions hk)))
  · intro i b body hi _ _
    exact corners_le (alts_of_steps hi hne) (hl i b hi)
  · intro i body hi hb
    apply Classical.byContradiction
    intro hbne
    obtain ⟨alt, ha, hf⟩ := cell_first hok (alts_of_steps hi hne) hb hbne
    exact TG.first_ne_zero hf rfl

theorem cost_rule {order : Order} {names : Names} (h : fromGrammar order g = .ok (tbl, names))
    (i : Nat) (b : UInt8) (body : List ParserOp) (hi : i < g.rules.length) (hb : bodyFor tbl i b = some body) :
    opsCost body ≤ g.dearestRule := by
  obtain ⟨r, hr⟩ : ∃ r, g.rules[i]? = some r := ⟨_, List.getElem?_eq_getElem hi⟩
  refine Nat.le_trans (cost_of_predicted (cell_of (TG.fromGrammar_rok h) hr hb)) ?_
  exact le_foldr_max (List.mem_map.2 ⟨r, List.mem_of_getElem? hr, rfl⟩)

theorem cost_alternative {order : Order} {names : Names} (h : fromGrammar order g = .ok (tbl, names)) (hz : g.NulStartFree)
    (hd : FirstDisjoint g) (i : Nat) (b : UInt8) (body : List ParserOp) (hi : i < g.rules.length)
    (hb : bodyFor tbl i b = some body) : opsCost body ≤ g.dearestAlternative := by
  rcases cell_alt (TG.fromGrammar_ok hz h) hd hi hb with ⟨_, _, rfl⟩ | ⟨alt, ⟨r, hr, ha⟩, _, ho⟩
  · simp [opsCost]
  · rw [cost_of_pairs ho]
    refine Nat.le_trans (le_foldr_max (List.mem_map.2 ⟨alt, ha, rfl⟩)) (le_foldr_max (List.mem_map.2 ⟨r, List.mem_of_getElem? hr, rfl⟩))

/-! ## Where there is no loop -/

theorem LeadsOn.leftCorner {b : UInt8} {i k : Nat} (h : LeadsOn g b i k) : LeftCorner g i k := by
  obtain ⟨alt, pre, name, post, ha, _, he, hn, hr, _⟩ := h
  exact ⟨alt, pre, name, post, ha, he, hn, hr⟩

theorem noLoop_of_left (hl : ∀ i, Steps (Mentions g) 0 i → ¬ LeftRecursive g i) : NoLoop g := by
  rintro i b hi ⟨y, h1, h2⟩
  have hm : ∀ {x y : Nat}, Steps (LeadsOn g b) x y → Steps (LeftCorner g) x y := by
    intro x y h
    induction h with
    | refl => exact .refl
    | step _ h ih => exact .step ih (LeadsOn.leftCorner h)
  exact hl i hi ⟨y, hm h1, LeadsOn.leftCorner h2⟩

theorem nullable_of_cons {x : Symbol} {xs : List Symbol} (h : Nullable g (x :: xs)) : Nullable g [x] ∧ Nullable g xs := by
  cases h with
  | nothing h => exact ⟨.nothing .nil, h⟩
  | emptyTerminal h => exact ⟨.emptyTerminal .nil, h⟩
  | nonTerminal hr ha hn h => exact ⟨.nonTerminal hr ha hn .nil, h⟩

theorem ruleNullable_of {name : Str} {k : Nat} (hr : g.Refers name k) (hn : Nullable g [.nonTerminal name]) : RuleNullable g k := by
  cases hn with
  | nonTerminal hr' ha' hn' _ =>
    rw [hr'.det hr] at ha'
    exact ⟨_, ha', hn'⟩

theorem first_of_nullable {pre : List Symbol} (hn : Nullable g pre) {post : List Symbol} {b : UInt8} (hf : First g post b) :
    First g (pre ++ post) b := by
  induction pre with
  | nil => exact hf
  | cons x pre ih =>
    obtain ⟨h1, h2⟩ := nullable_of_cons hn
    exact .skip h1 (ih h2)

theorem rleadsOn_iff (hz : g.NulStartFree) {b : UInt8} {i k : Nat} : RLeadsOn g b i k ↔ LeadsOn g b i k := by
  have hrf : RRuleFirst g k b ↔ RuleFirst g k b :=
    exists_congr fun alt => and_congr_right fun ha => TG.rfirst_alt hz ha b
  constructor
  · rintro ⟨alt, pre, name, post, ha, hf, he, hn, hr, hk⟩
    refine ⟨alt, pre, name, post, ha, (TG.rfirst_alt hz ha b).1 hf, he, ?_, hr, hrf.1 hk⟩
    have hfree : ∀ x ∈ pre, TG.SymsFree [x] := fun x hx t ht => hz i alt t ha (by
      rw [List.mem_singleton] at ht
      rw [he, ht]
      exact List.mem_append_left _ hx)
    clear he
    induction pre with
    | nil => exact .nil
    | cons x pre ih =>
      refine Nullable.append (xs := [x]) ((TG.rnullable_iff hz (hfree x (by simp))).1 (hn x (by simp)).1) ?_
      exact ih (fun y hy => hn y (List.mem_cons_of_mem _ hy)) (fun y hy => hfree y (List.mem_cons_of_mem _ hy))
  · rintro ⟨alt, pre, name, post, ha, hf, he, hn, hr, hk⟩
    refine ⟨alt, pre, name, post, ha, (TG.rfirst_alt hz ha b).2 hf, he, ?_, hr, hrf.2 hk⟩
    intro x hx
    refine ⟨?_, ?_⟩
    · clear he
      induction pre with
      | nil => cases hx
      | cons y pre ih =>
        obtain ⟨h1, h2⟩ := nullable_of_cons hn
        rcases List.mem_cons.1 hx with rfl | hx
        · exact TG.nullable_reads h1
        · exact ih h2 hx
    · rintro t rfl
      exact hz i alt _ ha (by rw [he]; exact List.mem_append_left _ hx) rfl

theorem rnoLoop_iff (hz : g.NulStartFree) : RNoLoop g ↔ NoLoop g := by
  have : ∀ b, RLeadsOn g b = LeadsOn g b := fun b => by
    funext i k; exact propext (rleadsOn_iff hz)
  simp only [RNoLoop, NoLoop, this]

theorem firstRank_comes (hll : IsLL1 g) {i k : Nat} {b : UInt8} (h : LeadsOn g b i k) : firstRank g k b < firstRank g i b := by
  obtain ⟨alt, pre, name, post, ha, hf, he, hn, hr, hk⟩ := h
  obtain ⟨n0, hn0⟩ := firstH_of hf
  obtain ⟨n, ⟨i', hi', alt', ha', hf'⟩, hrank⟩ := firstRank_spec (g := g) (i := (i : Int)) (b := b) ⟨n0, i, rfl, alt, ha, hn0⟩
  have : i' = i := by omega
  subst this
  have : alt' = alt := firstDisjoint_alt hll.1 ha' ha (first_of_firstH hf') hf
  subst this
  have key : ∀ {n : Nat} {syms : List Symbol} {c : UInt8}, FirstH g n syms c → c = b → ∀ (d pre : List Symbol),
      alt'.symbols = d ++ syms → syms = pre ++ .nonTerminal name :: post → Nullable g pre → firstRank g k b ≤ n := by
    intro n syms c hF
    induction hF with
    | @terminal h c t rest =>
      intro _ d pre _ h2 h3
      cases pre with
      | nil => simp at h2
      | cons x pre =>
        simp only [List.cons_append, List.cons.injEq] at h2
        rw [← h2.1] at h3
        cases h3
    | @head h name0 i0 alt0 rest c hr0 ha0 hf0 _ =>
      rintro rfl d pre h1 h2 h3
      cases pre with
      | nil =>
        simp only [List.nil_append, List.cons.injEq, Symbol.nonTerminal.injEq] at h2
        obtain ⟨rfl, _⟩ := h2
        have : i0 = k := hr0.det hr
        subst this
        exact firstRank_le ⟨i0, rfl, alt0, ha0, hf0⟩
      | cons x pre =>
        simp only [List.cons_append, List.cons.injEq] at h2
        obtain ⟨rfl, h2⟩ := h2
        obtain ⟨h4, h5⟩ := nullable_of_cons h3
        obtain ⟨altk, hak, hfk⟩ := hk
        refine (hll.2.2 i0 c (ruleNullable_of hr0 h4) ⟨alt0, ha0, first_of_firstH hf0⟩ ?_).elim
        refine .first ha' h1 hr0 ?_
        rw [h2]
        exact first_of_nullable h5 (.head hr hak hfk)
    | @skip h x rest c hx hf0 ih =>
      rintro rfl d pre h1 h2 h3
      cases pre with
      | nil =>
        simp only [List.nil_append, List.cons.injEq] at h2
        obtain ⟨rfl, _⟩ := h2
        exact (hll.2.2 k c (ruleNullable_of hr hx) hk (.first ha' h1 hr (first_of_firstH hf0))).elim
      | cons y pre =>
        simp only [List.cons_append, List.cons.injEq] at h2
        obtain ⟨rfl, h2⟩ := h2
        exact ih rfl (d ++ [x]) pre (by simpa using h1) h2 (nullable_of_cons h3).2
  have := key hf' rfl [] pre rfl he hn
  omega

theorem noLoop_of_ll1 (hll : IsLL1 g) : NoLoop g := by
  rintro i b _ ⟨y, h1, h2⟩
  have hm : ∀ {x y : Nat}, Steps (LeadsOn g b) x y → firstRank g y b ≤ firstRank g x b := by
    intro x y h
    induction h with
    | refl => exact Nat.le_refl _
    | step _ h ih => have := firstRank_comes hll h; omega
  have := hm h1
  have := firstRank_comes hll h2
  omega

end

end LL1.Budget
