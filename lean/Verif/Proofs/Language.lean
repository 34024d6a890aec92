import Verif.Proofs.TableClosed
import Verif.Proofs.ParserTop
import Mathlib.Data.Nat.Find

/-!
# Generated tables and the language of the grammar
-/

namespace LL1

/-- With disjoint FIRST sets a non-empty cell is one alternative. -/
theorem predicted_single {g : Grammar} {b : UInt8} {alts : List Sequence} {ops : List ParserOp}
    (h : Predicted g b alts ops)
    (hd : ∀ (k l : Nat) (a c : Sequence), alts[k]? = some a → alts[l]? = some c → First g a.symbols b →
      First g c.symbols b → k = l) :
    ((∀ alt ∈ alts, ¬ First g alt.symbols b) ∧ ops = []) ∨
    ∃ alt ∈ alts, First g alt.symbols b ∧ AllPairs (OpOf g) alt.symbols ops := by
  induction h with
  | nil => exact .inl ⟨by simp, rfl⟩
  | @take alt alts ops rest h1 h2 h3 ih =>
    right
    rcases ih (fun k l a c hk hl ha hc => by
      have := hd (k + 1) (l + 1) a c (by simpa using hk) (by simpa using hl) ha hc
      omega) with ⟨_, rfl⟩ | ⟨alt', hm, hf, _⟩
    · exact ⟨alt, List.mem_cons_self, h1, by simpa using h2⟩
    · obtain ⟨k, hk⟩ := List.getElem?_of_mem hm
      have := hd 0 (k + 1) alt alt' (by simp) (by simpa using hk) h1 hf
      omega
  | @skip alt alts rest h1 _ ih =>
    rcases ih (fun k l a c hk hl ha hc => by
      have := hd (k + 1) (l + 1) a c (by simpa using hk) (by simpa using hl) ha hc
      omega) with ⟨h2, h3⟩ | ⟨alt', hm, hf⟩
    · refine .inl ⟨?_, h3⟩
      intro a ha
      rcases List.mem_cons.1 ha with rfl | ha
      · exact h1
      · exact h2 a ha
    · exact .inr ⟨alt', List.mem_cons_of_mem _ hm, hf⟩

/-- What a present cell means when the FIRST sets of the alternatives are disjoint. -/
theorem cell_alt {g : Grammar} {tbl : Table} (h : TG.TableOk g tbl) (hd : FirstDisjoint g) {i : Nat}
    {b : UInt8} {body : List ParserOp} (hi : i < g.rules.length) (hb : bodyFor tbl i b = some body) :
    (¬ RuleFirst g i b ∧ RuleNullable g i ∧ body = []) ∨
    ∃ alt, g.Alt i alt ∧ First g alt.symbols b ∧ AllPairs (OpOf g) alt.symbols body := by
  obtain ⟨r, hr⟩ : ∃ r, g.rules[i]? = some r := ⟨_, List.getElem?_eq_getElem hi⟩
  obtain ⟨h1, h2⟩ := h.cell hr b
  rcases predicted_single (h2 body hb) (fun k l a c hk hl => hd i r k l a c b hr hk hl) with
    ⟨h3, h4⟩ | ⟨alt, hm, hf, ha⟩
  · left
    have hnf : ¬ RuleFirst g i b := by
      rintro ⟨alt, ⟨r', hr', hm⟩, hf⟩
      rw [hr] at hr'
      cases hr'
      exact h3 alt hm hf
    refine ⟨hnf, ?_, h4⟩
    have : ¬ bodyFor tbl i b = none := by rw [hb]; simp
    rw [h1, not_not] at this
    rcases this with h | h
    · exact (hnf h).elim
    · exact h.1
  · exact .inr ⟨alt, ⟨r, hr, hm⟩, hf, ha⟩

theorem fromGrammar_tableNulFree {order : List (Str × Nat) → List (Str × Nat)} {g : Grammar} {tbl : Table}
    {names : Names} (h : fromGrammar order g = .ok (tbl, names)) (hz : g.NulFree) : tbl.NulFree := by
  obtain ⟨_, _, h3⟩ := TG.fromGrammar_closed h
  intro n row b ops hn hb s hs
  obtain ⟨alt, x, ⟨i, _, ha⟩, hx, ho⟩ := h3 n row b ops hn hb _ hs
  cases x with
  | terminal t =>
    cases ho
    exact hz i alt _ ha hx
  | nothing => exact (ho : False).elim
  | nonTerminal n => obtain ⟨i, _, h⟩ := ho; cases h

theorem fromGrammar_tableStartFree {order : List (Str × Nat) → List (Str × Nat)} {g : Grammar} {tbl : Table}
    {names : Names} (h : fromGrammar order g = .ok (tbl, names)) (hz : g.NulStartFree) : tbl.NulStartFree := by
  obtain ⟨_, _, h3⟩ := TG.fromGrammar_closed h
  intro n row b ops hn hb s hs
  obtain ⟨alt, x, ⟨i, _, ha⟩, hx, ho⟩ := h3 n row b ops hn hb _ hs
  cases x with
  | terminal t =>
    cases ho
    exact hz i alt _ ha hx
  | nothing => exact (ho : False).elim
  | nonTerminal n => obtain ⟨i, _, h⟩ := ho; cases h

theorem opsOf_closed {g : Grammar} {syms : List Symbol} {ops : List ParserOp}
    (h : AllPairs (OpOf g) syms ops) : ∀ op ∈ ops, ClosedOp g.rules.length op := by
  intro op hop
  obtain ⟨x, _, hx⟩ := h.mem_right hop
  exact TG.opOf_closed hx

/-! ## Soundness -/

/-- What a generated table derives, the grammar derives. -/
theorem gen_of_derives {g : Grammar} {tbl : Table} (h : TG.TableOk g tbl) (hd : FirstDisjoint g)
    (hnf : tbl.NulFree) {src : Str} {ops : List ParserOp} {i j : Nat} {cs : List Node}
    (hD : Derives tbl src ops i j cs) : ∀ syms, AllPairs (OpOf g) syms ops → OpsNulFree ops →
      i ≤ src.length → Gen g syms (slice src i j) := by
  induction hD with
  | nil i =>
    intro syms hs _ _
    cases hs
    rw [slice_self]; exact .nil
  | @lit s ops i j cs hl hD ih =>
    intro syms hs ho hi
    cases hs with
    | @cons x _ xs _ hx hs =>
      have hb := litAt_bound hl (ho s List.mem_cons_self) hi
      have := ih xs hs (fun s hs => ho s (List.mem_cons_of_mem _ hs)) hb
      cases x with
      | terminal t =>
        cases (hx : _ = _)
        rw [← slice_append src (Nat.le_add_right i s.length) hD.le, litAt_slice hl hb]
        exact .terminal this
      | nothing => exact (hx : False).elim
      | nonTerminal n => obtain ⟨k, _, h⟩ := hx; cases h
  | @nt n body ops i j k cs ds hb hD1 hD2 ih1 ih2 =>
    intro syms hs ho hi
    cases hs with
    | @cons x _ xs _ hx hs =>
      have hj := hD1.bound hnf (bodyFor_nulFree hnf hb) hi
      have h2 := ih2 xs hs (fun s hs => ho s (List.mem_cons_of_mem _ hs)) hj
      cases x with
      | terminal t => cases (hx : _ = _)
      | nothing => exact (hx : False).elim
      | nonTerminal name =>
        obtain ⟨m, hr, h⟩ := hx
        cases h
        rw [← slice_append src hD1.le hD2.le]
        rcases cell_alt h hd hr.lt hb with ⟨_, ⟨alt, ha, hn⟩, rfl⟩ | ⟨alt, ha, _, hp⟩
        · cases hD1
          rw [slice_self]
          exact .nonTerminal hr ha (nullable_iff_gen.1 hn) h2
        · exact .nonTerminal hr ha (ih1 alt.symbols hp (bodyFor_nulFree hnf hb) hi) h2

/-! ## Completeness -/

theorem litAt_append (p t s : Str) : LitAt (p ++ (t ++ s)) t p.length := by
  intro k hk
  unfold byteAt
  rw [List.getD_eq_getElem?_getD, List.getElem?_append_right (by omega),
    show p.length + k - p.length = k by omega, List.getElem?_append_left hk]
  rw [List.getElem?_eq_getElem hk]; rfl

theorem byteAt_append_cons (p : Str) (b : UInt8) (s : Str) : byteAt (p ++ b :: s) p.length = b := by
  unfold byteAt
  rw [List.getD_eq_getElem?_getD, List.getElem?_append_right (by omega)]
  simp

/-- `c` is a possible next byte after `syms`: bytes that can come after the non-terminals of `syms` are
in their FOLLOW sets. -/
def Ctx (g : Grammar) (syms : List Symbol) (c : UInt8) : Prop :=
  ∀ pre name post k b, syms = pre ++ .nonTerminal name :: post → g.Refers name k →
    (First g post b ∨ (Nullable g post ∧ b = c)) → Follow g k b

theorem Ctx.tail {g : Grammar} {x : Symbol} {syms : List Symbol} {c : UInt8} (h : Ctx g (x :: syms) c) :
    Ctx g syms c := fun pre name post k b hs => h (x :: pre) name post k b (by rw [hs]; rfl)

theorem Ctx.alt {g : Grammar} {i : Nat} {alt : Sequence} {c : UInt8} (ha : g.Alt i alt)
    (hc : Follow g i c) : Ctx g alt.symbols c := by
  rintro pre name post k b hs hr (hf | ⟨hn, rfl⟩)
  · exact .first ha hs hr hf
  · exact .last ha hs hr hn hc

theorem firstDisjoint_alt {g : Grammar} (hd : FirstDisjoint g) {i : Nat} {a c : Sequence} {b : UInt8}
    (ha : g.Alt i a) (hc : g.Alt i c) (hfa : First g a.symbols b) (hfc : First g c.symbols b) : a = c := by
  obtain ⟨r, hr, hm⟩ := ha
  obtain ⟨r', hr', hm'⟩ := hc
  rw [hr] at hr'
  cases hr'
  obtain ⟨k, hk⟩ := List.getElem?_of_mem hm
  obtain ⟨l, hl⟩ := List.getElem?_of_mem hm'
  have := hd i r k l _ _ b hr hk hl hfa hfc
  subst this
  rw [hk] at hl
  cases hl; rfl

theorem Covered.body {g : Grammar} {tbl : Table} (h : Covered g tbl) {i : Nat} {b : UInt8}
    (hn : RuleNullable g i) (hf : Follow g i b) : bodyFor tbl i b ≠ none := by
  obtain ⟨row, ops, h1, h2⟩ := h i b hn hf
  rw [bodyFor_nat h1, h2]
  simp

/-- Expanding one rule. -/
theorem rule_step {g : Grammar} {tbl : Table} (h : TG.TableOk g tbl) (hll : IsLL1 g)
    (hcov : Covered g tbl) {i : Nat} {alt : Sequence} (ha : g.Alt i alt) {u : Str}
    (hu : Gen g alt.symbols u) (p s : Str)
    (hfol : Follow g i (byteAt (p ++ (u ++ s)) (p.length + u.length)))
    (ih : ∀ ops, AllPairs (OpOf g) alt.symbols ops →
      ∃ cs, Derives tbl (p ++ (u ++ s)) ops p.length (p.length + u.length) cs) :
    ∃ body cs, bodyFor tbl i (byteAt (p ++ (u ++ s)) p.length) = some body ∧
      Derives tbl (p ++ (u ++ s)) body p.length (p.length + u.length) cs := by
  cases hb : bodyFor tbl i (byteAt (p ++ (u ++ s)) p.length) with
  | none =>
    cases u with
    | nil => exact (hcov.body ⟨alt, ha, nullable_iff_gen.2 hu⟩ hfol hb).elim
    | cons b u =>
      rw [List.cons_append, byteAt_append_cons] at hb
      obtain ⟨r, hr, _⟩ := id ha
      exact ((h.cell hr b).1.1 hb (.inl ⟨alt, ha, first_of_gen hu⟩)).elim
  | some body =>
    refine ⟨body, ?_⟩
    rcases cell_alt h hll.1 ha.lt hb with ⟨hnf, _, rfl⟩ | ⟨alt', ha', hf', hp⟩
    · cases u with
      | nil => exact ⟨[], rfl, .nil _⟩
      | cons b u =>
        rw [List.cons_append, byteAt_append_cons] at hnf
        exact (hnf ⟨alt, ha, first_of_gen hu⟩).elim
    · cases u with
      | nil => exact (hll.2.2 i _ ⟨alt, ha, nullable_iff_gen.2 hu⟩ ⟨alt', ha', hf'⟩ hfol).elim
      | cons b u =>
        have : byteAt (p ++ (b :: u ++ s)) p.length = b := by
          rw [List.cons_append, byteAt_append_cons]
        rw [this] at hf'
        cases firstDisjoint_alt hll.1 ha' ha hf' (first_of_gen hu)
        obtain ⟨cs, hD⟩ := ih body hp
        exact ⟨cs, rfl, hD⟩

theorem derives_of_gen {g : Grammar} {tbl : Table} (h : TG.TableOk g tbl) (hll : IsLL1 g)
    (hcov : Covered g tbl) {syms : List Symbol} {w : Str} (hG : Gen g syms w) :
    ∀ (p s : Str) (ops : List ParserOp), AllPairs (OpOf g) syms ops →
      Ctx g syms (byteAt (p ++ (w ++ s)) (p.length + w.length)) →
      ∃ cs, Derives tbl (p ++ (w ++ s)) ops p.length (p.length + w.length) cs := by
  induction hG with
  | nil =>
    intro p s ops ho _
    cases ho
    exact ⟨[], .nil _⟩
  | @terminal t rest w _ ih =>
    intro p s ops ho hc
    cases ho with
    | @cons _ op _ ops hx ho =>
      cases (hx : _ = _)
      have e1 : p ++ (t ++ w ++ s) = (p ++ t) ++ (w ++ s) := by simp
      have e2 : p.length + (t ++ w).length = (p ++ t).length + w.length := by simp; omega
      rw [e1, e2] at hc
      obtain ⟨cs, hD⟩ := ih (p ++ t) s ops ho hc.tail
      rw [e1, e2]
      refine ⟨_, .lit ?_ (by rw [List.length_append] at hD ⊢; exact hD)⟩
      rw [List.append_assoc]; exact litAt_append p t (w ++ s)
  | nothing _ _ =>
    intro p s ops ho _
    cases ho with
    | cons hx _ => exact (hx : False).elim
  | @nonTerminal name i alt rest u w hr ha hu hw ih1 ih2 =>
    intro p s ops ho hc
    cases ho with
    | @cons _ op _ ops hx ho =>
      obtain ⟨i', hr', h'⟩ := hx
      cases h'
      have : i' = i := hr'.det hr
      subst this
      have e1 : p ++ (u ++ w ++ s) = (p ++ u) ++ (w ++ s) := by simp
      have e1' : p ++ (u ++ w ++ s) = p ++ (u ++ (w ++ s)) := by simp
      have e2 : p.length + (u ++ w).length = (p ++ u).length + w.length := by simp; omega
      -- the byte after `u` is in FOLLOW of the rule
      have hfol : Follow g i' (byteAt (p ++ (u ++ (w ++ s))) (p.length + u.length)) := by
        rw [← e1']
        refine hc [] name rest i' _ rfl hr ?_
        cases w with
        | nil => right; exact ⟨nullable_iff_gen.2 hw, by simp⟩
        | cons b w =>
          left
          have : byteAt (p ++ (u ++ (b :: w) ++ s)) (p.length + u.length) = b := by
            rw [show p ++ (u ++ (b :: w) ++ s) = (p ++ u) ++ b :: (w ++ s) by simp,
              ← List.length_append]
            exact byteAt_append_cons _ _ _
          rw [this]
          exact first_of_gen hw
      rw [e2, e1] at hc
      obtain ⟨ds, hD2⟩ := ih2 (p ++ u) s ops ho hc.tail
      obtain ⟨body, cs, hb, hD1⟩ := rule_step h hll hcov ha hu p (w ++ s) hfol
        (fun ops ho => ih1 p (w ++ s) ops ho (Ctx.alt ha hfol))
      rw [← e1, List.length_append] at hD2
      rw [← e1'] at hb hD1
      rw [e2, List.length_append]
      exact ⟨_, .nt hb hD1 hD2⟩

/-- Completeness for the start rule. -/
theorem derives_of_sentence {g : Grammar} {tbl : Table} (h : TG.TableOk g tbl) (hll : IsLL1 g)
    (hcov : Covered g tbl) {w : Str} (hG : Sentence g w) :
    ∃ t, Derives tbl w [.nonTerminal 0] 0 w.length [t] := by
  obtain ⟨alt, ha, hu⟩ := hG
  have h0 : byteAt w w.length = 0 := by simp [byteAt]
  have hfol : Follow g 0 (byteAt ([] ++ (w ++ [])) (([] : Str).length + w.length)) := by
    simp only [List.nil_append, List.append_nil, List.length_nil, Nat.zero_add, h0]
    exact .start
  obtain ⟨body, cs, hb, hD⟩ := rule_step h hll hcov ha hu [] [] hfol
    (fun ops ho => derives_of_gen h hll hcov hu [] [] ops ho (Ctx.alt ha hfol))
  simp only [List.nil_append, List.append_nil, List.length_nil, Nat.zero_add] at hb hD
  exact ⟨_, .nt hb hD (.nil _)⟩

/-! ## Termination -/

/-- FIRST with the height of the derivation. -/
inductive FirstH (g : Grammar) : Nat → List Symbol → UInt8 → Prop
  | terminal {h : Nat} {b : UInt8} {t : Str} {rest : List Symbol} : FirstH g h (.terminal (b :: t) :: rest) b
  | head {h : Nat} {name : Str} {i : Nat} {alt : Sequence} {rest : List Symbol} {b : UInt8} :
      g.Refers name i → g.Alt i alt → FirstH g h alt.symbols b →
      FirstH g (h + 1) (.nonTerminal name :: rest) b
  | skip {h : Nat} {x : Symbol} {rest : List Symbol} {b : UInt8} :
      Nullable g [x] → FirstH g h rest b → FirstH g h (x :: rest) b

theorem firstH_of {g : Grammar} {syms : List Symbol} {b : UInt8} (h : First g syms b) :
    ∃ n, FirstH g n syms b := by
  induction h with
  | terminal => exact ⟨0, .terminal⟩
  | head hr ha _ ih => obtain ⟨n, hn⟩ := ih; exact ⟨n + 1, .head hr ha hn⟩
  | skip hn _ ih => obtain ⟨n, h⟩ := ih; exact ⟨n, .skip hn h⟩

theorem first_of_firstH {g : Grammar} {n : Nat} {syms : List Symbol} {b : UInt8} (h : FirstH g n syms b) :
    First g syms b := by
  induction h with
  | terminal => exact .terminal
  | head hr ha _ ih => exact .head hr ha ih
  | skip hn _ ih => exact .skip hn ih

/-- Some alternative of rule `i` begins with `b` by a derivation of height `n`. -/
def RuleFirstH (g : Grammar) (i : Int) (b : UInt8) (n : Nat) : Prop :=
  ∃ k : Nat, i = k ∧ ∃ alt, g.Alt k alt ∧ FirstH g n alt.symbols b

open Classical in
/-- Least height plus one; 0 when the rule cannot begin with the byte. -/
noncomputable def firstRank (g : Grammar) (i : Int) (b : UInt8) : Nat :=
  if h : ∃ n, RuleFirstH g i b n then Nat.find h + 1 else 0

theorem firstRank_le {g : Grammar} {i : Int} {b : UInt8} {n : Nat} (h : RuleFirstH g i b n) :
    firstRank g i b ≤ n + 1 := by
  classical
  unfold firstRank
  rw [dif_pos ⟨n, h⟩]
  exact Nat.succ_le_succ (Nat.find_min' _ h)

theorem firstRank_spec {g : Grammar} {i : Int} {b : UInt8} (h : ∃ n, RuleFirstH g i b n) :
    ∃ n, RuleFirstH g i b n ∧ firstRank g i b = n + 1 := by
  classical
  refine ⟨Nat.find h, Nat.find_spec h, ?_⟩
  unfold firstRank
  rw [dif_pos h]

theorem firstRank_zero {g : Grammar} {i : Nat} {b : UInt8} (h : ¬ RuleFirst g i b) :
    firstRank g i b = 0 := by
  unfold firstRank
  rw [dif_neg]
  rintro ⟨n, k, hk, alt, ha, hf⟩
  have : k = i := by omega
  subst this
  exact h ⟨alt, ha, first_of_firstH hf⟩

/-- The non-terminal begins with the byte, so it certainly consumes. -/
def SureFirst (g : Grammar) (i : Int) (b : UInt8) : Prop := ∃ k : Nat, i = k ∧ RuleFirst g k b

theorem rankBelow_of_firstH {g : Grammar} (hll : IsLL1 g) {i : Nat} {alt : Sequence} (ha : g.Alt i alt)
    {b : UInt8} (hb0 : b ≠ 0) {n : Nat} {syms : List Symbol} (hF : FirstH g n syms b) :
    ∀ (pre : List Symbol) (ops : List ParserOp), alt.symbols = pre ++ syms → AllPairs (OpOf g) syms ops →
      RankBelow (SureFirst g) (firstRank g) b (n + 1) ops ∧ ∃ op ∈ ops, SureOp (SureFirst g) b op := by
  induction hF with
  | @terminal h b t rest =>
    intro pre ops _ ho
    cases ho with
    | @cons _ op _ ops hx ho =>
      cases (hx : _ = _)
      have hs : SureOp (SureFirst g) b (.terminal (b :: t)) := ⟨by simp, fun h => (hb0 h).elim⟩
      exact ⟨⟨trivial, .inl hs⟩, _, List.mem_cons_self, hs⟩
  | @head h name i alt' rest b hr ha' hf _ =>
    intro pre ops _ ho
    cases ho with
    | @cons _ op _ ops hx ho =>
      obtain ⟨i', hr', h'⟩ := hx
      cases h'
      have : i' = i := hr'.det hr
      subst this
      have hs : SureOp (SureFirst g) b (.nonTerminal (i' : Int)) := ⟨i', rfl, alt', ha', first_of_firstH hf⟩
      refine ⟨⟨?_, .inl hs⟩, _, List.mem_cons_self, hs⟩
      have := firstRank_le (g := g) (i := i') (b := b) ⟨i', rfl, alt', ha', hf⟩
      simp only; omega
  | @skip h x rest b hn hf ih =>
    intro pre ops hs ho
    cases ho with
    | @cons _ op _ ops hx ho =>
      obtain ⟨h1, op', hop', h2⟩ := ih hb0 (pre ++ [x]) ops (by simpa using hs) ho
      refine ⟨⟨?_, .inr h1⟩, op', List.mem_cons_of_mem _ hop', h2⟩
      cases x with
      | terminal t => cases (hx : _ = _); trivial
      | nothing => exact (hx : False).elim
      | nonTerminal name =>
        obtain ⟨k, hr, h'⟩ := hx
        cases h'
        have hrn : RuleNullable g k := by
          cases hn with
          | nonTerminal hr' ha' hn' _ =>
            rw [hr'.det hr] at ha'
            exact ⟨_, ha', hn'⟩
        have hfol : Follow g k b := .first ha hs hr (first_of_firstH hf)
        have : ¬ RuleFirst g k b := fun h => hll.2.2 k b hrn h hfol
        simp only [firstRank_zero this]
        omega

/-- For an LL(1) grammar the FIRST ranks go down until input is consumed. -/
theorem ll1_rank {g : Grammar} {tbl : Table} (hz : g.NulStartFree) (h : TG.TableOk g tbl) (hll : IsLL1 g)
    (hcl : tbl.Closed g.rules.length) : ∀ n b body, bodyFor tbl n b = some body →
      RankBelow (SureFirst g) (firstRank g) b (firstRank g n b) body ∧
      (SureFirst g n b → ∃ op ∈ body, SureOp (SureFirst g) b op) := by
  have hneg : ∀ (n : Int) (b : UInt8) body, ¬ (∃ i : Nat, i < g.rules.length ∧ n = i) →
      bodyFor tbl n b = some body → ∀ op ∈ body, ∃ s, op = .terminal s := by
    intro n b body hn hb
    unfold bodyFor at hb
    split at hb
    · cases hg : tbl.get n with
      | none => simp [hg] at hb
      | some row => exact (hn ((hcl.rows n).1 ⟨row, hg⟩)).elim
    · split at hb
      · split at hb
        · cases hb; simp
        · split at hb
          · cases hb; simp
          · simp at hb
      · simp at hb
  intro n b body hb
  by_cases hn : ∃ i : Nat, i < g.rules.length ∧ n = i
  · obtain ⟨i, hi, rfl⟩ := hn
    rcases cell_alt h hll.1 hi hb with ⟨h1, _, rfl⟩ | ⟨alt, ha, hf, hp⟩
    · refine ⟨trivial, ?_⟩
      rintro ⟨k, hk, hf⟩
      have : k = i := by omega
      subst this
      exact (h1 hf).elim
    · obtain ⟨m, hm⟩ := firstH_of hf
      obtain ⟨n, ⟨k, hk, alt', ha', hf'⟩, hn⟩ := firstRank_spec (g := g) (i := i) (b := b)
        ⟨m, i, rfl, alt, ha, hm⟩
      have : k = i := by omega
      subst this
      have : alt' = alt := firstDisjoint_alt hll.1 ha' ha (first_of_firstH hf') hf
      subst this
      obtain ⟨h1, h2⟩ := rankBelow_of_firstH hll ha (TG.first_ne_zero ((TG.rfirst_alt hz ha b).2 hf)) hf' [] body rfl hp
      rw [hn]
      exact ⟨h1, fun _ => h2⟩
  · have ht := hneg n b body hn hb
    refine ⟨?_, ?_⟩
    · generalize firstRank g n b = R
      clear hb hn
      induction body with
      | nil => trivial
      | cons op body ih =>
        obtain ⟨s, rfl⟩ := ht op List.mem_cons_self
        exact ⟨trivial, .inr (ih fun o ho => ht o (List.mem_cons_of_mem _ ho))⟩
    · rintro ⟨k, hk, hf⟩
      obtain ⟨alt, ha, _⟩ := hf
      exact (hn ⟨k, ha.lt, hk⟩).elim

/-- With an LL(1) grammar every derivation attempt ends. -/
theorem ll1_terminates {g : Grammar} {tbl : Table} (hz : g.NulStartFree) (h : TG.TableOk g tbl) (hll : IsLL1 g)
    (hcl : tbl.Closed g.rules.length) (names : Option Names) (src : Str) :
    (∃ j cs, Derives tbl src [.nonTerminal 0] 0 j cs) ∨
    (∃ k e, FailsAt tbl names src [.nonTerminal 0] 0 k e) := by
  have key := ll1_rank hz h hll hcl
  refine terminates_of_rank (Sure := SureFirst g) (rank := firstRank g) hcl.public
    (fun n b body hs hb => (key n b body hb).2 hs) (fun n b body hb => (key n b body hb).1)
    src.length (firstRank g 0 (byteAt src 0) + 1) [.nonTerminal 0] 0 ?_ (by omega) ?_
  · simp [ParserOp.Public]
  · exact ⟨by simp, .inr trivial⟩

end LL1
