import Verif.Proofs.TableFollow

/-! # `makeTableRow` and `makeTable` -/

namespace LL1
namespace TG

/-! ## Operations of a sequence -/

theorem opOf_det {g : Grammar} {x : Symbol} {a b : ParserOp} (h : OpOf g x a) (h' : OpOf g x b) :
    a = b := by
  cases x with
  | terminal t => rw [show a = .terminal t from h, show b = .terminal t from h']
  | nothing => exact absurd h (by simp [OpOf])
  | nonTerminal name =>
    obtain ⟨i, hi, rfl⟩ := h
    obtain ⟨j, hj, rfl⟩ := h'
    rw [hi.det hj]

theorem opsOf_det {g : Grammar} {syms : List Symbol} {as bs : List ParserOp}
    (h : AllPairs (OpOf g) syms as) (h' : AllPairs (OpOf g) syms bs) : as = bs := by
  induction h generalizing bs with
  | nil => cases h'; rfl
  | cons h1 _ ih =>
    cases h' with
    | cons h3 h4 => rw [opOf_det h1 h3, ih h4]

theorem addSymbols_ok {g : Grammar} {term : UInt8} : ∀ (syms : List Symbol) (res res' : Row),
    addSymbols (newGen g) term syms res = .ok res' →
    ∃ ops, AllPairs (OpOf g) syms ops ∧ (∀ b, b ≠ term → GoMap.get res' b = GoMap.get res b) ∧
      GoMap.get res' term = if syms = [] then GoMap.get res term
        else some ((GoMap.get res term).getD [] ++ ops) := by
  intro syms
  induction syms with
  | nil =>
    intro res res' h
    simp only [addSymbols, Res.ok.injEq] at h
    subst h
    exact ⟨[], .nil, fun _ _ => rfl, by simp⟩
  | cons x rest ih =>
    intro res res' h
    have step : ∀ op, OpOf g x op → addSymbols (newGen g) term rest (appendOp res term op) = .ok res' →
        ∃ ops, AllPairs (OpOf g) (x :: rest) ops ∧
          (∀ b, b ≠ term → GoMap.get res' b = GoMap.get res b) ∧
          GoMap.get res' term = if x :: rest = [] then GoMap.get res term
            else some ((GoMap.get res term).getD [] ++ ops) := by
      intro op hop h
      obtain ⟨ops, h1, h2, h3⟩ := ih _ _ h
      refine ⟨op :: ops, .cons hop h1, ?_, ?_⟩
      · intro b hb
        rw [h2 b hb, appendOp, GoMap.get_set, if_neg hb]
      · rw [h3, appendOp, GoMap.get_set]
        by_cases hr : rest = []
        · subst hr; cases h1; simp
        · simp [hr]
    cases x with
    | terminal t => exact step _ rfl h
    | nothing => simp [addSymbols] at h
    | nonTerminal name =>
      simp only [addSymbols] at h
      cases hg : (newGen g).ruleMap.get name with
      | none => simp [hg] at h
      | some i =>
        simp only [hg] at h
        exact step _ ⟨i, (get_ruleMap g name i).1 hg, rfl⟩ h

theorem addFirstCells_ok {g : Grammar} {alt : Sequence} (hne : alt.symbols ≠ []) :
    ∀ (bs : List UInt8) (res res' : Row), bs.Nodup →
    addFirstCells (newGen g) alt bs res = .ok res' →
    (∀ b, b ∉ bs → GoMap.get res' b = GoMap.get res b) ∧
    (∀ b, b ∈ bs → ∃ ops, AllPairs (OpOf g) alt.symbols ops ∧
      GoMap.get res' b = some ((GoMap.get res b).getD [] ++ ops)) := by
  intro bs
  induction bs with
  | nil =>
    intro res res' _ h
    simp only [addFirstCells, Res.ok.injEq] at h
    subst h; simp
  | cons t bs ih =>
    intro res res' hnd h
    simp only [addFirstCells] at h
    rw [Res.bind_eq_ok] at h
    obtain ⟨m, hm, h⟩ := h
    rw [List.nodup_cons] at hnd
    obtain ⟨ops, h1, h2, h3⟩ := addSymbols_ok _ _ _ hm
    obtain ⟨h4, h5⟩ := ih m res' hnd.2 h
    rw [if_neg hne] at h3
    refine ⟨?_, ?_⟩
    · intro b hb
      simp only [List.mem_cons, not_or] at hb
      rw [h4 b hb.2, h2 b hb.1]
    · intro b hb
      by_cases hbt : b = t
      · subst hbt
        exact ⟨ops, h1, by rw [h4 b hnd.1, h3]⟩
      · rcases List.mem_cons.1 hb with h | hb
        · exact absurd h hbt
        · obtain ⟨ops', h6, h7⟩ := h5 b hb
          exact ⟨ops', h6, by rw [h7, h2 b hbt]⟩

theorem addSymbols_total {g : Grammar} {term : UInt8} : ∀ (syms : List Symbol) (res : Row),
    (∀ name, Symbol.nonTerminal name ∈ syms → ∃ i, g.Refers name i) → Symbol.nothing ∉ syms →
    ∃ res', addSymbols (newGen g) term syms res = .ok res' := by
  intro syms
  induction syms with
  | nil => intro res _ _; exact ⟨res, rfl⟩
  | cons x rest ih =>
    intro res hd hn
    have hd' : ∀ name, Symbol.nonTerminal name ∈ rest → ∃ i, g.Refers name i :=
      fun name h => hd name (List.mem_cons_of_mem _ h)
    have hn' : Symbol.nothing ∉ rest := fun h => hn (List.mem_cons_of_mem _ h)
    cases x with
    | terminal t => exact ih _ hd' hn'
    | nothing => exact absurd (by simp) hn
    | nonTerminal name =>
      obtain ⟨i, hi⟩ := hd name (by simp)
      simp only [addSymbols, (get_ruleMap g name i).2 hi]
      exact ih _ hd' hn'

theorem addFirstCells_total {g : Grammar} {alt : Sequence} : ∀ (bs : List UInt8) (res : Row),
    (bs ≠ [] → (∀ name, Symbol.nonTerminal name ∈ alt.symbols → ∃ i, g.Refers name i) ∧
      Symbol.nothing ∉ alt.symbols) →
    ∃ res', addFirstCells (newGen g) alt bs res = .ok res' := by
  intro bs
  induction bs with
  | nil => intro res _; exact ⟨res, rfl⟩
  | cons t bs ih =>
    intro res h
    obtain ⟨h1, h2⟩ := h (by simp)
    obtain ⟨m, hm⟩ := addSymbols_total (term := t) alt.symbols res h1 h2
    simp only [addFirstCells, hm, Res.ok_bind]
    exact ih m (fun _ => ⟨h1, h2⟩)

theorem addSymbols_ne {tg : Gen} {term : UInt8} : ∀ (syms : List Symbol) (res : Row),
    addSymbols tg term syms res ≠ .diverge ∧ addSymbols tg term syms res ≠ .err .conflict ∧
    (Symbol.nothing ∉ syms → ∀ p, addSymbols tg term syms res ≠ .panic p) := by
  intro syms
  induction syms with
  | nil => intro res; simp [addSymbols]
  | cons x rest ih =>
    intro res
    cases x with
    | terminal t => 
      simp only [addSymbols]
      refine ⟨(ih _).1, (ih _).2.1, fun h => (ih _).2.2 (fun h' => h (List.mem_cons_of_mem _ h'))⟩
    | nothing => simp [addSymbols]
    | nonTerminal name =>
      simp only [addSymbols]
      split
      · simp
      · refine ⟨(ih _).1, (ih _).2.1, fun h => (ih _).2.2 (fun h' => h (List.mem_cons_of_mem _ h'))⟩

theorem addFirstCells_ne {tg : Gen} {alt : Sequence} : ∀ (bs : List UInt8) (res : Row),
    addFirstCells tg alt bs res ≠ .diverge ∧ addFirstCells tg alt bs res ≠ .err .conflict ∧
    ((bs ≠ [] → Symbol.nothing ∉ alt.symbols) → ∀ p, addFirstCells tg alt bs res ≠ .panic p) := by
  intro bs
  induction bs with
  | nil => intro res; simp [addFirstCells]
  | cons t bs ih =>
    intro res
    simp only [addFirstCells]
    obtain ⟨h1, h2, h3⟩ := addSymbols_ne (tg := tg) (term := t) alt.symbols res
    refine ⟨?_, ?_, ?_⟩
    · rw [ne_eq, Res.bind_eq_diverge]
      rintro (h | ⟨m, _, h⟩)
      · exact h1 h
      · exact (ih m).1 h
    · rw [ne_eq, Res.bind_eq_err]
      rintro (h | ⟨m, _, h⟩)
      · exact h2 h
      · exact (ih m).2.1 h
    · intro hn p
      rw [ne_eq, Res.bind_eq_panic]
      rintro (h | ⟨m, _, h⟩)
      · exact h3 (hn (by simp)) p h
      · exact (ih m).2.2 (fun _ => hn (by simp)) p h

/-! ## Empty cells -/

theorem addEmptyCells_ok : ∀ (bs : List UInt8) (res res' : Row),
    addEmptyCells bs res = .ok res' →
    (∀ b, b ∈ bs → GoMap.get res b = none) ∧
    (∀ b, GoMap.get res' b = if b ∈ bs then some [] else GoMap.get res b) := by
  intro bs
  induction bs with
  | nil => intro res res' h; simp only [addEmptyCells, Res.ok.injEq] at h; subst h; simp
  | cons t bs ih =>
    intro res res' h
    simp only [addEmptyCells] at h
    cases hg : GoMap.get res t with
    | some v => simp [hg] at h
    | none =>
      simp only [hg] at h
      obtain ⟨h1, h2⟩ := ih _ _ h
      refine ⟨?_, ?_⟩
      · intro b hb
        rcases List.mem_cons.1 hb with rfl | hb
        · exact hg
        · have := h1 b hb
          rw [GoMap.get_set] at this
          split at this
          · simp at this
          · exact this
      · intro b
        rw [h2, GoMap.get_set]
        by_cases hb : b ∈ bs
        · simp [hb]
        · by_cases hbt : b = t
          · simp [hbt]
          · simp [hb, hbt]

theorem addEmptyCells_cases : ∀ (bs : List UInt8) (res : Row), bs.Nodup →
    ((∀ b, b ∈ bs → GoMap.get res b = none) ∧ ∃ res', addEmptyCells bs res = .ok res') ∨
    ((∃ b, b ∈ bs ∧ GoMap.get res b ≠ none) ∧ addEmptyCells bs res = .err .conflict) := by
  intro bs
  induction bs with
  | nil => intro res _; left; simp [addEmptyCells]
  | cons t bs ih =>
    intro res hnd
    rw [List.nodup_cons] at hnd
    simp only [addEmptyCells]
    cases hg : GoMap.get res t with
    | some v => right; exact ⟨⟨t, by simp, by simp [hg]⟩, rfl⟩
    | none =>
      have hset : ∀ b, b ∈ bs → GoMap.get (GoMap.set res t ([] : List ParserOp)) b = GoMap.get res b := by
        intro b hb
        rw [GoMap.get_set, if_neg]
        rintro rfl; exact hnd.1 hb
      rcases ih (GoMap.set res t []) hnd.2 with ⟨h1, h2⟩ | ⟨⟨b, hb, h1⟩, h2⟩
      · left
        refine ⟨?_, h2⟩
        intro b hb
        rcases List.mem_cons.1 hb with rfl | hb
        · exact hg
        · rw [← hset b hb]; exact h1 b hb
      · right
        refine ⟨⟨b, List.mem_cons_of_mem _ hb, ?_⟩, h2⟩
        rw [← hset b hb]; exact h1

/-! ## Rows -/

/-- `b` selects something in a row for rule `i` built from the alternatives `done`. -/
def RSelects (g : Grammar) (i : Nat) (done : List Sequence) (b : UInt8) : Prop :=
  (∃ alt ∈ done, RFirst g alt.symbols b) ∨ ((∃ alt ∈ done, RNullable g alt.symbols) ∧ RNextFollow g i b)

/-- The row holds what the alternatives `done` predict. -/
def RRowSpec (g : Grammar) (i : Nat) (done : List Sequence) (row : Row) : Prop :=
  ∀ b, (GoMap.get row b = none → ¬ RSelects g i done b) ∧
    (∀ ops, GoMap.get row b = some ops → RSelects g i done b ∧ RPredicted g b done ops)

theorem rpredicted_append {g : Grammar} {b : UInt8} {xs ys : List Sequence} {o p : List ParserOp}
    (h : RPredicted g b xs o) (h' : RPredicted g b ys p) : RPredicted g b (xs ++ ys) (o ++ p) := by
  induction h with
  | nil => exact h'
  | take h1 h2 _ ih => rw [List.append_assoc]; exact .take h1 h2 ih
  | skip h1 _ ih => exact .skip h1 ih

theorem rpredicted_none {g : Grammar} {b : UInt8} {xs : List Sequence}
    (h : ∀ alt ∈ xs, ¬ RFirst g alt.symbols b) : RPredicted g b xs [] := by
  induction xs with
  | nil => exact .nil
  | cons x xs ih =>
    exact .skip (h x (by simp)) (ih (fun a ha => h a (List.mem_cons_of_mem _ ha)))

theorem rpredicted_det {g : Grammar} {b : UInt8} {xs : List Sequence} {o p : List ParserOp}
    (h : RPredicted g b xs o) (h' : RPredicted g b xs p) : o = p := by
  induction h generalizing p with
  | nil => cases h'; rfl
  | take h1 h2 _ ih =>
    cases h' with
    | take h3 h4 h5 => rw [opsOf_det h2 h4, ih h5]
    | skip h3 _ => exact absurd h1 h3
  | skip h1 _ ih =>
    cases h' with
    | take h3 => exact absurd h3 h1
    | skip _ h5 => exact ih h5

theorem bytesOf_ok (s : ByteSet) : bytesOf s = .ok (ByteSet.allBytes.filter s.contains) := by
  unfold bytesOf; rw [ByteSet.bytes_eq]

theorem mem_bytesOf (s : ByteSet) (b : UInt8) :
    b ∈ ByteSet.allBytes.filter s.contains ↔ s.contains b = true := by
  simp [ByteSet.mem_allBytes]

theorem nodup_bytesOf (s : ByteSet) : (ByteSet.allBytes.filter s.contains).Nodup := by
  have : ByteSet.allBytes.Nodup :=
    ByteSet.allBytes_sorted.imp (fun h he => by subst he; exact absurd h (UInt8.lt_irrefl _))
  exact this.filter _

open Classical in
/-- Adding the first-byte cells of one alternative to a row in which the empty cells have been set. -/
theorem rowSpec_firsts {g : Grammar} {i : Nat} {done : List Sequence} {alt : Sequence}
    {row row1 row2 : Row} {bs : List UInt8}
    (hspec : RRowSpec g i done row)
    (hbs : ∀ b, b ∈ bs ↔ RFirst g alt.symbols b)
    (h1 : ∀ b, GoMap.get row1 b =
      if RNullable g alt.symbols ∧ RNextFollow g i b ∧ GoMap.get row b = none then some []
      else GoMap.get row b)
    (h2 : ∀ b, b ∉ bs → GoMap.get row2 b = GoMap.get row1 b)
    (h3 : ∀ b, b ∈ bs → ∃ ops, AllPairs (OpOf g) alt.symbols ops ∧
      GoMap.get row2 b = some ((GoMap.get row1 b).getD [] ++ ops)) :
    RRowSpec g i (done ++ [alt]) row2 := by
  have hsel : ∀ b, RSelects g i (done ++ [alt]) b ↔
      RSelects g i done b ∨ RFirst g alt.symbols b ∨ (RNullable g alt.symbols ∧ RNextFollow g i b) := by
    intro b
    simp only [RSelects, List.mem_append, List.mem_singleton]
    constructor
    · rintro (⟨a, ha | rfl, hf⟩ | ⟨⟨a, ha | rfl, hn⟩, hf⟩)
      · exact .inl (.inl ⟨a, ha, hf⟩)
      · exact .inr (.inl hf)
      · exact .inl (.inr ⟨⟨a, ha, hn⟩, hf⟩)
      · exact .inr (.inr ⟨hn, hf⟩)
    · rintro ((⟨a, ha, hf⟩ | ⟨⟨a, ha, hn⟩, hf⟩) | hf | ⟨hn, hf⟩)
      · exact .inl ⟨a, .inl ha, hf⟩
      · exact .inr ⟨⟨a, .inl ha, hn⟩, hf⟩
      · exact .inl ⟨alt, .inr rfl, hf⟩
      · exact .inr ⟨⟨alt, .inr rfl, hn⟩, hf⟩
  intro b
  obtain ⟨s1, s2⟩ := hspec b
  -- the row after the empty cells: present iff selected so far
  have row1_some : ∀ ops, GoMap.get row1 b = some ops →
      (RSelects g i done b ∨ (RNullable g alt.symbols ∧ RNextFollow g i b)) ∧ RPredicted g b done ops := by
    intro ops h
    rw [h1] at h
    split at h
    · rename_i hc
      cases h
      refine ⟨.inr ⟨hc.1, hc.2.1⟩, rpredicted_none ?_⟩
      intro a ha hf
      exact s1 hc.2.2 (.inl ⟨a, ha, hf⟩)
    · obtain ⟨h4, h5⟩ := s2 ops h
      exact ⟨.inl h4, h5⟩
  have row1_none : GoMap.get row1 b = none →
      ¬ RSelects g i done b ∧ ¬ (RNullable g alt.symbols ∧ RNextFollow g i b) := by
    intro h
    rw [h1] at h
    split at h
    · simp at h
    · rename_i hc
      refine ⟨s1 h, fun h4 => hc ⟨h4.1, h4.2, h⟩⟩
  by_cases hb : b ∈ bs
  · have hf := (hbs b).1 hb
    obtain ⟨ops, hops, hg⟩ := h3 b hb
    refine ⟨fun h => by simp [hg] at h, ?_⟩
    intro ops' h
    rw [hg] at h
    cases h
    refine ⟨(hsel b).2 (.inr (.inl hf)), ?_⟩
    have hsingle : RPredicted g b [alt] ops := by
      have := RPredicted.take (alts := []) hf hops .nil
      simpa using this
    refine rpredicted_append ?_ hsingle
    cases hr : GoMap.get row1 b with
    | none =>
      refine rpredicted_none ?_
      intro a ha hfa
      exact (row1_none hr).1 (.inl ⟨a, ha, hfa⟩)
    | some o => exact (row1_some o hr).2
  · have hf : ¬ RFirst g alt.symbols b := fun h => hb ((hbs b).2 h)
    rw [h2 b hb]
    refine ⟨?_, ?_⟩
    · intro h hs
      rcases (hsel b).1 hs with h4 | h4 | h4
      · exact (row1_none h).1 h4
      · exact hf h4
      · exact (row1_none h).2 h4
    · intro ops h
      obtain ⟨h4, h5⟩ := row1_some ops h
      refine ⟨(hsel b).2 ?_, ?_⟩
      · rcases h4 with h4 | h4
        · exact .inl h4
        · exact .inr (.inr h4)
      · have := rpredicted_append h5 (RPredicted.skip (alts := []) hf .nil)
        simpa using this

/-- Facts about the computed set of an alternative. -/
theorem altFirsts {g : Grammar} {firsts : List ByteSet} (hx : FExact g firsts)
    {i : Nat} {alt : Sequence} (ha : g.Alt i alt) {S : ByteSet}
    (hS : sequenceFirsts (newGen g) firsts alt = .ok S) :
    (∀ b, b ≠ 0 → (S.contains b = true ↔ RFirst g alt.symbols b)) ∧
    (S.contains 0 = true ↔ RNullable g alt.symbols) := by
  obtain ⟨h1, h2, h3⟩ := sequenceFirsts_ok hS
  exact ⟨fun b hb => (h1 b hb).trans (hx.firstC_iff hb h3), h2.trans (hx.nullC_iff h3)⟩

/-- Once the alternative's own set is known, `addSequence` is: empty cells, then first cells. -/
theorem addSequence_eq {tg : Gen} {firsts follows : List ByteSet} {i : Nat} {alt : Sequence}
    {row : Row} {S F : ByteSet} (hS : sequenceFirsts tg firsts alt = .ok S)
    (hF : follows[i]? = some F) :
    addSequence tg firsts follows i alt row =
      ((if S.contains 0 then addEmptyCells (ByteSet.allBytes.filter F.contains) row else .ok row) >>=
        fun row1 => addFirstCells tg alt (ByteSet.allBytes.filter (S.remove 0).contains) row1) := by
  have h0 : ∀ s : ByteSet, s.contains EOS = s.contains 0 := fun _ => rfl
  unfold addSequence
  rw [hS]
  simp only [Res.ok_bind, h0]
  by_cases h : S.contains 0 = true
  · simp only [h, if_true]
    rw [idx_ok.2 hF]
    simp only [Res.ok_bind, bytesOf_ok]
    rfl
  · simp only [h, if_false, Bool.false_eq_true, Res.ok_bind, bytesOf_ok]
    congr 1
    apply List.filter_congr
    intro b _
    rw [ByteSet.contains_remove]
    by_cases hb : b = 0
    · subst hb; simp at h ⊢; exact h
    · simp [hb]

theorem addSequence_ok {g : Grammar} {firsts follows : List ByteSet}
    (hx : FExact g firsts) (hl : LExact g follows) {i : Nat} {done : List Sequence} {alt : Sequence}
    (ha : g.Alt i alt) {row row' : Row} (hspec : RRowSpec g i done row)
    (h : addSequence (newGen g) firsts follows i alt row = .ok row') :
    RRowSpec g i (done ++ [alt]) row' ∧
    (∀ b, RFirst g alt.symbols b → ∃ ops, AllPairs (OpOf g) alt.symbols ops) ∧
    (RNullable g alt.symbols → ∀ b, RNextFollow g i b → ¬ RSelects g i done b) := by
  classical
  have hi := ha.lt
  obtain ⟨F, _, hF⟩ := idx_lt (xs := follows) (i := i) (by rw [hl.len]; exact hi)
  have hFb : ∀ b, F.contains b = true ↔ RNextFollow g i b := by
    intro b
    rw [← hl.follow i b hi]
    simp [Has, hF]
  cases hS : sequenceFirsts (newGen g) firsts alt with
  | err e => simp [addSequence, hS] at h
  | panic p => simp [addSequence, hS] at h
  | diverge => simp [addSequence, hS] at h
  | ok S =>
    rw [addSequence_eq hS hF] at h
    rw [Res.bind_eq_ok] at h
    obtain ⟨row1, hr1, h⟩ := h
    obtain ⟨hS1, hS0⟩ := altFirsts hx ha hS
    obtain ⟨h2, h3⟩ := addFirstCells_ok (hl.nonempty i alt ha) _ _ _ (nodup_bytesOf _) h
    have hbs : ∀ b, b ∈ ByteSet.allBytes.filter (S.remove 0).contains ↔ RFirst g alt.symbols b := by
      intro b
      rw [mem_bytesOf, ByteSet.contains_remove]
      constructor
      · intro hb
        have hb0 : b ≠ 0 := by rintro rfl; simp at hb
        exact (hS1 b hb0).1 (by simpa [hb0] using hb)
      · intro hf
        have hb0 := first_ne_zero hf
        simp [hb0, (hS1 b hb0).2 hf]
    have hr1' : (∀ b, GoMap.get row1 b =
        if RNullable g alt.symbols ∧ RNextFollow g i b ∧ GoMap.get row b = none then some []
        else GoMap.get row b) ∧
        (RNullable g alt.symbols → ∀ b, RNextFollow g i b → GoMap.get row b = none) := by
      by_cases hn : RNullable g alt.symbols
      · rw [if_pos (hS0.2 hn)] at hr1
        obtain ⟨h4, h5⟩ := addEmptyCells_ok _ _ _ hr1
        have h4' : ∀ b, RNextFollow g i b → GoMap.get row b = none :=
          fun b hb => h4 b ((mem_bytesOf _ _).2 ((hFb b).2 hb))
        refine ⟨?_, fun _ => h4'⟩
        intro b
        rw [h5]
        by_cases hb : RNextFollow g i b
        · rw [if_pos ((mem_bytesOf _ _).2 ((hFb b).2 hb)), if_pos ⟨hn, hb, h4' b hb⟩]
        · rw [if_neg (fun h => hb ((hFb b).1 ((mem_bytesOf _ _).1 h))), if_neg (fun h => hb h.2.1)]
      · rw [if_neg (fun h => hn (hS0.1 h))] at hr1
        simp only [Res.ok.injEq] at hr1
        subst hr1
        exact ⟨fun b => by rw [if_neg (fun h => hn h.1)], fun h => absurd h hn⟩
    refine ⟨rowSpec_firsts hspec hbs hr1'.1 h2 h3, ?_, ?_⟩
    · intro b hf
      obtain ⟨ops, hops, _⟩ := h3 b ((hbs b).2 hf)
      exact ⟨ops, hops⟩
    · intro hn b hb
      exact (hspec b).1 (hr1'.2 hn b hb)

/-- The clash the code reports. -/
theorem addSequence_conflict {g : Grammar} {firsts follows : List ByteSet}
    (hx : FExact g firsts) (hl : LExact g follows) {i : Nat} {done : List Sequence} {alt : Sequence}
    (ha : g.Alt i alt) {row : Row} (hspec : RRowSpec g i done row)
    (h : addSequence (newGen g) firsts follows i alt row = .err .conflict) :
    RNullable g alt.symbols ∧ ∃ b, RNextFollow g i b ∧ RSelects g i done b := by
  have hi := ha.lt
  obtain ⟨F, _, hF⟩ := idx_lt (xs := follows) (i := i) (by rw [hl.len]; exact hi)
  have hFb : ∀ b, F.contains b = true ↔ RNextFollow g i b := by
    intro b
    rw [← hl.follow i b hi]
    simp [Has, hF]
  have hSne : ∀ syms res fl n, sequenceFirstsLoop (newGen g) firsts n syms res fl ≠ .err .conflict := by
    intro syms
    induction syms with
    | nil => intros; simp [sequenceFirstsLoop]
    | cons x rest ih =>
      intro res fl n
      cases x with
      | terminal t => cases t <;> simp [sequenceFirstsLoop, terminalFirsts]
      | nothing => simp only [sequenceFirstsLoop]; split <;> simp
      | nonTerminal name =>
        simp only [sequenceFirstsLoop]
        split
        · simp
        · rw [ne_eq, Res.bind_eq_err]
          rintro (h | ⟨a, _, h⟩)
          · unfold idx at h; split at h <;> simp at h
          · split at h
            · simp at h
            · exact ih _ _ _ h
  cases hS : sequenceFirsts (newGen g) firsts alt with
  | err e =>
    simp only [addSequence, hS, Res.err_bind, Res.err.injEq] at h
    subst h; exact absurd hS (hSne _ _ _ _)
  | panic p => simp [addSequence, hS] at h
  | diverge => simp [addSequence, hS] at h
  | ok S =>
    rw [addSequence_eq hS hF] at h
    obtain ⟨hS1, hS0⟩ := altFirsts hx ha hS
    rw [Res.bind_eq_err] at h
    rcases h with h | ⟨row1, _, h⟩
    · split at h
      · rename_i h0
        rcases addEmptyCells_cases _ row (nodup_bytesOf F) with ⟨_, r, hr⟩ | ⟨⟨b, hb, hbr⟩, _⟩
        · rw [hr] at h; simp at h
        · refine ⟨hS0.1 h0, b, (hFb b).1 ((mem_bytesOf _ _).1 hb), ?_⟩
          cases hg : GoMap.get row b with
          | none => exact absurd hg hbr
          | some ops => exact ((hspec b).2 ops hg).1
      · simp at h
    · exact absurd h (addFirstCells_ne _ _).2.1

/-- `addSequence` succeeds unless there is a clash or a symbol it cannot handle. -/
theorem addSequence_total {g : Grammar} {firsts follows : List ByteSet}
    (hx : FExact g firsts) (hl : LExact g follows) {i : Nat} {alt : Sequence}
    (ha : g.Alt i alt) {row : Row}
    (hd : ∀ b, RFirst g alt.symbols b → (∀ name, Symbol.nonTerminal name ∈ alt.symbols → ∃ i, g.Refers name i) ∧
      Symbol.nothing ∉ alt.symbols) :
    (∃ row', addSequence (newGen g) firsts follows i alt row = .ok row') ∨
    addSequence (newGen g) firsts follows i alt row = .err .conflict := by
  have hi := ha.lt
  obtain ⟨F, _, hF⟩ := idx_lt (xs := follows) (i := i) (by rw [hl.len]; exact hi)
  obtain ⟨S, hS⟩ := seqLoop_total (n := alt.symbols.length) hx.len alt.symbols (ByteSet.new []) true
    (hx.fine i alt ha)
  have hS : sequenceFirsts (newGen g) firsts alt = .ok S := hS
  obtain ⟨hS1, hS0⟩ := altFirsts hx ha hS
  rw [addSequence_eq hS hF]
  have hfc : ∀ r, ∃ r', addFirstCells (newGen g) alt (ByteSet.allBytes.filter (S.remove 0).contains) r
      = .ok r' := by
    intro r
    refine addFirstCells_total _ _ ?_
    intro hne
    obtain ⟨b, hb⟩ := List.exists_mem_of_ne_nil _ hne
    rw [mem_bytesOf, ByteSet.contains_remove] at hb
    have hb0 : b ≠ 0 := by rintro rfl; simp at hb
    exact hd b ((hS1 b hb0).1 (by simpa [hb0] using hb))
  split
  · rcases addEmptyCells_cases _ row (nodup_bytesOf F) with ⟨_, r, hr⟩ | ⟨_, hr⟩
    · rw [hr]; simp only [Res.ok_bind]; exact .inl (hfc r)
    · right; rw [hr]; rfl
  · simp only [Res.ok_bind]; exact .inl (hfc row)

/-! ## The alternatives of a rule -/

theorem addSequences_ok {g : Grammar} {firsts follows : List ByteSet}
    (hx : FExact g firsts) (hl : LExact g follows) {i : Nat} :
    ∀ (ss done : List Sequence) (row row' : Row), (∀ alt ∈ ss, g.Alt i alt) → RRowSpec g i done row →
    addSequences (newGen g) firsts follows i ss row = .ok row' →
    RRowSpec g i (done ++ ss) row' ∧
    (∀ alt ∈ ss, ∀ b, RFirst g alt.symbols b → ∃ ops, AllPairs (OpOf g) alt.symbols ops) ∧
    (∀ pre alt post, ss = pre ++ alt :: post → RNullable g alt.symbols →
      ∀ b, RNextFollow g i b → ¬ RSelects g i (done ++ pre) b) := by
  intro ss
  induction ss with
  | nil =>
    intro done row row' _ hs h
    simp only [addSequences, Res.ok.injEq] at h
    subst h
    refine ⟨by simpa using hs, by simp, ?_⟩
    intro pre alt post hp; simp at hp
  | cons s ss ih =>
    intro done row row' ha hs h
    simp only [addSequences] at h
    rw [Res.bind_eq_ok] at h
    obtain ⟨m, hm, h⟩ := h
    obtain ⟨h1, h2, h3⟩ := addSequence_ok hx hl (ha s (by simp)) hs hm
    obtain ⟨h4, h5, h6⟩ := ih (done ++ [s]) m row' (fun a ha' => ha a (List.mem_cons_of_mem _ ha')) h1 h
    refine ⟨by simpa using h4, ?_, ?_⟩
    · intro alt halt
      rcases List.mem_cons.1 halt with rfl | halt
      · exact h2
      · exact h5 alt halt
    · intro pre alt post hp hn b hb
      cases pre with
      | nil =>
        simp only [List.nil_append, List.cons.injEq] at hp
        obtain ⟨rfl, rfl⟩ := hp
        simpa using h3 hn b hb
      | cons p pre =>
        simp only [List.cons_append, List.cons.injEq] at hp
        obtain ⟨rfl, hp⟩ := hp
        have := h6 pre alt post hp hn b hb
        simpa using this

theorem rselects_iff {g : Grammar} {i : Nat} {pre : List Sequence} {b : UInt8} (hb : RNextFollow g i b) :
    RSelects g i pre b ↔ ∃ earlier ∈ pre, RFirst g earlier.symbols b ∨ RNullable g earlier.symbols := by
  constructor
  · rintro (⟨a, ha, hf⟩ | ⟨⟨a, ha, hf⟩, _⟩)
    · exact ⟨a, ha, .inl hf⟩
    · exact ⟨a, ha, .inr hf⟩
  · rintro ⟨a, ha, hf | hf⟩
    · exact .inl ⟨a, ha, hf⟩
    · exact .inr ⟨⟨a, ha, hf⟩, hb⟩

theorem addSequences_conflict {g : Grammar} {firsts follows : List ByteSet}
    (hx : FExact g firsts) (hl : LExact g follows) {i : Nat} :
    ∀ (ss done : List Sequence) (row : Row), (∀ alt ∈ ss, g.Alt i alt) → RRowSpec g i done row →
    addSequences (newGen g) firsts follows i ss row = .err .conflict →
    ∃ pre alt post b, ss = pre ++ alt :: post ∧ RNullable g alt.symbols ∧ RNextFollow g i b ∧
      RSelects g i (done ++ pre) b := by
  intro ss
  induction ss with
  | nil => intro done row _ _ h; simp [addSequences] at h
  | cons s ss ih =>
    intro done row ha hs h
    simp only [addSequences] at h
    rw [Res.bind_eq_err] at h
    rcases h with h | ⟨m, hm, h⟩
    · obtain ⟨hn, b, hb, hsel⟩ := addSequence_conflict hx hl (ha s (by simp)) hs h
      exact ⟨[], s, ss, b, rfl, hn, hb, by simpa using hsel⟩
    · obtain ⟨h1, _, _⟩ := addSequence_ok hx hl (ha s (by simp)) hs hm
      obtain ⟨pre, alt, post, b, hp, hn, hb, hsel⟩ :=
        ih (done ++ [s]) m (fun a ha' => ha a (List.mem_cons_of_mem _ ha')) h1 h
      exact ⟨s :: pre, alt, post, b, by simp [hp], hn, hb, by simpa using hsel⟩

theorem addSequences_total {g : Grammar} {firsts follows : List ByteSet}
    (hx : FExact g firsts) (hl : LExact g follows) {i : Nat} :
    ∀ (ss done : List Sequence) (row : Row), (∀ alt ∈ ss, g.Alt i alt) → RRowSpec g i done row →
    (∀ alt ∈ ss, ∀ b, RFirst g alt.symbols b →
      (∀ name, Symbol.nonTerminal name ∈ alt.symbols → ∃ i, g.Refers name i) ∧ Symbol.nothing ∉ alt.symbols) →
    (∃ row', addSequences (newGen g) firsts follows i ss row = .ok row') ∨
    addSequences (newGen g) firsts follows i ss row = .err .conflict := by
  intro ss
  induction ss with
  | nil => intro done row _ _ _; exact .inl ⟨row, rfl⟩
  | cons s ss ih =>
    intro done row ha hs hw
    rcases addSequence_total (row := row) hx hl (ha s (by simp)) (hw s (by simp)) with ⟨m, hm⟩ | hm
    · obtain ⟨h1, _, _⟩ := addSequence_ok hx hl (ha s (by simp)) hs hm
      simp only [addSequences, hm, Res.ok_bind]
      exact ih (done ++ [s]) m (fun a ha' => ha a (List.mem_cons_of_mem _ ha')) h1
        (fun a ha' => hw a (List.mem_cons_of_mem _ ha'))
    · right; simp [addSequences, hm]

theorem rowSpec_nil (g : Grammar) (i : Nat) : RRowSpec g i [] [] := by
  intro b
  refine ⟨fun _ h => ?_, fun ops h => by simp at h⟩
  rcases h with ⟨a, ha, _⟩ | ⟨⟨a, ha, _⟩, _⟩ <;> simp at ha

/-- What a row of a generated table looks like. -/
structure RRowOk (g : Grammar) (i : Nat) (row : Row) : Prop where
  spec : ∀ r, g.rules[i]? = some r → RRowSpec g i r.tail.sequences row
  defined : ∀ alt, g.Alt i alt → ∀ b, RFirst g alt.symbols b → ∃ ops, AllPairs (OpOf g) alt.symbols ops
  noClash : ¬ RClash g i

theorem makeTableRow_ok {g : Grammar} {firsts follows : List ByteSet}
    (hx : FExact g firsts) (hl : LExact g follows) {i : Nat} {row : Row}
    (h : makeTableRow (newGen g) firsts follows i = .ok row) : RRowOk g i row := by
  unfold makeTableRow at h
  rw [Res.bind_eq_ok] at h
  obtain ⟨r, hr, h⟩ := h
  rw [idx_ok] at hr
  simp only [newGen_g] at hr
  obtain ⟨h1, h2, h3⟩ := addSequences_ok hx hl _ [] [] row (fun a ha => ⟨r, hr, ha⟩)
    (rowSpec_nil g i) h
  refine ⟨?_, ?_, ?_⟩
  · intro r' hr'; rw [hr] at hr'; cases hr'; simpa using h1
  · rintro alt ⟨r', hr', hm⟩
    rw [hr] at hr'; cases hr'
    exact h2 alt hm
  · rintro ⟨r', pre, alt, post, b, hr', hp, hn, hb, hE⟩
    rw [hr] at hr'; cases hr'
    have := h3 pre alt post hp hn b hb
    rw [List.nil_append, rselects_iff hb] at this
    exact this hE

theorem makeTableRow_conflict {g : Grammar} {firsts follows : List ByteSet}
    (hx : FExact g firsts) (hl : LExact g follows) {i : Nat}
    (h : makeTableRow (newGen g) firsts follows i = .err .conflict) : RClash g i := by
  unfold makeTableRow at h
  rw [Res.bind_eq_err] at h
  rcases h with h | ⟨r, hr, h⟩
  · unfold idx at h; split at h <;> simp at h
  · rw [idx_ok] at hr
    simp only [newGen_g] at hr
    obtain ⟨pre, alt, post, b, hp, hn, hb, hsel⟩ := addSequences_conflict hx hl _ [] []
      (fun a ha => ⟨r, hr, ha⟩) (rowSpec_nil g i) h
    rw [List.nil_append, rselects_iff hb] at hsel
    exact ⟨r, pre, alt, post, b, hr, hp, hn, hb, hsel⟩

theorem makeTableRow_total {g : Grammar} {firsts follows : List ByteSet}
    (hx : FExact g firsts) (hl : LExact g follows) {i : Nat} (hi : i < g.rules.length) (he : Examined g) :
    (∃ row, makeTableRow (newGen g) firsts follows i = .ok row) ∨
    makeTableRow (newGen g) firsts follows i = .err .conflict := by
  obtain ⟨r, hr, hr'⟩ := idx_lt hi
  unfold makeTableRow
  simp only [newGen_g, hr, Res.ok_bind]
  refine addSequences_total hx hl _ [] [] (fun a ha => ⟨r, hr', ha⟩) (rowSpec_nil g i) ?_
  intro alt hm b hb
  have ha : g.Alt i alt := ⟨r, hr', hm⟩
  refine ⟨fun name hname => ?_, fun hn => (he.cells i alt b _ ha hb hn).1 rfl⟩
  obtain ⟨j, hj⟩ := (he.cells i alt b _ ha hb hname).2 name rfl
  exact refers_of_head hj

/-! ## The table -/

theorem makeTable_ok {g : Grammar} {firsts follows : List ByteSet} {tbl : Table}
    (h : makeTable (newGen g) firsts follows = .ok tbl) :
    (∀ i, i < g.rules.length → ∃ row, tbl.get (i : Int) = some row ∧
      makeTableRow (newGen g) firsts follows i = .ok row) ∧
    (∀ n : Int, (∀ i : Nat, i < g.rules.length → n ≠ i) → tbl.get n = none) := by
  unfold makeTable at h
  have key : ∀ (is : List Nat) (t t' : Table), is.Nodup →
      forEach (fun ruleIndex (table : Table) => do
        let row ← makeTableRow (newGen g) firsts follows ruleIndex
        return table.set (ruleIndex : Int) row) is t = .ok t' →
      (∀ i ∈ is, ∃ row, GoMap.get t' (i : Int) = some row ∧
        makeTableRow (newGen g) firsts follows i = .ok row) ∧
      (∀ n : Int, (∀ i ∈ is, n ≠ (i : Nat)) → GoMap.get t' n = GoMap.get t n) := by
    intro is
    induction is with
    | nil =>
      intro t t' _ h
      simp only [forEach, Res.ok.injEq] at h; subst h; simp
    | cons i is ih =>
      intro t t' hnd h
      rw [List.nodup_cons] at hnd
      simp only [forEach] at h
      rw [Res.bind_eq_ok] at h
      obtain ⟨m, hm, h⟩ := h
      rw [Res.bind_eq_ok] at hm
      obtain ⟨row, hrow, hm⟩ := hm
      simp only [Res.pure_eq, Res.ok.injEq] at hm
      subst hm
      obtain ⟨h1, h2⟩ := ih _ _ hnd.2 h
      refine ⟨?_, ?_⟩
      · intro j hj
        rcases List.mem_cons.1 hj with rfl | hj
        · refine ⟨row, ?_, hrow⟩
          rw [h2 _ (fun k hk h => hnd.1 (by have : j = k := by omega
                                            rw [this]; exact hk)), GoMap.get_set]
          simp
        · exact h1 j hj
      · intro n hn
        rw [h2 n (fun k hk => hn k (List.mem_cons_of_mem _ hk)), GoMap.get_set,
          if_neg (hn i (by simp))]
  obtain ⟨h1, h2⟩ := key _ _ _ List.nodup_range h
  refine ⟨fun i hi => h1 i (by simpa using hi), fun n hn => ?_⟩
  rw [h2 n (fun i hi => hn i (by simpa using hi))]
  rfl

end TG
end LL1
