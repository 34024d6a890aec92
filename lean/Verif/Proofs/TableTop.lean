import Verif.Proofs.Reading

/-! # `FromGrammar` as a whole -/

namespace LL1
namespace TG

/-! ## Success -/

/-- Everything a successful call establishes about the table. -/
structure TableOk (g : Grammar) (tbl : Table) : Prop where
  rules : g.rules ≠ []
  rows : ∀ i, i < g.rules.length → ∃ row, tbl.get (i : Int) = some row ∧ RowOk g i row
  noOther : ∀ n : Int, (∀ i : Nat, i < g.rules.length → n ≠ i) → tbl.get n = none
  nonempty : g.NoEmptyAlternative
  exact : ∃ firsts, FExact g firsts
  nextDef : ∀ j alt pre name post n', g.Alt j alt →
    alt.symbols = pre ++ .nonTerminal name :: .nonTerminal n' :: post → (∃ i, g.Head i name) →
    ∃ k, g.Refers n' k

theorem fromGrammar_parts {order : List (Str × Nat) → List (Str × Nat)} {g : Grammar} {tbl : Table}
    {names : Names} (h : fromGrammar order g = .ok (tbl, names)) :
    ∃ firsts follows, findFirsts (newGen g) (newSets (newGen g).ruleCount) = .ok firsts ∧
      findFollows (newGen g) firsts (newSets (newGen g).ruleCount) = .ok follows ∧
      makeTable (newGen g) firsts follows = .ok tbl ∧
      names = rowNames (order (newGen g).ruleMap) [] := by
  unfold fromGrammar at h
  simp only at h
  rw [Res.bind_eq_ok] at h
  obtain ⟨t, ht, h⟩ := h
  simp only [Res.pure_eq, Res.ok.injEq, Prod.mk.injEq] at h
  obtain ⟨rfl, rfl⟩ := h
  unfold run at ht
  rw [Res.bind_eq_ok] at ht
  obtain ⟨firsts, h1, ht⟩ := ht
  rw [Res.bind_eq_ok] at ht
  obtain ⟨follows, h2, ht⟩ := ht
  exact ⟨firsts, follows, h1, h2, ht, rfl⟩

/-- Everything a successful call establishes about the table, on every grammar. -/
structure RTableOk (g : Grammar) (tbl : Table) : Prop where
  rules : g.rules ≠ []
  rows : ∀ i, i < g.rules.length → ∃ row, tbl.get (i : Int) = some row ∧ RRowOk g i row
  noOther : ∀ n : Int, (∀ i : Nat, i < g.rules.length → n ≠ i) → tbl.get n = none
  nonempty : g.NoEmptyAlternative
  exact : ∃ firsts, FExact g firsts
  nextDef : ∀ j alt pre name post n', g.Alt j alt →
    alt.symbols = pre ++ .nonTerminal name :: .nonTerminal n' :: post → (∃ i, g.Head i name) →
    ∃ k, g.Refers n' k
  nextTerm : ∀ j alt pre name post, g.Alt j alt →
    alt.symbols = pre ++ .nonTerminal name :: .terminal [] :: post → ¬ ∃ i, g.Head i name

theorem fromGrammar_rok {order : List (Str × Nat) → List (Str × Nat)} {g : Grammar} {tbl : Table}
    {names : Names} (h : fromGrammar order g = .ok (tbl, names)) : RTableOk g tbl := by
  obtain ⟨firsts, follows, h1, h2, h3, _⟩ := fromGrammar_parts h
  have hx := findFirsts_ok h1
  have hl := findFollows_ok hx h2
  obtain ⟨h4, h5⟩ := makeTable_ok h3
  refine ⟨?_, ?_, h5, hl.nonempty, ⟨firsts, hx⟩, hl.nextDef, hl.nextTerm⟩
  · intro he
    unfold findFollows at h2
    rw [Res.bind_eq_ok] at h2
    obtain ⟨f0, hf0, _⟩ := h2
    rw [idx_ok] at hf0
    simp [newSets, he] at hf0
  · intro i hi
    obtain ⟨row, hr, hm⟩ := h4 i hi
    exact ⟨row, hr, makeTableRow_ok hx hl hm⟩

theorem fromGrammar_ok {order : List (Str × Nat) → List (Str × Nat)} {g : Grammar} {tbl : Table}
    {names : Names} (hz : g.NulStartFree) (h : fromGrammar order g = .ok (tbl, names)) :
    TableOk g tbl := by
  have hr := fromGrammar_rok h
  refine ⟨hr.rules, ?_, hr.noOther, hr.nonempty, hr.exact, hr.nextDef⟩
  intro i hi
  obtain ⟨row, h1, h2⟩ := hr.rows i hi
  exact ⟨row, h1, h2.textbook hz⟩

/-! ## No divergence -/

theorem addEmptyCells_ne : ∀ (bs : List UInt8) (res : Row),
    addEmptyCells bs res ≠ .diverge ∧ ∀ p, addEmptyCells bs res ≠ .panic p := by
  intro bs
  induction bs with
  | nil => intro res; simp [addEmptyCells]
  | cons t bs ih =>
    intro res
    simp only [addEmptyCells]
    split
    · simp
    · exact ih _

theorem addSequence_ne_diverge (tg : Gen) (firsts follows : List ByteSet) (i : Nat) (s : Sequence)
    (row : Row) : addSequence tg firsts follows i s row ≠ .diverge := by
  intro h
  cases hS : sequenceFirsts tg firsts s with
  | err e => simp [addSequence, hS] at h
  | panic p => simp [addSequence, hS] at h
  | diverge => exact sequenceFirsts_ne_diverge _ _ _ hS
  | ok S =>
    cases hF : follows[i]? with
    | some F =>
      rw [addSequence_eq hS hF, Res.bind_eq_diverge] at h
      rcases h with h | ⟨m, _, h⟩
      · split at h
        · exact (addEmptyCells_ne _ _).1 h
        · simp at h
      · exact (addFirstCells_ne _ _).1 h
    | none =>
      unfold addSequence at h
      rw [hS] at h
      simp only [Res.ok_bind, idx, hF, Res.panic_bind, bytesOf_ok] at h
      split at h
      · simp at h
      · exact (addFirstCells_ne _ _).1 h

theorem addSequences_ne_diverge (tg : Gen) (firsts follows : List ByteSet) (i : Nat) :
    ∀ (ss : List Sequence) (row : Row), addSequences tg firsts follows i ss row ≠ .diverge := by
  intro ss
  induction ss with
  | nil => intro row; simp [addSequences]
  | cons s ss ih =>
    intro row
    simp only [addSequences]
    rw [ne_eq, Res.bind_eq_diverge]
    rintro (h | ⟨_, _, h⟩)
    · exact addSequence_ne_diverge _ _ _ _ _ _ h
    · exact ih _ h

theorem makeTable_ne_diverge (tg : Gen) (firsts follows : List ByteSet) :
    makeTable tg firsts follows ≠ .diverge := by
  unfold makeTable
  refine forEach_ne_diverge ?_ _
  intro i _ s
  rw [ne_eq, Res.bind_eq_diverge]
  rintro (h | ⟨_, _, h⟩)
  · unfold makeTableRow at h
    rw [Res.bind_eq_diverge] at h
    rcases h with h | ⟨_, _, h⟩
    · exact idx_ne_diverge _ _ h
    · exact addSequences_ne_diverge _ _ _ _ _ _ h
  · simp at h

theorem fromGrammar_ne_diverge (order : List (Str × Nat) → List (Str × Nat)) (g : Grammar) :
    fromGrammar order g ≠ .diverge := by
  unfold fromGrammar
  simp only
  rw [ne_eq, Res.bind_eq_diverge]
  rintro (h | ⟨_, _, h⟩)
  · unfold run at h
    rw [Res.bind_eq_diverge] at h
    rcases h with h | ⟨_, _, h⟩
    · exact findFirsts_ne_diverge g h
    rw [Res.bind_eq_diverge] at h
    rcases h with h | ⟨_, _, h⟩
    · exact findFollows_ne_diverge g _ h
    · exact makeTable_ne_diverge _ _ _ h
  · simp at h

/-! ## No panic -/

/-- The call does not panic. -/
def NP {α : Type} (x : R α) : Prop := ∀ p, x ≠ .panic p

theorem NP.bind {α β : Type} {x : R α} {f : α → R β} (h : NP x) (h' : ∀ a, x = .ok a → NP (f a)) :
    NP (x >>= f) := by
  intro p
  rw [ne_eq, Res.bind_eq_panic]
  rintro (h1 | ⟨a, h1, h2⟩)
  · exact h p h1
  · exact h' a h1 p h2

theorem NP.ok {α : Type} (a : α) : NP (.ok a : R α) := by intro p; simp
theorem NP.err {α : Type} (e : Err) : NP (.err e : R α) := by intro p; simp
theorem NP.pure {α : Type} (a : α) : NP (Pure.pure a : R α) := by intro p; simp

theorem NP.idx {α : Type} {xs : List α} {i : Nat} (h : i < xs.length) : NP (idx xs i) := by
  obtain ⟨a, ha, _⟩ := idx_lt h
  rw [ha]; exact .ok a

theorem NP.setIdx {α : Type} {xs : List α} {i : Nat} {a : α} (h : i < xs.length) :
    NP (setIdx xs i a) := by
  unfold TG.setIdx; rw [if_pos h]; exact .ok _

theorem NP.forEach {σ : Type} {f : Nat → σ → R σ} {is : List Nat} {P : σ → Prop}
    (hf : ∀ i ∈ is, ∀ s, P s → NP (f i s) ∧ ∀ s', f i s = .ok s' → P s') :
    ∀ s, P s → NP (forEach f is s) := by
  induction is with
  | nil => intro s _; exact .ok s
  | cons i is ih =>
    intro s hs
    obtain ⟨h1, h2⟩ := hf i (by simp) s hs
    exact h1.bind (fun s' h => ih (fun j hj => hf j (List.mem_cons_of_mem _ hj)) s' (h2 s' h))

theorem NP.fixLoop {pass : List ByteSet → R (List ByteSet × Bool)} {P : List ByteSet → Prop}
    (hP : ∀ s, P s → NP (pass s) ∧ ∀ s', pass s = .ok s' → P s'.1) :
    ∀ (fuel : Nat) (sets : List ByteSet), P sets → NP (fixLoop pass fuel sets) := by
  intro fuel
  induction fuel with
  | zero => intro sets _ p; simp [TG.fixLoop]
  | succ n ih =>
    intro sets hs
    obtain ⟨h1, h2⟩ := hP sets hs
    simp only [TG.fixLoop]
    refine h1.bind ?_
    rintro ⟨s', ch⟩ h
    cases ch with
    | false => exact .pure _
    | true => simpa using ih s' (h2 _ h)

theorem NP.seqLoop {g : Grammar} {firsts : List ByteSet} {n : Nat}
    (hlen : firsts.length = g.rules.length) :
    ∀ (syms : List Symbol) (res : ByteSet) (flag : Bool), (∀ t, Symbol.terminal t ∈ syms → t ≠ []) →
      NP (sequenceFirstsLoop (newGen g) firsts n syms res flag) := by
  intro syms
  induction syms with
  | nil => intro res flag _; exact .ok _
  | cons x rest ih =>
    intro res flag ht
    cases x with
    | terminal t =>
      cases t with
      | nil => exact absurd rfl (ht [] (by simp))
      | cons c t => exact .ok _
    | nothing =>
      simp only [sequenceFirstsLoop]
      split
      · exact .err _
      · exact .ok _
    | nonTerminal name =>
      simp only [sequenceFirstsLoop]
      split
      · exact .err _
      · rename_i i hg
        refine (NP.idx (by rw [hlen]; exact ((get_ruleMap g name i).1 hg).lt)).bind ?_
        intro F _
        split
        · exact .ok _
        · exact ih _ _ (fun t h => ht t (List.mem_cons_of_mem _ h))

theorem NP.substLoop {g : Grammar} {firsts : List ByteSet} (hlen : firsts.length = g.rules.length) :
    ∀ (ss : List Sequence) (res : ByteSet), (∀ s ∈ ss, ∀ t, Symbol.terminal t ∈ s.symbols → t ≠ []) →
      NP (substitutionFirstsLoop (newGen g) firsts ss res) := by
  intro ss
  induction ss with
  | nil => intro res _; exact .ok _
  | cons s ss ih =>
    intro res ht
    simp only [substitutionFirstsLoop]
    exact (NP.seqLoop hlen _ _ _ (ht s (by simp))).bind
      (fun A _ => ih _ (fun s hs => ht s (List.mem_cons_of_mem _ hs)))

theorem NP.findFirsts {g : Grammar} (ht : g.NoEmptyTerminal) :
    NP (findFirsts (newGen g) (newSets (newGen g).ruleCount)) := by
  unfold TG.findFirsts
  rw [findFirstsLoop_eq]
  refine NP.fixLoop (P := fun s => s.length = g.rules.length) ?_ _ _ (by simp [newSets])
  intro s hs
  refine ⟨?_, fun s' h => by rw [(firstsPass_grow h).len]; exact hs⟩
  unfold firstsPass
  refine NP.forEach (P := fun st => st.1.length = g.rules.length) ?_ _ hs
  intro i hi st hst
  refine ⟨?_, fun s' h => by rw [(ruleFirsts_grow h).len]; exact hst⟩
  simp only [newGen_g, List.mem_range] at hi
  unfold ruleFirsts
  split
  · exact .err _
  · refine (NP.idx (by simpa using hi)).bind ?_
    intro r hr
    rw [idx_ok] at hr
    refine (NP.substLoop hst _ _ (fun s hs t htm => ht i s t ⟨r, hr, hs⟩ htm)).bind ?_
    intro T _
    refine (NP.idx (by rw [hst]; exact hi)).bind ?_
    intro cur _
    split
    · exact .pure _
    · refine (NP.setIdx (by rw [hst]; exact hi)).bind ?_
      intro _ _
      exact .pure _

theorem NP.addFollows {i : Nat} {set : ByteSet} {st : FState} (h : i < st.1.length) :
    NP (addFollows i set st) := by
  unfold TG.addFollows
  refine (NP.idx h).bind ?_
  intro cur _
  split
  · exact .pure _
  · refine (NP.setIdx h).bind ?_
    intro _ _
    exact .pure _

theorem NP.symbolFirsts {g : Grammar} {firsts : List ByteSet} (hlen : firsts.length = g.rules.length)
    (x : Symbol) : NP (symbolFirsts (newGen g) firsts x) := by
  cases x with
  | terminal t =>
    cases t with
    | nil => exact .err _
    | cons c t => exact .ok _
  | nothing => exact .ok _
  | nonTerminal name =>
    simp only [TG.symbolFirsts]
    split
    · exact .err _
    · rename_i i hg
      exact NP.idx (by rw [hlen]; exact ((get_ruleMap g name i).1 hg).lt)

theorem NP.followsInner {g : Grammar} {firsts : List ByteSet} (hlen : firsts.length = g.rules.length)
    {i j : Nat} {hd : Str} {x next : Symbol} {st : FState} (hi : i < st.1.length)
    (hj : j < st.1.length) : NP (followsInner (newGen g) firsts i j hd x next st) := by
  by_cases hx : x = .nonTerminal hd
  · subst hx
    simp only [TG.followsInner, ne_eq, not_true_eq_false, if_false]
    refine (NP.symbolFirsts hlen next).bind ?_
    intro S _
    refine NP.bind ?_ ?_
    · unfold innerNull
      split
      · refine (NP.idx hj).bind ?_
        intro F _
        refine (NP.addFollows hi).bind ?_
        rintro ⟨s, b⟩ _
        exact .pure _
      · exact .pure _
    · intro st1 h1
      have hg := innerNull_grow h1
      refine (NP.addFollows (by rw [hg.len]; exact hi)).bind ?_
      rintro ⟨s, b⟩ _
      exact .pure _
  · rw [followsInner_other hx]; exact .ok _

theorem NP.innerLoop {g : Grammar} {firsts : List ByteSet} (hlen : firsts.length = g.rules.length)
    {i j : Nat} {hd : Str} : ∀ (rev : List Symbol) (next : Symbol) (st : FState), i < st.1.length →
    j < st.1.length → NP (followsInnerLoop (newGen g) firsts i j hd next rev st) := by
  intro rev
  induction rev with
  | nil => intro next st _ _; exact .ok _
  | cons x rev ih =>
    intro next st hi hj
    simp only [followsInnerLoop]
    refine (NP.followsInner hlen hi hj).bind ?_
    intro m hm
    have hg := followsInner_grow hm
    exact ih x m (by rw [hg.len]; exact hi) (by rw [hg.len]; exact hj)

theorem NP.followsLast {i j : Nat} {hd : Str} {last : Symbol} {st : FState} (hi : i < st.1.length)
    (hj : j < st.1.length) : NP (followsLast i j hd last st) := by
  unfold TG.followsLast
  split
  · split
    · split
      · exact .ok _
      · refine (NP.idx hj).bind ?_
        intro F _
        exact NP.addFollows hi
    · exact .ok _
  · exact .ok _

theorem NP.sequences {g : Grammar} {firsts : List ByteSet} (hlen : firsts.length = g.rules.length)
    {i j : Nat} : ∀ (ss : List Sequence) (st : FState), st.1.length = g.rules.length →
    i < g.rules.length → j < g.rules.length → NP (followsSequences (newGen g) firsts i j ss st) := by
  intro ss
  induction ss with
  | nil => intro st _ _ _; exact .ok _
  | cons s ss ih =>
    intro st hst hi hj
    simp only [followsSequences]
    refine NP.bind ?_ ?_
    · unfold ruleFollowsInSequence
      refine (NP.idx (by simpa using hi)).bind ?_
      intro r _
      split
      · exact .err _
      · refine (NP.followsLast (by rw [hst]; exact hi) (by rw [hst]; exact hj)).bind ?_
        rintro ⟨m, ret⟩ hm
        have hg := followsLast_grow hm
        cases ret with
        | true => exact .pure _
        | false =>
          have hl : m.1.length = st.1.length := hg.len
          exact NP.innerLoop hlen _ _ _ (by omega) (by omega)
    · intro m hm
      have hg := inSequence_grow hm
      exact ih m (by rw [hg.len]; exact hst) hi hj

theorem NP.findFollows {g : Grammar} (h0 : g.rules ≠ []) {firsts : List ByteSet}
    (hlen : firsts.length = g.rules.length) :
    NP (findFollows (newGen g) firsts (newSets (newGen g).ruleCount)) := by
  have hpos : 0 < g.rules.length := List.length_pos_iff.2 h0
  unfold TG.findFollows
  refine (NP.idx (by simpa [newSets] using hpos)).bind ?_
  intro f0 _
  refine (NP.setIdx (by simpa [newSets] using hpos)).bind ?_
  intro fs hfs
  rw [setIdx_ok] at hfs
  rw [findFollowsLoop_eq]
  refine NP.fixLoop (P := fun s => s.length = g.rules.length) ?_ _ _ (by rw [hfs.2]; simp [newSets])
  intro s hs
  refine ⟨?_, fun s' h => by rw [(followsPass_grow h).len]; exact hs⟩
  unfold followsPass
  refine NP.forEach (P := fun st => st.1.length = g.rules.length) ?_ _ hs
  intro i hi st hst
  refine ⟨?_, fun s' h => by
    rw [(forEach_grow (fun _ _ _ _ h2 => inRule_grow h2) _ _ h).len]; exact hst⟩
  refine NP.forEach (P := fun st => st.1.length = g.rules.length) ?_ _ hst
  intro j hj st hst
  refine ⟨?_, fun s' h => by rw [(inRule_grow h).len]; exact hst⟩
  simp only [newGen_g, List.mem_range] at hi hj
  unfold ruleFollowsInRule
  split
  · exact .err _
  · split
    · exact .err _
    · refine (NP.idx (by simpa using hj)).bind ?_
      intro r _
      exact NP.sequences hlen _ _ hst hi hj

theorem NP.makeTable {g : Grammar} (ht : g.NoEmptyTerminal) (hn : g.NothingAlone)
    {firsts follows : List ByteSet} (hlen : firsts.length = g.rules.length)
    (hlen' : follows.length = g.rules.length) : NP (makeTable (newGen g) firsts follows) := by
  unfold TG.makeTable
  refine NP.forEach (P := fun _ => True) ?_ _ trivial
  intro i hi t _
  refine ⟨?_, fun _ _ => trivial⟩
  simp only [newGen_g, List.mem_range] at hi
  refine NP.bind ?_ (fun _ _ => .pure _)
  unfold makeTableRow
  refine (NP.idx (by simpa using hi)).bind ?_
  intro r hr
  rw [idx_ok] at hr
  have key : ∀ (ss : List Sequence) (row : Row), (∀ s ∈ ss, g.Alt i s) →
      NP (addSequences (newGen g) firsts follows i ss row) := by
    intro ss
    induction ss with
    | nil => intro row _; exact .ok _
    | cons s ss ih =>
      intro row ha
      have has := ha s (by simp)
      simp only [addSequences]
      refine NP.bind ?_ (fun m _ => ih m (fun s hs => ha s (List.mem_cons_of_mem _ hs)))
      obtain ⟨F, _, hF⟩ := idx_lt (xs := follows) (i := i) (by rw [hlen']; exact hi)
      cases hS : sequenceFirsts (newGen g) firsts s with
      | err e => unfold addSequence; rw [hS]; exact .err _
      | panic p =>
        exact absurd hS (NP.seqLoop hlen _ _ _ (fun t htm => ht i s t has htm) p)
      | diverge => exact absurd hS (sequenceFirsts_ne_diverge _ _ _)
      | ok S =>
        rw [addSequence_eq hS hF]
        refine NP.bind ?_ ?_
        · split
          · exact (addEmptyCells_ne _ _).2
          · exact .ok _
        · intro row1 _ p
          refine (addFirstCells_ne _ _).2.2 ?_ p
          intro hne hm
          have hs := hn i s has hm
          rw [sequenceFirsts, hs] at hS
          simp only [sequenceFirstsLoop, List.length_cons, List.length_nil, gt_iff_lt,
            Nat.lt_irrefl, if_false, Res.ok.injEq, Nat.zero_add] at hS
          apply hne
          rw [List.filter_eq_nil_iff]
          intro b _
          rw [← hS, ByteSet.contains_remove, ByteSet.contains_add, ByteSet.contains_new]
          by_cases hb0 : b = 0
          · simp [hb0]
          · have : ¬ b = EOS := hb0
            simp [this, hb0]
  exact key _ _ (fun s hs => ⟨r, hr, hs⟩)

theorem fromGrammar_np (order : List (Str × Nat) → List (Str × Nat)) {g : Grammar} (h0 : g.rules ≠ [])
    (ht : g.NoEmptyTerminal) (hn : g.NothingAlone) : NP (fromGrammar order g) := by
  unfold fromGrammar
  simp only
  refine NP.bind ?_ (fun _ _ => .pure _)
  unfold run
  refine (NP.findFirsts ht).bind ?_
  intro firsts hf
  have hlen : firsts.length = g.rules.length := by
    unfold TG.findFirsts at hf
    rw [findFirstsLoop_eq] at hf
    obtain ⟨_, _, hl, _⟩ := fixLoop_ok (P := fun _ => True) (fun _ _ h => firstsPass_grow h)
      (fun _ _ _ _ => trivial) _ _ _ trivial hf
    rw [hl]; simp [newSets]
  refine (NP.findFollows h0 hlen).bind ?_
  intro follows hfo
  have hlen' : follows.length = g.rules.length := by
    unfold TG.findFollows at hfo
    rw [Res.bind_eq_ok] at hfo
    obtain ⟨f0, _, hfo⟩ := hfo
    rw [Res.bind_eq_ok] at hfo
    obtain ⟨fs, hfs, hfo⟩ := hfo
    rw [setIdx_ok] at hfs
    rw [findFollowsLoop_eq] at hfo
    obtain ⟨_, _, hl, _⟩ := fixLoop_ok (P := fun _ => True) (fun _ _ h => followsPass_grow h)
      (fun _ _ _ _ => trivial) _ _ _ trivial hfo
    rw [hl, hfs.2]; simp [newSets]
  exact NP.makeTable ht hn hlen hlen'

/-! ## Totality on well-formed grammars -/

/-- A well-formed grammar is fine wherever the generator looks. -/
theorem examined_of_wf {g : Grammar} (hw : g.WellFormed) : Examined g := by
  have hmem : ∀ {syms : List Symbol} {x : Symbol}, FirstLooksAt g syms x → x ∈ syms := by
    intro syms x h
    induction h with
    | first => exact .head _
    | past _ _ _ ih => exact .tail _ ih
  refine ⟨hw.rules, hw.alts, ?_, ?_, ?_⟩
  · intro i alt x ha hl
    refine ⟨?_, ?_, ?_⟩
    · rintro rfl; exact hw.term i alt [] ha (hmem hl) rfl
    · rintro n rfl; exact hw.defined i alt n ha (hmem hl)
    · rintro rfl; exact hw.nothing i alt ha (hmem hl)
  · intro i alt pre name next post ha hs _
    have hm : next ∈ alt.symbols := by rw [hs]; simp
    refine ⟨?_, ?_⟩
    · rintro rfl; exact hw.term i alt [] ha hm rfl
    · rintro n rfl; exact hw.defined i alt n ha hm
  · intro i alt b x ha hb hm
    refine ⟨?_, ?_⟩
    · rintro rfl
      rw [hw.nothing i alt ha hm] at hb
      cases hb with
      | skip _ _ h => cases h
    · rintro n rfl; exact hw.defined i alt n ha hm

/-- With sets that contain nothing wrong, FIRST reads only what it may read. -/
theorem readFine_of_examined {g : Grammar} (he : Examined g) {i : Nat} {alt : Sequence} (ha : g.Alt i alt)
    {firsts : List ByteSet} (hs : FSound g firsts) : ReadFine g firsts alt.symbols.length alt.symbols := by
  have key : ∀ syms : List Symbol, (∀ x, FirstLooksAt g syms x → FirstLooksAt g alt.symbols x) →
      ReadFine g firsts alt.symbols.length syms := by
    intro syms
    induction syms with
    | nil => intro _; trivial
    | cons x rest ih =>
      intro hl
      obtain ⟨h1, h2, h3⟩ := he.firsts i alt x ha (hl x .first)
      cases x with
      | terminal t => simpa [ReadFine] using h1
      | nothing => simp only [ReadFine]; rw [h3 rfl]; simp
      | nonTerminal name =>
        obtain ⟨j, hj⟩ := h2 name rfl
        obtain ⟨k, hk⟩ := refers_of_head hj
        exact ⟨k, hk, fun h0 => ih fun x hx => hl x (.past hk (hs.null k h0) hx)⟩
  exact key _ (fun _ h => h)

/-- And the other way round. -/
theorem firstLooksAt_fine {g : Grammar} {firsts : List ByteSet} (hx : FExact g firsts) {n : Nat} {syms : List Symbol}
    {x : Symbol} (hl : FirstLooksAt g syms x) (hr : ReadFine g firsts n syms) :
    x ≠ .terminal [] ∧ (∀ name, x = .nonTerminal name → g.Defines name) ∧ (x = .nothing → n ≤ 1) := by
  induction hl with
  | @first x rest =>
    cases x with
    | terminal t => exact ⟨by simpa [ReadFine] using hr, (by intro _ h; cases h), (by intro h; cases h)⟩
    | nothing => exact ⟨(by intro h; cases h), (by intro _ h; cases h), fun _ => hr⟩
    | nonTerminal name =>
      obtain ⟨i, hi, _⟩ := hr
      exact ⟨(by intro h; cases h), fun _ h => (by cases h; exact ⟨i, hi.1⟩), (by intro h; cases h)⟩
  | @past name i rest x hi hn _ ih =>
    obtain ⟨i', hi', hr⟩ := hr
    cases hi.det hi'
    exact ih (hr ((hx.null i).2 hn))

theorem sequenceFirsts_total {g : Grammar} (he : Examined g) {firsts : List ByteSet}
    (hs : FSound g firsts) {i : Nat} {alt : Sequence} (ha : g.Alt i alt) :
    ∃ S, sequenceFirsts (newGen g) firsts alt = .ok S :=
  seqLoop_total hs.len _ _ _ (readFine_of_examined he ha hs)

theorem findFirsts_total {g : Grammar} (he : Examined g) :
    ∃ firsts, findFirsts (newGen g) (newSets (newGen g).ruleCount) = .ok firsts := by
  have hd := findFirsts_ne_diverge g
  unfold findFirsts at hd ⊢
  rw [findFirstsLoop_eq] at hd ⊢
  refine (fixLoop_total (pass := firstsPass (newGen g)) (P := FSound g) ?_
    (256 * (newGen g).ruleCount + 1) (newSets (newGen g).ruleCount) ⟨by simp [newSets], fun i b _ h => absurd h not_has_newSets,
      fun i h => absurd h not_has_newSets⟩).elim
    (fun ⟨r, hr, _⟩ => ⟨r, hr⟩) (fun h => absurd h hd)
  · intro s hs
    unfold firstsPass
    refine forEach_total (P := fun (st : List ByteSet × Bool) => FSound g st.1) ?_ _ hs
    intro i hi st hst
    simp only [newGen_g, List.mem_range] at hi
    obtain ⟨r, hr, hr'⟩ := idx_lt hi
    have hsub : ∀ (ss : List Sequence) (res : ByteSet), (∀ s ∈ ss, g.Alt i s) →
        ∃ T, substitutionFirstsLoop (newGen g) st.1 ss res = .ok T := by
      intro ss
      induction ss with
      | nil => intro res _; exact ⟨res, rfl⟩
      | cons s ss ih =>
        intro res ha
        obtain ⟨S, hS⟩ := sequenceFirsts_total he hst (ha s (by simp))
        simp only [substitutionFirstsLoop, hS, Res.ok_bind]
        exact ih _ (fun s hs => ha s (List.mem_cons_of_mem _ hs))
    obtain ⟨T, hT⟩ := hsub r.tail.sequences (ByteSet.new []) (fun s hs => ⟨r, hr', hs⟩)
    obtain ⟨cur, hc, _⟩ := idx_lt (xs := st.1) (i := i) (by rw [hst.len]; exact hi)
    have hex : ∃ st', ruleFirsts (newGen g) i st = .ok st' := by
      unfold ruleFirsts
      rw [if_neg (by simp; exact hi)]
      simp only [newGen_g, hr, Res.ok_bind, substitutionFirsts, hT, hc]
      split
      · exact ⟨_, rfl⟩
      · refine ⟨(st.1.set i (cur.union T), true), ?_⟩
        rw [setIdx_ok.2 ⟨by rw [hst.len]; exact hi, rfl⟩]; rfl
    obtain ⟨st', h'⟩ := hex
    exact ⟨st', h', ruleFirsts_sound hst h'⟩

theorem addFollows_total {i : Nat} {set : ByteSet} {st : FState} (h : i < st.1.length) :
    ∃ r, addFollows i set st = .ok r := by
  obtain ⟨cur, hc, _⟩ := idx_lt h
  unfold addFollows
  simp only [hc, Res.ok_bind]
  split
  · exact ⟨_, rfl⟩
  · rw [setIdx_ok.2 ⟨h, rfl⟩]; exact ⟨_, rfl⟩

theorem symbolFirsts_total {g : Grammar} {firsts : List ByteSet} (hlen : firsts.length = g.rules.length)
    {x : Symbol} (h1 : ∀ t, x = .terminal t → t ≠ [])
    (h2 : ∀ n, x = .nonTerminal n → ∃ i, g.Refers n i) :
    ∃ S, symbolFirsts (newGen g) firsts x = .ok S := by
  cases x with
  | terminal t =>
    cases t with
    | nil => exact absurd rfl (h1 [] rfl)
    | cons c t => exact ⟨_, rfl⟩
  | nothing => exact ⟨_, rfl⟩
  | nonTerminal name =>
    obtain ⟨i, hi⟩ := h2 name rfl
    obtain ⟨S, hS, _⟩ := idx_lt (xs := firsts) (i := i) (by rw [hlen]; exact hi.lt)
    exact ⟨S, by simp [symbolFirsts, (get_ruleMap g name i).2 hi, hS]⟩

theorem inSequence_total {g : Grammar} (he : Examined g) {firsts : List ByteSet}
    (hlen : firsts.length = g.rules.length) {i j : Nat} (hi : i < g.rules.length) {alt : Sequence}
    (ha : g.Alt j alt) {st : FState} (hst : st.1.length = g.rules.length) :
    ∃ st', ruleFollowsInSequence (newGen g) firsts i alt j st = .ok st' := by
  have hj := ha.lt
  obtain ⟨r, hr, hr'⟩ := idx_lt hi
  unfold ruleFollowsInSequence
  simp only [newGen_g, hr, Res.ok_bind]
  have hsym : ∀ pre next post, alt.symbols = pre ++ .nonTerminal r.head :: next :: post →
      ∃ S, symbolFirsts (newGen g) firsts next = .ok S := by
    intro pre next post hs
    obtain ⟨h1, h2⟩ := he.follows j alt pre r.head next post ha hs ⟨i, r, hr', rfl⟩
    refine symbolFirsts_total hlen ?_ ?_
    · rintro t rfl rfl; exact h1 rfl
    · rintro n rfl
      obtain ⟨k, hk⟩ := h2 n rfl
      exact refers_of_head hk
  split
  · rename_i h
    exact absurd (by simpa using h) (he.alternatives j alt ha)
  · rename_i last rev hrev
    have hmem : alt.symbols = rev.reverse ++ [last] := by
      have := congrArg List.reverse hrev
      simpa using this
    have hlast : ∃ q, followsLast i j r.head last st = .ok q := by
      unfold followsLast
      split
      · split
        · split
          · exact ⟨_, rfl⟩
          · obtain ⟨F, hF, _⟩ := idx_lt (xs := st.1) (i := j) (by rw [hst]; exact hj)
            simp only [hF, Res.ok_bind]
            exact addFollows_total (by rw [hst]; exact hi)
        · exact ⟨_, rfl⟩
      · exact ⟨_, rfl⟩
    obtain ⟨⟨st1, ret⟩, h1⟩ := hlast
    have hl1 : st1.1.length = g.rules.length := by
      have := (followsLast_grow h1).len
      simp only at this; rw [this]; exact hst
    simp only [h1, Res.ok_bind]
    split
    · exact ⟨_, rfl⟩
    · have loop : ∀ (rev : List Symbol) (next : Symbol) (st : FState),
          (∃ post, alt.symbols = rev.reverse ++ next :: post) → st.1.length = g.rules.length →
          ∃ st', followsInnerLoop (newGen g) firsts i j r.head next rev st = .ok st' := by
        intro rev
        induction rev with
        | nil => intro next st _ _; exact ⟨st, rfl⟩
        | cons x rev ih =>
          rintro next st ⟨post, hm⟩ hst
          have hm : alt.symbols = rev.reverse ++ x :: next :: post := by simpa using hm
          have hin : ∃ m, followsInner (newGen g) firsts i j r.head x next st = .ok m := by
            by_cases hxe : x = .nonTerminal r.head
            · subst hxe
              obtain ⟨S, hS⟩ := hsym _ _ _ hm
              have hnull : ∃ q, innerNull i j S st = .ok q := by
                unfold innerNull
                split
                · obtain ⟨F, hF, _⟩ := idx_lt (xs := st.1) (i := j) (by rw [hst]; exact hj)
                  obtain ⟨q, hq⟩ := addFollows_total (i := i) (set := F) (st := st) (by rw [hst]; exact hi)
                  simp only [hF, Res.ok_bind, hq]
                  exact ⟨_, rfl⟩
                · exact ⟨_, rfl⟩
              obtain ⟨q, hq⟩ := hnull
              have hlq := (innerNull_grow hq).len
              obtain ⟨⟨q', b⟩, hq'⟩ := addFollows_total (i := i) (set := S.remove EOS) (st := q)
                (by rw [hlq, hst]; exact hi)
              exact ⟨q', followsInner_nt.2 ⟨S, q, b, hS, hq, hq'⟩⟩
            · exact ⟨st, followsInner_other hxe⟩
          obtain ⟨m, hm'⟩ := hin
          have hlm := (followsInner_grow hm').len
          simp only [followsInnerLoop, hm', Res.ok_bind]
          exact ih x m ⟨_, hm⟩ (by rw [hlm]; exact hst)
      exact loop rev last st1 ⟨[], hmem⟩ hl1

theorem findFollows_total {g : Grammar} (he : Examined g) {firsts : List ByteSet}
    (hlen : firsts.length = g.rules.length) :
    ∃ follows, findFollows (newGen g) firsts (newSets (newGen g).ruleCount) = .ok follows := by
  have hd := findFollows_ne_diverge g firsts
  have hpos : 0 < g.rules.length := List.length_pos_iff.2 he.rules
  unfold findFollows at hd ⊢
  obtain ⟨f0, hf0, _⟩ := idx_lt (xs := newSets (newGen g).ruleCount) (i := 0) (by simpa [newSets] using hpos)
  have hset : setIdx (newSets (newGen g).ruleCount) 0 (f0.add EOS) =
      .ok ((newSets (newGen g).ruleCount).set 0 (f0.add EOS)) :=
    setIdx_ok.2 ⟨by simpa [newSets] using hpos, rfl⟩
  simp only [hf0, Res.ok_bind, hset, findFollowsLoop_eq] at hd ⊢
  refine (fixLoop_total (pass := followsPass (newGen g) firsts)
    (P := fun s => s.length = g.rules.length) ?_
    (256 * (newGen g).ruleCount + 1) ((newSets (newGen g).ruleCount).set 0 (f0.add EOS))
    (by simp [newSets])).elim (fun ⟨r, hr, _⟩ => ⟨r, hr⟩) (fun h => absurd h hd)
  · intro s hs
    unfold followsPass
    refine forEach_total (P := fun (st : List ByteSet × Bool) => st.1.length = g.rules.length) ?_ _ hs
    intro i hi st hst
    refine forEach_total (P := fun (st : List ByteSet × Bool) => st.1.length = g.rules.length) ?_ _ hst
    intro j hj st hst
    simp only [newGen_g, List.mem_range] at hi hj
    obtain ⟨r, hr, hr'⟩ := idx_lt hj
    have hss : ∀ (ss : List Sequence) (st : FState), (∀ s ∈ ss, g.Alt j s) →
        st.1.length = g.rules.length →
        ∃ st', followsSequences (newGen g) firsts i j ss st = .ok st' := by
      intro ss
      induction ss with
      | nil => intro st _ _; exact ⟨st, rfl⟩
      | cons s ss ih =>
        intro st ha hst
        obtain ⟨m, hm⟩ := inSequence_total he hlen hi (ha s (by simp)) hst
        simp only [followsSequences, hm, Res.ok_bind]
        exact ih m (fun s hs => ha s (List.mem_cons_of_mem _ hs))
          (by rw [(inSequence_grow hm).len]; exact hst)
    obtain ⟨st', h'⟩ := hss r.tail.sequences st (fun s hs => ⟨r, hr', hs⟩) hst
    refine ⟨st', ?_, by rw [(sequences_grow _ _ _ h').len]; exact hst⟩
    unfold ruleFollowsInRule
    rw [if_neg (by simp; exact hi), if_neg (by simp; exact hj)]
    simp only [newGen_g, hr, Res.ok_bind]
    exact h'

/-- On a grammar that is fine where the generator looks `FromGrammar` succeeds or reports a clash, as the package reads it. -/
theorem fromGrammar_ecases (order : List (Str × Nat) → List (Str × Nat)) {g : Grammar}
    (he : Examined g) :
    ((∃ r, fromGrammar order g = .ok r) ∧ ∀ i, ¬ RClash g i) ∨
    (fromGrammar order g = .err .conflict ∧ ∃ i, RClash g i) := by
  obtain ⟨firsts, h1⟩ := findFirsts_total he
  have hx := findFirsts_ok h1
  obtain ⟨follows, h2⟩ := findFollows_total he hx.len
  have hl := findFollows_ok hx h2
  have key : ∀ (is : List Nat) (t : Table), (∀ i ∈ is, i < g.rules.length) →
      ((∃ t', forEach (fun ruleIndex (table : Table) => do
        let row ← makeTableRow (newGen g) firsts follows ruleIndex
        return table.set (ruleIndex : Int) row) is t = .ok t') ∧ ∀ i ∈ is, ¬ RClash g i) ∨
      (forEach (fun ruleIndex (table : Table) => do
        let row ← makeTableRow (newGen g) firsts follows ruleIndex
        return table.set (ruleIndex : Int) row) is t = .err .conflict ∧ ∃ i, RClash g i) := by
    intro is
    induction is with
    | nil => intro t _; left; exact ⟨⟨t, rfl⟩, by simp⟩
    | cons i is ih =>
      intro t hlt
      rcases makeTableRow_total hx hl (hlt i (by simp)) he with ⟨row, hr⟩ | hr
      · have hnc := (makeTableRow_ok hx hl hr).noClash
        rcases ih (t.set (i : Int) row) (fun j hj => hlt j (List.mem_cons_of_mem _ hj)) with
          ⟨⟨t', ht'⟩, h⟩ | ⟨h, h'⟩
        · left
          refine ⟨⟨t', by simpa [forEach, hr] using ht'⟩, ?_⟩
          intro j hj
          rcases List.mem_cons.1 hj with rfl | hj
          · exact hnc
          · exact h j hj
        · right
          exact ⟨by simpa [forEach, hr] using h, h'⟩
      · right
        exact ⟨by simp [forEach, hr], i, makeTableRow_conflict hx hl hr⟩
  unfold fromGrammar run
  simp only [h1, h2, Res.ok_bind]
  rcases key (List.range g.rules.length) [] (by simp) with ⟨⟨t', ht'⟩, h⟩ | ⟨h, h'⟩
  · left
    refine ⟨⟨(t', rowNames (order (newGen g).ruleMap) []), ?_⟩, ?_⟩
    · unfold makeTable
      simp only [newGen_g]
      rw [ht']; rfl
    · intro i hc
      obtain ⟨r, _, _, _, _, hr, _⟩ := id hc
      exact h i (by simpa using (List.getElem?_eq_some_iff.1 hr).1) hc
  · right
    refine ⟨?_, h'⟩
    unfold makeTable
    simp only [newGen_g]
    rw [h]; rfl

/-- On a well-formed grammar `FromGrammar` succeeds or reports a clash, as the package reads it. -/
theorem fromGrammar_rcases (order : List (Str × Nat) → List (Str × Nat)) {g : Grammar}
    (hw : g.WellFormed) :
    ((∃ r, fromGrammar order g = .ok r) ∧ ∀ i, ¬ RClash g i) ∨
    (fromGrammar order g = .err .conflict ∧ ∃ i, RClash g i) := fromGrammar_ecases order (examined_of_wf hw)

/-- Success means that everything the generator looked at was fine. -/
theorem fromGrammar_examined {order : List (Str × Nat) → List (Str × Nat)} {g : Grammar} {tbl : Table}
    {names : Names} (h : fromGrammar order g = .ok (tbl, names)) : Examined g ∧ ∀ i, ¬ RClash g i := by
  have hr := fromGrammar_rok h
  obtain ⟨firsts, hx⟩ := hr.exact
  refine ⟨⟨hr.rules, hr.nonempty, ?_, ?_, ?_⟩, ?_⟩
  · intro i alt x ha hl
    obtain ⟨h1, h2, h3⟩ := firstLooksAt_fine hx hl (hx.fine i alt ha)
    refine ⟨h1, h2, ?_⟩
    rintro rfl
    have hlen := h3 rfl
    generalize alt.symbols = syms at hl hlen
    cases hl with
    | first =>
      rename_i rest
      cases rest with
      | nil => rfl
      | cons y ys => simp at hlen
    | past _ _ hl =>
      rename_i rest _ _
      cases rest with
      | nil => cases hl
      | cons y ys => simp at hlen
  · intro i alt pre name next post ha hs hd
    refine ⟨?_, ?_⟩
    · rintro rfl; exact hr.nextTerm i alt pre name post ha hs hd
    · rintro n rfl
      obtain ⟨k, hk⟩ := hr.nextDef i alt pre name post n ha hs hd
      exact ⟨k, hk.1⟩
  · intro i alt b x ha hb hm
    obtain ⟨row, _, hrow⟩ := hr.rows i ha.lt
    obtain ⟨ops, hops⟩ := hrow.defined alt ha b hb
    generalize alt.symbols = syms at hm hops
    clear hb
    induction hops with
    | nil => cases hm
    | cons h _ ih =>
      rcases List.mem_cons.1 hm with rfl | hm
      · cases x with
        | terminal => exact ⟨(by intro h; cases h), (by intro _ h; cases h)⟩
        | nothing => cases h
        | nonTerminal n =>
          obtain ⟨k, hk, _⟩ := h
          exact ⟨(by intro h; cases h), (by intro _ h'; cases h'; exact ⟨k, hk.1⟩)⟩
      · exact ih hm
  · intro i hc
    obtain ⟨r, _, _, _, _, hr', _⟩ := id hc
    obtain ⟨row, _, hrow⟩ := hr.rows i (List.getElem?_eq_some_iff.1 hr').1
    exact hrow.noClash hc

/-- On a well-formed grammar `FromGrammar` succeeds or reports a clash. -/
theorem fromGrammar_cases (order : List (Str × Nat) → List (Str × Nat)) {g : Grammar}
    (hz : g.NulStartFree) (hw : g.WellFormed) :
    ((∃ r, fromGrammar order g = .ok r) ∧ ∀ i, ¬ Clash g i) ∨
    (fromGrammar order g = .err .conflict ∧ ∃ i, Clash g i) := by
  simpa only [rclash_iff hz] using fromGrammar_rcases order hw

/-- Neither fixpoint reports a conflict: only the table does. -/
theorem fixpoints_ne_conflict (g : Grammar) :
    (∀ s, findFirsts (newGen g) s ≠ .err .conflict) ∧
    (∀ firsts s, findFollows (newGen g) firsts s ≠ .err .conflict) := by
  have hidx : ∀ {α : Type} (xs : List α) (i : Nat), idx xs i ≠ .err .conflict := by
    intro α xs i h; unfold idx at h; split at h <;> simp at h
  have hset : ∀ {α : Type} (xs : List α) (i : Nat) (a : α), setIdx xs i a ≠ .err .conflict := by
    intro α xs i a h; unfold setIdx at h; split at h <;> simp at h
  have hfix : ∀ (pass : List ByteSet → R (List ByteSet × Bool)), (∀ s, pass s ≠ .err .conflict) →
      ∀ fuel s, fixLoop pass fuel s ≠ .err .conflict := by
    intro pass hp fuel
    induction fuel with
    | zero => intro s; simp [fixLoop]
    | succ n ih =>
      intro s h
      simp only [fixLoop] at h
      rw [Res.bind_eq_err] at h
      rcases h with h | ⟨⟨s', ch⟩, _, h⟩
      · exact hp _ h
      · cases ch with
        | false => simp at h
        | true => exact ih s' (by simpa using h)
  have heach : ∀ {σ : Type} (f : Nat → σ → R σ) (_ : ∀ i s, f i s ≠ .err .conflict) (is : List Nat)
      (s : σ), forEach f is s ≠ .err .conflict := by
    intro σ f hf is
    induction is with
    | nil => intro s; simp [forEach]
    | cons i is ih =>
      intro s h
      simp only [forEach] at h
      rw [Res.bind_eq_err] at h
      rcases h with h | ⟨m, _, h⟩
      · exact hf _ _ h
      · exact ih _ h
  have hadd : ∀ i S st, addFollows i S st ≠ .err .conflict := by
    intro i S st h
    unfold addFollows at h
    rw [Res.bind_eq_err] at h
    rcases h with h | ⟨c, _, h⟩
    · exact hidx _ _ h
    · split at h
      · simp at h
      · rw [Res.bind_eq_err] at h
        rcases h with h | ⟨_, _, h⟩
        · exact hset _ _ _ h
        · simp at h
  have hseq : ∀ firsts syms res fl n,
      sequenceFirstsLoop (newGen g) firsts n syms res fl ≠ .err .conflict := by
    intro firsts syms
    induction syms with
    | nil => intros; simp [sequenceFirstsLoop]
    | cons x rest ih =>
      intro res fl n
      cases x with
      | terminal t => cases t <;> simp [sequenceFirstsLoop, terminalFirsts]
      | nothing => simp only [sequenceFirstsLoop]; split <;> simp
      | nonTerminal name =>
        simp only [sequenceFirstsLoop]
        split
        · simp
        · rw [ne_eq, Res.bind_eq_err]
          rintro (h | ⟨a, _, h⟩)
          · exact hidx _ _ h
          · split at h
            · simp at h
            · exact ih _ _ _ h
  have hsub : ∀ firsts ss res, substitutionFirstsLoop (newGen g) firsts ss res ≠ .err .conflict := by
    intro firsts ss
    induction ss with
    | nil => intros; simp [substitutionFirstsLoop]
    | cons s ss ih =>
      intro res h
      simp only [substitutionFirstsLoop] at h
      rw [Res.bind_eq_err] at h
      rcases h with h | ⟨_, _, h⟩
      · exact hseq _ _ _ _ _ h
      · exact ih _ h
  have hsym : ∀ firsts x, symbolFirsts (newGen g) firsts x ≠ .err .conflict := by
    intro firsts x h
    cases x with
    | terminal t => cases t <;> simp [symbolFirsts, terminalFirsts] at h
    | nothing => simp [symbolFirsts] at h
    | nonTerminal name =>
      simp only [symbolFirsts] at h
      split at h
      · simp at h
      · exact hidx _ _ h
  have hinner : ∀ firsts i j hd x next st,
      followsInner (newGen g) firsts i j hd x next st ≠ .err .conflict := by
    intro firsts i j hd x next st h
    by_cases hx : x = .nonTerminal hd
    · subst hx
      simp only [followsInner, ne_eq, not_true_eq_false, if_false] at h
      rw [Res.bind_eq_err] at h
      rcases h with h | ⟨S, _, h⟩
      · exact hsym _ _ h
      rw [Res.bind_eq_err] at h
      rcases h with h | ⟨st1, _, h⟩
      · unfold innerNull at h
        split at h
        · rw [Res.bind_eq_err] at h
          rcases h with h | ⟨F, _, h⟩
          · exact hidx _ _ h
          rw [Res.bind_eq_err] at h
          rcases h with h | ⟨_, _, h⟩
          · exact hadd _ _ _ h
          · simp at h
        · simp at h
      rw [Res.bind_eq_err] at h
      rcases h with h | ⟨_, _, h⟩
      · exact hadd _ _ _ h
      · simp at h
    · rw [followsInner_other hx] at h; simp at h
  have hinnerL : ∀ firsts i j hd rev next st,
      followsInnerLoop (newGen g) firsts i j hd next rev st ≠ .err .conflict := by
    intro firsts i j hd rev
    induction rev with
    | nil => intro next st; simp [followsInnerLoop]
    | cons x rev ih =>
      intro next st h
      simp only [followsInnerLoop] at h
      rw [Res.bind_eq_err] at h
      rcases h with h | ⟨_, _, h⟩
      · exact hinner _ _ _ _ _ _ _ h
      · exact ih _ _ h
  have hinSeq : ∀ firsts i j s st, ruleFollowsInSequence (newGen g) firsts i s j st ≠ .err .conflict := by
    intro firsts i j s st h
    unfold ruleFollowsInSequence at h
    rw [Res.bind_eq_err] at h
    rcases h with h | ⟨r, _, h⟩
    · exact hidx _ _ h
    split at h
    · simp at h
    · rw [Res.bind_eq_err] at h
      rcases h with h | ⟨⟨st1, ret⟩, _, h⟩
      · unfold followsLast at h
        split at h
        · split at h
          · split at h
            · simp at h
            · rw [Res.bind_eq_err] at h
              rcases h with h | ⟨_, _, h⟩
              · exact hidx _ _ h
              · exact hadd _ _ _ h
          · simp at h
        · simp at h
      · cases ret with
        | true => simp at h
        | false => exact hinnerL _ _ _ _ _ _ _ (by simpa using h)
  have hseqs : ∀ firsts i j ss st, followsSequences (newGen g) firsts i j ss st ≠ .err .conflict := by
    intro firsts i j ss
    induction ss with
    | nil => intro st; simp [followsSequences]
    | cons s ss ih =>
      intro st h
      simp only [followsSequences] at h
      rw [Res.bind_eq_err] at h
      rcases h with h | ⟨_, _, h⟩
      · exact hinSeq _ _ _ _ _ h
      · exact ih _ h
  refine ⟨fun s h => ?_, fun firsts s h => ?_⟩
  · unfold findFirsts at h
    rw [findFirstsLoop_eq] at h
    refine hfix _ ?_ _ _ h
    intro s
    refine heach _ ?_ _ _
    intro i st h
    unfold ruleFirsts at h
    split at h
    · simp at h
    · rw [Res.bind_eq_err] at h
      rcases h with h | ⟨r, _, h⟩
      · exact hidx _ _ h
      rw [Res.bind_eq_err] at h
      rcases h with h | ⟨T, _, h⟩
      · exact hsub _ _ _ h
      rw [Res.bind_eq_err] at h
      rcases h with h | ⟨c, _, h⟩
      · exact hidx _ _ h
      split at h
      · simp at h
      · rw [Res.bind_eq_err] at h
        rcases h with h | ⟨_, _, h⟩
        · exact hset _ _ _ h
        · simp at h
  · unfold findFollows at h
    rw [Res.bind_eq_err] at h
    rcases h with h | ⟨_, _, h⟩
    · exact hidx _ _ h
    rw [Res.bind_eq_err] at h
    rcases h with h | ⟨_, _, h⟩
    · exact hset _ _ _ h
    rw [findFollowsLoop_eq] at h
    refine hfix _ ?_ _ _ h
    intro s
    refine heach _ ?_ _ _
    intro i st
    refine heach _ ?_ _ _
    intro j st h
    unfold ruleFollowsInRule at h
    split at h
    · simp at h
    · split at h
      · simp at h
      · rw [Res.bind_eq_err] at h
        rcases h with h | ⟨_, _, h⟩
        · exact hidx _ _ h
        · exact hseqs _ _ _ _ _ h

/-- A reported clash is a clash, on any grammar. -/
theorem fromGrammar_rconflict {order : List (Str × Nat) → List (Str × Nat)} {g : Grammar}
    (h : fromGrammar order g = .err .conflict) : ∃ i, RClash g i := by
  unfold fromGrammar at h
  simp only at h
  rw [Res.bind_eq_err] at h
  rcases h with h | ⟨_, _, h⟩
  · unfold run at h
    rw [Res.bind_eq_err] at h
    rcases h with h | ⟨firsts, h1, h⟩
    · exact ((fixpoints_ne_conflict g).1 _ h).elim
    rw [Res.bind_eq_err] at h
    rcases h with h | ⟨follows, h2, h⟩
    · exact ((fixpoints_ne_conflict g).2 _ _ h).elim
    · have hx := findFirsts_ok h1
      have hl := findFollows_ok hx h2
      unfold makeTable at h
      have key : ∀ (is : List Nat) (t : Table),
          forEach (fun ruleIndex (table : Table) => do
            let row ← makeTableRow (newGen g) firsts follows ruleIndex
            return table.set (ruleIndex : Int) row) is t = .err .conflict → ∃ i, RClash g i := by
        intro is
        induction is with
        | nil => intro t h; simp [forEach] at h
        | cons i is ih =>
          intro t h
          simp only [forEach] at h
          rw [Res.bind_eq_err] at h
          rcases h with h | ⟨m, _, h⟩
          · rw [Res.bind_eq_err] at h
            rcases h with h | ⟨_, _, h⟩
            · exact ⟨i, makeTableRow_conflict hx hl h⟩
            · simp at h
          · exact ih _ h
      exact key _ _ h
  · simp at h

/-- A reported clash is a clash. -/
theorem fromGrammar_conflict {order : List (Str × Nat) → List (Str × Nat)} {g : Grammar}
    (hz : g.NulStartFree) (h : fromGrammar order g = .err .conflict) : ∃ i, Clash g i := by
  simpa only [rclash_iff hz] using fromGrammar_rconflict h

/-! ## Row names -/

theorem enumerate_functional (g : Grammar) (k : Str) (v : Nat) (h : (k, v) ∈ (newGen g).ruleMap) :
    (newGen g).ruleMap.get k = some v := by
  have key : ∀ (ss : List Str) (i : Nat) (m : GoMap Str Nat),
      (∀ k v, (k, v) ∈ m → m.get k = some v) →
      ∀ k v, (k, v) ∈ enumerateFrom i ss m → (enumerateFrom i ss m).get k = some v := by
    intro ss
    induction ss with
    | nil => intro i m hm; exact hm
    | cons s ss ih =>
      intro i m hm
      refine ih (i + 1) (m.set s i) ?_
      intro k v hkv
      rw [GoMap.get_set]
      unfold GoMap.set at hkv
      rcases List.mem_cons.1 hkv with h | h
      · cases h; simp
      · rw [List.mem_filter] at h
        have hk : k ≠ s := by simpa using h.2
        rw [if_neg hk]
        exact hm k v h.1
  exact key _ 0 [] (by simp) k v h

theorem get_rowNames : ∀ (l : List (Str × Nat)) (m : Names),
    (∀ k k' v, (k, v) ∈ l → (k', v) ∈ l → k = k') → ∀ (n : Int) (k : Str),
    (rowNames l m).get n = some k ↔
      (∃ v : Nat, n = v ∧ (k, v) ∈ l) ∨ ((∀ k' (v : Nat), (k', v) ∈ l → n ≠ v) ∧ m.get n = some k) := by
  intro l
  induction l with
  | nil => intro m _ n k; simp [rowNames]
  | cons e l ih =>
    obtain ⟨k0, v0⟩ := e
    intro m hu n k
    simp only [rowNames]
    rw [ih _ (fun k k' v h h' => hu k k' v (List.mem_cons_of_mem _ h) (List.mem_cons_of_mem _ h')) n k]
    constructor
    · rintro (⟨v, hn, hm⟩ | ⟨hn, hg⟩)
      · exact .inl ⟨v, hn, List.mem_cons_of_mem _ hm⟩
      · rw [GoMap.get_set] at hg
        split at hg
        · rename_i hn0
          cases hg
          exact .inl ⟨v0, hn0, by simp⟩
        · rename_i hn0
          right
          refine ⟨?_, hg⟩
          intro k' v hkv
          rcases List.mem_cons.1 hkv with h | h
          · cases h; exact hn0
          · exact hn k' v h
    · rintro (⟨v, hn, hm⟩ | ⟨hn, hg⟩)
      · by_cases hl : ∃ k', (k', v) ∈ l
        · obtain ⟨k', hk'⟩ := hl
          have : k' = k := hu k' k v (List.mem_cons_of_mem _ hk') hm
          subst this
          exact .inl ⟨v, hn, hk'⟩
        · rcases List.mem_cons.1 hm with h | h
          · cases h
            right
            refine ⟨?_, ?_⟩
            · intro k' v' hkv hnv
              have : v0 = v' := by omega
              subst this
              exact hl ⟨k', hkv⟩
            · rw [GoMap.get_set, if_pos hn]
          · exact absurd ⟨k, h⟩ hl
      · right
        refine ⟨fun k' v h => hn k' v (List.mem_cons_of_mem _ h), ?_⟩
        rw [GoMap.get_set, if_neg (hn k0 v0 (by simp))]
        exact hg

theorem fromGrammar_names {order : List (Str × Nat) → List (Str × Nat)} {g : Grammar} {tbl : Table}
    {names : Names} (ho : ∀ l, (order l).Perm l) (h : fromGrammar order g = .ok (tbl, names))
    (n : Int) (k : Str) : names.get n = some k ↔ ∃ i : Nat, n = i ∧ g.Refers k i := by
  obtain ⟨_, _, _, _, _, rfl⟩ := fromGrammar_parts h
  have hmem : ∀ k v, (k, v) ∈ order (newGen g).ruleMap ↔ g.Refers k v := by
    intro k v
    rw [(ho _).mem_iff, ← get_ruleMap]
    exact ⟨enumerate_functional g k v, GoMap.mem_of_get_eq_some⟩
  rw [get_rowNames]
  · simp only [hmem, GoMap.get_nil, reduceCtorEq, and_false, or_false]
  · intro k k' v h h'
    rw [hmem] at h h'
    obtain ⟨⟨r, hr, hk⟩, _⟩ := h
    obtain ⟨⟨r', hr', hk'⟩, _⟩ := h'
    rw [hr] at hr'; cases hr'
    rw [← hk, ← hk']

end TG
end LL1
