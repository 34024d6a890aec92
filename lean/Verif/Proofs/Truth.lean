import Verif.Proofs.TableTop

/-!
# What an error or panic of `FromGrammar` says about the grammar
-/

namespace LL1
namespace TG

/-- What each error claims. -/
def ErrTrue (g : Grammar) : Err → Prop
  | .nothingNotAlone => ∃ i alt, g.Alt i alt ∧ .nothing ∈ alt.symbols ∧ alt.symbols ≠ [.nothing]
  | .undefined name => (∃ i alt, g.Alt i alt ∧ .nonTerminal name ∈ alt.symbols) ∧ ∀ j, ¬ g.Head j name
  | .ruleIndex => False
  | .emptyTerminal => ∃ i alt, g.Alt i alt ∧ .terminal [] ∈ alt.symbols
  | .emptySequence => ∃ i alt, g.Alt i alt ∧ alt.symbols = []
  | .conflict => True

/-- Every error of the computation is true of the grammar; a panic "unreachable" as well. -/
def Blame (g : Grammar) {α : Type} (r : R α) : Prop :=
  (∀ e, r = .err e → ErrTrue g e) ∧ (r = .panic .unreachable → ErrTrue g .nothingNotAlone)

variable {g : Grammar} {α β : Type}

theorem Blame.ok (a : α) : Blame g (.ok a) := ⟨fun _ h => (by cases h), fun h => (by cases h)⟩
theorem Blame.pure (a : α) : Blame g (Pure.pure a : R α) := Blame.ok a
theorem Blame.err {e : Err} (h : ErrTrue g e) : Blame g (.err e : R α) :=
  ⟨fun _ h' => (by cases h'; exact h), fun h => (by cases h)⟩
theorem Blame.diverge : Blame g (.diverge : R α) := ⟨fun _ h => (by cases h), fun h => (by cases h)⟩

theorem Blame.bind {x : R α} {f : α → R β} (hx : Blame g x) (hf : ∀ a, x = .ok a → Blame g (f a)) :
    Blame g (x >>= f) := by
  cases x with
  | ok a => exact hf a rfl
  | err e => exact .err (hx.1 e rfl)
  | panic p => exact ⟨fun _ h => (by cases h), fun h => hx.2 (by simpa using h)⟩
  | diverge => exact .diverge

theorem Blame.idx {xs : List α} {i : Nat} : Blame g (idx xs i) := by
  unfold TG.idx; split
  · exact .ok _
  · exact ⟨fun _ h => (by cases h), fun h => (by cases h)⟩

theorem Blame.setIdx {xs : List α} {i : Nat} {a : α} : Blame g (setIdx xs i a) := by
  unfold TG.setIdx; split
  · exact .ok _
  · exact ⟨fun _ h => (by cases h), fun h => (by cases h)⟩

theorem Blame.terminalFirsts (t : Str) : Blame g (terminalFirsts t) := by
  unfold TG.terminalFirsts; split
  · exact ⟨fun _ h => (by cases h), fun h => (by cases h)⟩
  · exact .ok _

theorem Blame.bytesOf (s : ByteSet) : Blame g (bytesOf s) := by
  unfold TG.bytesOf; split
  · exact .ok _
  · exact .diverge

theorem Blame.undefined {i : Nat} {alt : Sequence} {name : Str} (ha : g.Alt i alt)
    (hm : .nonTerminal name ∈ alt.symbols) (hg : (newGen g).ruleMap.get name = none) : ErrTrue g (.undefined name) := by
  refine ⟨⟨i, alt, ha, hm⟩, fun j hj => ?_⟩
  obtain ⟨k, hk⟩ := refers_of_head hj
  rw [(get_ruleMap g name k).2 hk] at hg
  cases hg

theorem Blame.sequenceFirstsLoop {firsts : List ByteSet} {n : Nat} {i : Nat} {alt : Sequence} (ha : g.Alt i alt)
    (hn : n = alt.symbols.length) (syms : List Symbol) (hs : ∀ x ∈ syms, x ∈ alt.symbols) (res : ByteSet) (e : Bool) :
    Blame g (sequenceFirstsLoop (newGen g) firsts n syms res e) := by
  induction syms generalizing res e with
  | nil => exact .ok _
  | cons x syms ih =>
    match x, hs with
    | .terminal t, _ => exact (Blame.terminalFirsts t).bind fun _ _ => .pure _
    | .nothing, hs =>
      simp only [TG.sequenceFirstsLoop]
      split
      · refine .err ⟨i, alt, ha, hs _ (.head _), ?_⟩
        intro h
        rw [h] at hn
        simp at hn
        omega
      · exact .ok _
    | .nonTerminal name, hs =>
      simp only [TG.sequenceFirstsLoop]
      cases hg : (newGen g).ruleMap.get name with
      | none => exact .err (Blame.undefined ha (hs _ (.head _)) hg)
      | some k =>
        refine Blame.idx.bind fun a _ => ?_
        split
        · exact .ok _
        · exact ih (fun x hx => hs x (.tail _ hx)) _ _

theorem Blame.sequenceFirsts {firsts : List ByteSet} {i : Nat} {alt : Sequence} (ha : g.Alt i alt) :
    Blame g (sequenceFirsts (newGen g) firsts alt) :=
  Blame.sequenceFirstsLoop ha rfl _ (fun _ h => h) _ _

theorem Blame.forEach {σ : Type} {f : Nat → σ → R σ} (l : List Nat) (h : ∀ i ∈ l, ∀ s, Blame g (f i s)) (s : σ) :
    Blame g (forEach f l s) := by
  induction l generalizing s with
  | nil => exact .ok _
  | cons i l ih => exact (h i (.head _) s).bind fun a _ => ih (fun i hi => h i (.tail _ hi)) a

theorem Blame.substLoop {firsts : List ByteSet} {i : Nat} (ss : List Sequence) (h : ∀ s ∈ ss, g.Alt i s)
    (res : ByteSet) : Blame g (substitutionFirstsLoop (newGen g) firsts ss res) := by
  induction ss generalizing res with
  | nil => exact .ok _
  | cons s ss ih =>
    exact (Blame.sequenceFirsts (h s (.head _))).bind fun a _ => ih (fun s hs => h s (.tail _ hs)) _

theorem Blame.ruleFirsts {i : Nat} (hi : i < g.rules.length) (st : List ByteSet × Bool) :
    Blame g (ruleFirsts (newGen g) i st) := by
  unfold TG.ruleFirsts
  split
  · next h => simp [newGen, collectRuleHeads] at h; omega
  · refine Blame.idx.bind fun r hr => ?_
    rw [idx_ok] at hr
    refine (Blame.substLoop _ (fun s hs => ⟨r, hr, hs⟩) _).bind fun T _ => ?_
    refine Blame.idx.bind fun c _ => ?_
    split
    · exact .pure _
    · exact Blame.setIdx.bind fun d _ => .pure _

theorem Blame.findFirstsLoop (fuel : Nat) (firsts : List ByteSet) :
    Blame g (findFirstsLoop (newGen g) fuel firsts) := by
  induction fuel generalizing firsts with
  | zero => exact .diverge
  | succ fuel ih =>
    unfold TG.findFirstsLoop TG.firstsPass
    refine (Blame.forEach _ (fun i hi s => Blame.ruleFirsts (by simpa using hi) s) _).bind fun a _ => ?_
    obtain ⟨fs, c⟩ := a
    dsimp only
    split
    · exact ih _
    · exact .pure _

theorem Blame.symbolFirsts {firsts : List ByteSet} {i : Nat} {alt : Sequence} (ha : g.Alt i alt) (x : Symbol)
    (hx : x ∈ alt.symbols) : Blame g (symbolFirsts (newGen g) firsts x) := by
  cases x with
  | terminal t =>
    simp only [TG.symbolFirsts]
    split
    · next h =>
      obtain rfl := List.length_eq_zero_iff.1 h
      exact .err ⟨i, alt, ha, hx⟩
    · exact Blame.terminalFirsts t
  | nothing => exact .ok _
  | nonTerminal name =>
    simp only [TG.symbolFirsts]
    cases hg : (newGen g).ruleMap.get name with
    | none => exact .err (Blame.undefined ha hx hg)
    | some k => exact Blame.idx

theorem Blame.addFollows {i : Nat} {s : ByteSet} {st : FState} : Blame g (addFollows i s st) := by
  unfold TG.addFollows
  refine Blame.idx.bind fun c _ => ?_
  split
  · exact .pure _
  · exact Blame.setIdx.bind fun d _ => .pure _

theorem Blame.followsInner {firsts : List ByteSet} {k : Nat} {alt : Sequence} (ha : g.Alt k alt) {i j : Nat} {hd : Str}
    {x next : Symbol} (hn : next ∈ alt.symbols) {st : FState} :
    Blame g (followsInner (newGen g) firsts i j hd x next st) := by
  unfold TG.followsInner
  split
  · split
    · exact .ok _
    · refine (Blame.symbolFirsts ha next hn).bind fun a _ => ?_
      refine Blame.bind ?_ fun b _ => ?_
      · unfold innerNull
        split
        · refine Blame.idx.bind fun c _ => ?_
          exact Blame.addFollows.bind fun d _ => .pure _
        · exact .pure _
      · exact Blame.addFollows.bind fun d _ => .pure _
  · exact .ok _

theorem Blame.innerLoop {firsts : List ByteSet} {k : Nat} {alt : Sequence} (ha : g.Alt k alt) {i j : Nat} {hd : Str}
    (rev : List Symbol) (next : Symbol) (hn : next ∈ alt.symbols) (hr : ∀ x ∈ rev, x ∈ alt.symbols) (st : FState) :
    Blame g (followsInnerLoop (newGen g) firsts i j hd next rev st) := by
  induction rev generalizing next st with
  | nil => exact .ok _
  | cons x rev ih =>
    exact (Blame.followsInner ha hn).bind fun a _ =>
      ih x (hr x (.head _)) (fun y hy => hr y (.tail _ hy)) a

theorem Blame.inSequence {firsts : List ByteSet} {k : Nat} {alt : Sequence} (ha : g.Alt k alt) {i j : Nat}
    {st : FState} : Blame g (ruleFollowsInSequence (newGen g) firsts i alt j st) := by
  unfold ruleFollowsInSequence
  refine Blame.idx.bind fun r _ => ?_
  split
  · next h => exact .err ⟨k, alt, ha, by simpa using h⟩
  · next last rev h =>
    have hmem : ∀ x ∈ last :: rev, x ∈ alt.symbols := by
      intro x hx; rw [← h] at hx; exact List.mem_reverse.1 hx
    refine Blame.bind ?_ fun a _ => ?_
    · unfold followsLast
      split
      · split
        · split
          · exact .ok _
          · exact Blame.idx.bind fun _ _ => Blame.addFollows
        · exact .ok _
      · exact .ok _
    · obtain ⟨m, ret⟩ := a
      dsimp only
      split
      · exact .pure _
      · exact Blame.innerLoop ha _ _ (hmem _ (.head _)) (fun x hx => hmem x (.tail _ hx)) _

theorem Blame.followsSequences {firsts : List ByteSet} {k i j : Nat} (ss : List Sequence) (h : ∀ s ∈ ss, g.Alt k s)
    (st : FState) : Blame g (followsSequences (newGen g) firsts i j ss st) := by
  induction ss generalizing st with
  | nil => exact .ok _
  | cons s ss ih =>
    exact (Blame.inSequence (h s (.head _))).bind fun a _ => ih (fun s hs => h s (.tail _ hs)) a

theorem Blame.inRule {firsts : List ByteSet} {i j : Nat} (hi : i < g.rules.length) (hj : j < g.rules.length)
    (st : FState) : Blame g (ruleFollowsInRule (newGen g) firsts i j st) := by
  unfold ruleFollowsInRule
  split
  · next h => simp [newGen, collectRuleHeads] at h; omega
  · split
    · next h => simp [newGen, collectRuleHeads] at h; omega
    · refine Blame.idx.bind fun r hr => ?_
      rw [idx_ok] at hr
      exact Blame.followsSequences _ (fun s hs => ⟨r, hr, hs⟩) _

theorem Blame.findFollowsLoop {firsts : List ByteSet} (fuel : Nat) (follows : List ByteSet) :
    Blame g (findFollowsLoop (newGen g) firsts fuel follows) := by
  induction fuel generalizing follows with
  | zero => exact .diverge
  | succ fuel ih =>
    unfold TG.findFollowsLoop TG.followsPass
    refine (Blame.forEach _ (fun i hi s => Blame.forEach _ (fun j hj s =>
      Blame.inRule (by simpa using hi) (by simpa using hj) s) _) _).bind fun a _ => ?_
    obtain ⟨fs, c⟩ := a
    dsimp only
    split
    · exact ih _
    · exact .pure _

theorem Blame.addEmptyCells (l : List UInt8) (row : Row) : Blame g (addEmptyCells l row) := by
  induction l generalizing row with
  | nil => exact .ok _
  | cons b l ih =>
    rw [TG.addEmptyCells]
    split
    · exact .err trivial
    · exact ih _

/-- Both the error and the panic of `addSymbols`; `syms` is the rest of an alternative that begins with something else
or is not predicted by a byte of its own. -/
theorem Blame.addSymbols {k : Nat} {alt : Sequence} (ha : g.Alt k alt) (hne : alt.symbols ≠ [.nothing]) (b : UInt8)
    (syms : List Symbol) (hs : ∀ x ∈ syms, x ∈ alt.symbols) (row : Row) :
    Blame g (addSymbols (newGen g) b syms row) := by
  induction syms generalizing row with
  | nil => exact .ok _
  | cons x syms ih =>
    match x, hs with
    | .terminal t, hs => exact ih (fun x hx => hs x (.tail _ hx)) _
    | .nothing, hs => exact ⟨fun _ h => (by cases h), fun _ => ⟨k, alt, ha, hs _ (.head _), hne⟩⟩
    | .nonTerminal name, hs =>
      simp only [TG.addSymbols]
      cases hg : (newGen g).ruleMap.get name with
      | none => exact .err (Blame.undefined ha (hs _ (.head _)) hg)
      | some k => exact ih (fun x hx => hs x (.tail _ hx)) _

theorem Blame.addFirstCells {k : Nat} {alt : Sequence} (ha : g.Alt k alt) (l : List UInt8)
    (hne : l ≠ [] → alt.symbols ≠ [.nothing]) (row : Row) : Blame g (addFirstCells (newGen g) alt l row) := by
  induction l generalizing row with
  | nil => exact .ok _
  | cons b l ih =>
    exact (Blame.addSymbols ha (hne (by simp)) b _ (fun _ h => h) row).bind fun a _ => ih (fun _ => hne (by simp)) a

theorem Blame.addSequence {firsts follows : List ByteSet} {i : Nat} {alt : Sequence} (ha : g.Alt i alt) (row : Row) :
    Blame g (addSequence (newGen g) firsts follows i alt row) := by
  unfold TG.addSequence
  refine (Blame.sequenceFirsts ha).bind fun S hS => ?_
  have only : alt.symbols = [.nothing] → ∀ b, S.contains b = true ↔ b = 0 := by
    intro h b
    rw [TG.sequenceFirsts, h] at hS
    simp only [TG.sequenceFirstsLoop, List.length_cons, List.length_nil, gt_iff_lt,
      Nat.lt_irrefl, if_false, Res.ok.injEq, Nat.zero_add] at hS
    rw [← hS, ByteSet.contains_add, ByteSet.contains_new]
    by_cases hb : b = 0
    · simp [hb, EOS]
    · simp [hb, EOS]
  split
  · refine Blame.idx.bind fun F _ => ?_
    refine (Blame.bytesOf _).bind fun fb _ => ?_
    refine (Blame.addEmptyCells _ _).bind fun row1 _ => ?_
    refine (Blame.bytesOf _).bind fun bs hbs => ?_
    refine Blame.addFirstCells ha bs (fun hne h => ?_) _
    obtain ⟨b, l, rfl⟩ := List.exists_cons_of_ne_nil hne
    have hb : (S.remove EOS).contains b = true := by
      unfold TG.bytesOf at hbs
      cases hby : (S.remove EOS).bytes with
      | none => rw [hby] at hbs; cases hbs
      | some l' =>
        rw [hby] at hbs
        cases hbs
        exact (ByteSet.mem_bytes hby b).1 (.head _)
    rw [ByteSet.contains_remove] at hb
    by_cases h0 : b = EOS
    · simp [h0] at hb
    · have : S.contains b = true := by simpa [h0] using hb
      exact h0 ((only h b).1 this)
  · next hc =>
    refine (Blame.bytesOf _).bind fun bs hbs => ?_
    refine Blame.addFirstCells ha bs (fun hne h => ?_) _
    exact hc ((only h 0).2 rfl)

theorem Blame.addSequences {firsts follows : List ByteSet} {i : Nat} (ss : List Sequence) (h : ∀ s ∈ ss, g.Alt i s)
    (row : Row) : Blame g (addSequences (newGen g) firsts follows i ss row) := by
  induction ss generalizing row with
  | nil => exact .ok _
  | cons s ss ih =>
    exact (Blame.addSequence (h s (.head _)) row).bind fun a _ => ih (fun s hs => h s (.tail _ hs)) a

theorem Blame.fromGrammar (order : List (Str × Nat) → List (Str × Nat)) (g : Grammar) :
    Blame g (fromGrammar order g) := by
  unfold LL1.fromGrammar
  refine Blame.bind ?_ fun a _ => .pure _
  unfold run TG.findFirsts TG.findFollows TG.makeTable
  refine (Blame.findFirstsLoop _ _).bind fun firsts _ => ?_
  refine Blame.bind ?_ fun follows _ => ?_
  · refine Blame.idx.bind fun f0 _ => ?_
    exact Blame.setIdx.bind fun fs _ => Blame.findFollowsLoop _ _
  · refine Blame.forEach _ (fun i _ tbl => ?_) _
    refine Blame.bind ?_ fun row _ => .pure _
    unfold makeTableRow
    refine Blame.idx.bind fun r hr => ?_
    rw [idx_ok] at hr
    exact Blame.addSequences _ (fun s hs => ⟨r, hr, hs⟩) _

/-! ## Index out of range -/

theorem addFirstCells_no_index {tg : Gen} {alt : Sequence} : ∀ (bs : List UInt8) (res : Row),
    addFirstCells tg alt bs res ≠ .panic .indexOutOfRange := by
  have hs : ∀ (b : UInt8) (syms : List Symbol) (row : Row), addSymbols tg b syms row ≠ .panic .indexOutOfRange := by
    intro b syms
    induction syms with
    | nil => intro row; simp [TG.addSymbols]
    | cons x syms ih =>
      intro row
      cases x with
      | terminal t => exact ih _
      | nothing => simp [TG.addSymbols]
      | nonTerminal n =>
        simp only [TG.addSymbols]
        split
        · simp
        · exact ih _
  intro bs
  induction bs with
  | nil => intro res; simp [TG.addFirstCells]
  | cons b bs ih =>
    intro res h
    simp only [TG.addFirstCells] at h
    rcases Res.bind_eq_panic.1 h with h | ⟨a, _, h⟩
    · exact hs _ _ _ h
    · exact ih _ h

theorem makeTable_no_index (ht : g.NoEmptyTerminal) {firsts follows : List ByteSet}
    (hlen : firsts.length = g.rules.length) (hlen' : follows.length = g.rules.length) :
    makeTable (newGen g) firsts follows ≠ .panic .indexOutOfRange := by
  have each : ∀ (l : List Nat) (tbl : Table), (∀ i ∈ l, i < g.rules.length) →
      TG.forEach (fun ruleIndex (table : Table) => do
        let row ← makeTableRow (newGen g) firsts follows ruleIndex
        return table.set (ruleIndex : Int) row) l tbl ≠ .panic .indexOutOfRange := by
    intro l
    induction l with
    | nil => intro tbl _; simp [TG.forEach]
    | cons i l ih =>
      intro tbl hl h
      have hi := hl i (.head _)
      simp only [TG.forEach] at h
      rcases Res.bind_eq_panic.1 h with h | ⟨a, _, h⟩
      · rcases Res.bind_eq_panic.1 h with h | ⟨a, _, h⟩
        · unfold makeTableRow at h
          rcases Res.bind_eq_panic.1 h with h | ⟨r, hr, h⟩
          · exact NP.idx (xs := (newGen g).g.rules) (by simpa using hi) _ h
          · rw [idx_ok] at hr
            have key : ∀ (ss : List Sequence) (row : Row), (∀ s ∈ ss, g.Alt i s) →
                TG.addSequences (newGen g) firsts follows i ss row ≠ .panic .indexOutOfRange := by
              intro ss
              induction ss with
              | nil => intro row _; simp [TG.addSequences]
              | cons s ss ih =>
                intro row ha h
                simp only [TG.addSequences] at h
                rcases Res.bind_eq_panic.1 h with h | ⟨a, _, h⟩
                · obtain ⟨F, _, hF⟩ := idx_lt (xs := follows) (i := i) (by rw [hlen']; exact hi)
                  cases hS : TG.sequenceFirsts (newGen g) firsts s with
                  | err e => unfold TG.addSequence at h; rw [hS] at h; cases h
                  | panic p =>
                    exact NP.seqLoop hlen _ _ _ (fun t htm => ht i s t (ha s (.head _)) htm) p hS
                  | diverge => exact sequenceFirsts_ne_diverge _ _ _ hS
                  | ok S =>
                    rw [addSequence_eq hS hF] at h
                    rcases Res.bind_eq_panic.1 h with h | ⟨a, _, h⟩
                    · split at h
                      · exact (addEmptyCells_ne _ _).2 _ h
                      · cases h
                    · exact addFirstCells_no_index _ _ h
                · exact ih _ (fun s hs => ha s (.tail _ hs)) h
            exact key _ _ (fun s hs => ⟨r, hr, hs⟩) h
        · simp at h
      · exact ih _ (fun i hi => hl i (.tail _ hi)) h
  exact each _ _ (fun i hi => by simpa using hi)

theorem fromGrammar_no_index (order : List (Str × Nat) → List (Str × Nat)) {g : Grammar} (h0 : g.rules ≠ [])
    (ht : g.NoEmptyTerminal) : LL1.fromGrammar order g ≠ .panic .indexOutOfRange := by
  intro h
  unfold LL1.fromGrammar at h
  simp only at h
  rcases Res.bind_eq_panic.1 h with h | ⟨a, _, h⟩
  · unfold run at h
    rcases Res.bind_eq_panic.1 h with h | ⟨firsts, hf, h⟩
    · exact NP.findFirsts ht _ h
    · have hlen : firsts.length = g.rules.length := by
        unfold TG.findFirsts at hf
        rw [findFirstsLoop_eq] at hf
        obtain ⟨_, _, hl, _⟩ := fixLoop_ok (P := fun _ => True) (fun _ _ h => firstsPass_grow h)
          (fun _ _ _ _ => trivial) _ _ _ trivial hf
        rw [hl]; simp [newSets]
      rcases Res.bind_eq_panic.1 h with h | ⟨follows, hfo, h⟩
      · exact NP.findFollows h0 hlen _ h
      · have hlen' : follows.length = g.rules.length := by
          unfold TG.findFollows at hfo
          rw [Res.bind_eq_ok] at hfo
          obtain ⟨f0, _, hfo⟩ := hfo
          rw [Res.bind_eq_ok] at hfo
          obtain ⟨fs, hfs, hfo⟩ := hfo
          rw [setIdx_ok] at hfs
          rw [findFollowsLoop_eq] at hfo
          obtain ⟨_, _, hl, _⟩ := fixLoop_ok (P := fun _ => True) (fun _ _ h => followsPass_grow h)
            (fun _ _ _ _ => trivial) _ _ _ trivial hfo
          rw [hl, hfs.2]; simp [newSets]
        exact makeTable_no_index ht hlen hlen' h
  · simp at h

end TG
end LL1
