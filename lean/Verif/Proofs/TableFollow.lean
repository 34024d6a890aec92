import Verif.Proofs.TableFirstExact

/-! # `findFollows` computes the next-symbol FOLLOW sets -/

namespace LL1
namespace TG

/-! ## Growth and termination -/

theorem addFollows_ok {i : Nat} {set : ByteSet} {st : FState} {r : FState × Bool}
    (h : addFollows i set st = .ok r) :
    ∃ cur, st.1[i]? = some cur ∧
      ((cur.isSuperSet set = true ∧ r = (st, false)) ∨
       (¬ cur.isSuperSet set = true ∧ r = ((st.1.set i (cur.union set), true), true))) := by
  unfold addFollows at h
  rw [Res.bind_eq_ok] at h
  obtain ⟨cur, hc, h⟩ := h
  refine ⟨cur, idx_ok.1 hc, ?_⟩
  split at h
  · rename_i hs
    simp only [Res.pure_eq, Res.ok.injEq] at h
    exact .inl ⟨hs, h.symm⟩
  · rename_i hs
    rw [Res.bind_eq_ok] at h
    obtain ⟨f, hf, h⟩ := h
    rw [setIdx_ok] at hf
    simp only [Res.pure_eq, Res.ok.injEq] at h
    exact .inr ⟨hs, by rw [← h, hf.2]⟩

theorem addFollows_grow {i : Nat} {set : ByteSet} {st : FState} {r : FState × Bool}
    (h : addFollows i set st = .ok r) : Grow st r.1 := by
  obtain ⟨cur, hc, h1 | h1⟩ := addFollows_ok h
  · rw [h1.2]; exact Grow.refl _
  · rw [h1.2]; exact grow_set hc h1.1

theorem addFollows_ne_diverge (i : Nat) (set : ByteSet) (st : FState) :
    addFollows i set st ≠ .diverge := by
  unfold addFollows
  intro h
  rw [Res.bind_eq_diverge] at h
  rcases h with h | ⟨c, _, h⟩
  · exact idx_ne_diverge _ _ h
  · split at h
    · simp at h
    · rw [Res.bind_eq_diverge] at h
      rcases h with h | ⟨_, _, h⟩
      · exact setIdx_ne_diverge _ _ _ h
      · simp at h

theorem followsLast_grow {i j : Nat} {hd : Str} {last : Symbol} {st : FState} {r : FState × Bool}
    (h : followsLast i j hd last st = .ok r) : Grow st r.1 := by
  unfold followsLast at h
  split at h
  · split at h
    · split at h
      · simp only [Res.ok.injEq] at h; subst h; exact Grow.refl _
      · rw [Res.bind_eq_ok] at h
        obtain ⟨F, _, h⟩ := h
        exact addFollows_grow h
    · simp only [Res.ok.injEq] at h; subst h; exact Grow.refl _
  · simp only [Res.ok.injEq] at h; subst h; exact Grow.refl _

theorem followsLast_ne_diverge (i j : Nat) (hd : Str) (last : Symbol) (st : FState) :
    followsLast i j hd last st ≠ .diverge := by
  unfold followsLast
  split
  · split
    · split
      · simp
      · rw [ne_eq, Res.bind_eq_diverge]
        rintro (h | ⟨_, _, h⟩)
        · exact idx_ne_diverge _ _ h
        · exact addFollows_ne_diverge _ _ _ h
    · simp
  · simp

theorem innerNull_ok {i j : Nat} {S : ByteSet} {st st' : FState} (h : innerNull i j S st = .ok st') :
    (¬ (S.contains 0 = true ∧ i ≠ j) ∧ st' = st) ∨
    (S.contains 0 = true ∧ i ≠ j ∧ ∃ F b, st.1[j]? = some F ∧ addFollows i F st = .ok (st', b)) := by
  unfold innerNull at h
  split at h
  · rename_i hc
    rw [Res.bind_eq_ok] at h
    obtain ⟨F, hF, h⟩ := h
    rw [Res.bind_eq_ok] at h
    obtain ⟨⟨m, fl⟩, hm, h⟩ := h
    simp only [Res.pure_eq, Res.ok.injEq] at h
    subst h
    simp only [EOS, Bool.and_eq_true, decide_eq_true_eq] at hc
    exact .inr ⟨hc.1, hc.2, F, fl, idx_ok.1 hF, hm⟩
  · rename_i hc
    simp only [Res.pure_eq, Res.ok.injEq] at h
    simp only [EOS, Bool.and_eq_true, decide_eq_true_eq] at hc
    exact .inl ⟨hc, h.symm⟩

theorem followsInner_nt {tg : Gen} {firsts : List ByteSet} {i j : Nat} {hd : Str} {next : Symbol}
    {st st' : FState} :
    followsInner tg firsts i j hd (.nonTerminal hd) next st = .ok st' ↔
    ∃ S st1 b, symbolFirsts tg firsts next = .ok S ∧ innerNull i j S st = .ok st1 ∧
      addFollows i (S.remove EOS) st1 = .ok (st', b) := by
  simp only [followsInner, ne_eq, not_true_eq_false, if_false]
  constructor
  · intro h
    rw [Res.bind_eq_ok] at h
    obtain ⟨S, hS, h⟩ := h
    rw [Res.bind_eq_ok] at h
    obtain ⟨st1, h1, h⟩ := h
    rw [Res.bind_eq_ok] at h
    obtain ⟨⟨st2, b⟩, h2, h⟩ := h
    simp only [Res.pure_eq, Res.ok.injEq] at h
    subst h
    exact ⟨S, st1, b, hS, h1, h2⟩
  · rintro ⟨S, st1, b, hS, h1, h2⟩
    rw [Res.bind_eq_ok]
    refine ⟨S, hS, ?_⟩
    rw [Res.bind_eq_ok]
    refine ⟨st1, h1, ?_⟩
    rw [Res.bind_eq_ok]
    exact ⟨(st', b), h2, rfl⟩

theorem followsInner_other {tg : Gen} {firsts : List ByteSet} {i j : Nat} {hd : Str} {x next : Symbol}
    {st : FState} (hx : x ≠ .nonTerminal hd) : followsInner tg firsts i j hd x next st = .ok st := by
  cases x with
  | nonTerminal name =>
    have : name ≠ hd := fun h => hx (by rw [h])
    simp [followsInner, this]
  | terminal t => rfl
  | nothing => rfl

theorem innerNull_grow {i j : Nat} {S : ByteSet} {st st' : FState} (h : innerNull i j S st = .ok st') :
    Grow st st' := by
  rcases innerNull_ok h with ⟨_, rfl⟩ | ⟨_, _, F, b, _, h⟩
  · exact Grow.refl _
  · exact addFollows_grow h

theorem followsInner_grow {tg : Gen} {firsts : List ByteSet} {i j : Nat} {hd : Str} {x next : Symbol}
    {st st' : FState} (h : followsInner tg firsts i j hd x next st = .ok st') : Grow st st' := by
  by_cases hx : x = .nonTerminal hd
  · subst hx
    obtain ⟨S, st1, b, hS, h1, h2⟩ := followsInner_nt.1 h
    exact (innerNull_grow h1).trans (addFollows_grow h2)
  · rw [followsInner_other hx] at h
    simp only [Res.ok.injEq] at h; subst h; exact Grow.refl _

theorem symbolFirsts_ne_diverge (tg : Gen) (firsts : List ByteSet) (x : Symbol) :
    symbolFirsts tg firsts x ≠ .diverge := by
  cases x with
  | terminal t =>
    cases t with
    | nil => simp [symbolFirsts]
    | cons c t => simp [symbolFirsts, terminalFirsts]
  | nothing => simp [symbolFirsts]
  | nonTerminal name =>
    simp only [symbolFirsts]
    split
    · simp
    · exact idx_ne_diverge _ _

theorem innerNull_ne_diverge (i j : Nat) (S : ByteSet) (st : FState) :
    innerNull i j S st ≠ .diverge := by
  unfold innerNull
  intro h
  split at h
  · rw [Res.bind_eq_diverge] at h
    rcases h with h | ⟨_, _, h⟩
    · exact idx_ne_diverge _ _ h
    rw [Res.bind_eq_diverge] at h
    rcases h with h | ⟨_, _, h⟩
    · exact addFollows_ne_diverge _ _ _ h
    · simp at h
  · simp at h

theorem followsInner_ne_diverge (tg : Gen) (firsts : List ByteSet) (i j : Nat) (hd : Str)
    (x next : Symbol) (st : FState) : followsInner tg firsts i j hd x next st ≠ .diverge := by
  by_cases hx : x = .nonTerminal hd
  · subst hx
    simp only [followsInner, ne_eq, not_true_eq_false, if_false]
    intro h
    rw [Res.bind_eq_diverge] at h
    rcases h with h | ⟨S, _, h⟩
    · exact symbolFirsts_ne_diverge _ _ _ h
    rw [Res.bind_eq_diverge] at h
    rcases h with h | ⟨st1, _, h⟩
    · exact innerNull_ne_diverge _ _ _ _ h
    rw [Res.bind_eq_diverge] at h
    rcases h with h | ⟨_, _, h⟩
    · exact addFollows_ne_diverge _ _ _ h
    · simp at h
  · rw [followsInner_other hx]; simp

theorem innerLoop_grow {tg : Gen} {firsts : List ByteSet} {i j : Nat} {hd : Str} :
    ∀ (rev : List Symbol) (next : Symbol) (st st' : FState),
      followsInnerLoop tg firsts i j hd next rev st = .ok st' → Grow st st' := by
  intro rev
  induction rev with
  | nil =>
    intro next st st' h
    simp only [followsInnerLoop, Res.ok.injEq] at h; subst h; exact Grow.refl _
  | cons x rev ih =>
    intro next st st' h
    simp only [followsInnerLoop] at h
    rw [Res.bind_eq_ok] at h
    obtain ⟨m, hm, h⟩ := h
    exact (followsInner_grow hm).trans (ih _ _ _ h)

theorem innerLoop_ne_diverge (tg : Gen) (firsts : List ByteSet) (i j : Nat) (hd : Str) :
    ∀ (rev : List Symbol) (next : Symbol) (st : FState),
      followsInnerLoop tg firsts i j hd next rev st ≠ .diverge := by
  intro rev
  induction rev with
  | nil => intro next st; simp [followsInnerLoop]
  | cons x rev ih =>
    intro next st
    simp only [followsInnerLoop]
    rw [ne_eq, Res.bind_eq_diverge]
    rintro (h | ⟨_, _, h⟩)
    · exact followsInner_ne_diverge _ _ _ _ _ _ _ _ h
    · exact ih _ _ h

/-- The parts of a successful `ruleFollowsInSequence`. -/
theorem inSequence_ok {tg : Gen} {firsts : List ByteSet} {i j : Nat} {alt : Sequence} {st st' : FState}
    (h : ruleFollowsInSequence tg firsts i alt j st = .ok st') :
    ∃ r init last st1 ret, tg.g.rules[i]? = some r ∧ alt.symbols = init ++ [last] ∧
      followsLast i j r.head last st = .ok (st1, ret) ∧
      ((ret = true ∧ st' = st1) ∨
       (ret = false ∧ followsInnerLoop tg firsts i j r.head last init.reverse st1 = .ok st')) := by
  unfold ruleFollowsInSequence at h
  rw [Res.bind_eq_ok] at h
  obtain ⟨r, hr, h⟩ := h
  split at h
  · simp at h
  · rename_i last rev hrev
    rw [Res.bind_eq_ok] at h
    obtain ⟨⟨st1, ret⟩, h1, h⟩ := h
    refine ⟨r, rev.reverse, last, st1, ret, idx_ok.1 hr, ?_, h1, ?_⟩
    · have := congrArg List.reverse hrev
      simpa using this
    · cases ret with
      | true => simp only [if_true, Res.pure_eq, Res.ok.injEq] at h; exact .inl ⟨rfl, h.symm⟩
      | false => simpa using h

theorem inSequence_grow {tg : Gen} {firsts : List ByteSet} {i j : Nat} {alt : Sequence}
    {st st' : FState} (h : ruleFollowsInSequence tg firsts i alt j st = .ok st') : Grow st st' := by
  obtain ⟨r, init, last, st1, ret, _, _, h1, ⟨_, rfl⟩ | ⟨_, h2⟩⟩ := inSequence_ok h
  · exact followsLast_grow h1
  · exact (followsLast_grow h1).trans (innerLoop_grow _ _ _ _ h2)

theorem inSequence_ne_diverge (tg : Gen) (firsts : List ByteSet) (i j : Nat) (alt : Sequence)
    (st : FState) : ruleFollowsInSequence tg firsts i alt j st ≠ .diverge := by
  unfold ruleFollowsInSequence
  intro h
  rw [Res.bind_eq_diverge] at h
  rcases h with h | ⟨r, _, h⟩
  · exact idx_ne_diverge _ _ h
  · split at h
    · simp at h
    · rw [Res.bind_eq_diverge] at h
      rcases h with h | ⟨⟨st1, ret⟩, _, h⟩
      · exact followsLast_ne_diverge _ _ _ _ _ h
      · cases ret with
        | true => simp at h
        | false => exact innerLoop_ne_diverge _ _ _ _ _ _ _ _ (by simpa using h)

theorem sequences_grow {tg : Gen} {firsts : List ByteSet} {i j : Nat} :
    ∀ (ss : List Sequence) (st st' : FState),
      followsSequences tg firsts i j ss st = .ok st' → Grow st st' := by
  intro ss
  induction ss with
  | nil =>
    intro st st' h
    simp only [followsSequences, Res.ok.injEq] at h; subst h; exact Grow.refl _
  | cons s ss ih =>
    intro st st' h
    simp only [followsSequences] at h
    rw [Res.bind_eq_ok] at h
    obtain ⟨m, hm, h⟩ := h
    exact (inSequence_grow hm).trans (ih _ _ h)

theorem sequences_ne_diverge (tg : Gen) (firsts : List ByteSet) (i j : Nat) :
    ∀ (ss : List Sequence) (st : FState), followsSequences tg firsts i j ss st ≠ .diverge := by
  intro ss
  induction ss with
  | nil => intro st; simp [followsSequences]
  | cons s ss ih =>
    intro st
    simp only [followsSequences]
    rw [ne_eq, Res.bind_eq_diverge]
    rintro (h | ⟨_, _, h⟩)
    · exact inSequence_ne_diverge _ _ _ _ _ _ h
    · exact ih _ h

theorem inRule_ok {tg : Gen} {firsts : List ByteSet} {i j : Nat} {st st' : FState}
    (h : ruleFollowsInRule tg firsts i j st = .ok st') :
    ∃ r, tg.g.rules[j]? = some r ∧ followsSequences tg firsts i j r.tail.sequences st = .ok st' := by
  unfold ruleFollowsInRule at h
  split at h
  · simp at h
  · split at h
    · simp at h
    · rw [Res.bind_eq_ok] at h
      obtain ⟨r, hr, h⟩ := h
      exact ⟨r, idx_ok.1 hr, h⟩

theorem inRule_grow {tg : Gen} {firsts : List ByteSet} {i j : Nat} {st st' : FState}
    (h : ruleFollowsInRule tg firsts i j st = .ok st') : Grow st st' := by
  obtain ⟨r, _, h⟩ := inRule_ok h
  exact sequences_grow _ _ _ h

theorem inRule_ne_diverge (tg : Gen) (firsts : List ByteSet) (i j : Nat) (st : FState) :
    ruleFollowsInRule tg firsts i j st ≠ .diverge := by
  unfold ruleFollowsInRule
  split
  · simp
  · split
    · simp
    · rw [ne_eq, Res.bind_eq_diverge]
      rintro (h | ⟨_, _, h⟩)
      · exact idx_ne_diverge _ _ h
      · exact sequences_ne_diverge _ _ _ _ _ _ h

theorem followsPass_grow {tg : Gen} {firsts s : List ByteSet} {s' : FState}
    (h : followsPass tg firsts s = .ok s') : Grow (s, false) s' :=
  forEach_grow (fun _ _ _ _ h1 => forEach_grow (fun _ _ _ _ h2 => inRule_grow h2) _ _ h1) _ _ h

theorem findFollows_ne_diverge (g : Grammar) (firsts : List ByteSet) :
    findFollows (newGen g) firsts (newSets (newGen g).ruleCount) ≠ .diverge := by
  unfold findFollows
  intro h
  rw [Res.bind_eq_diverge] at h
  rcases h with h | ⟨f0, _, h⟩
  · exact idx_ne_diverge _ _ h
  rw [Res.bind_eq_diverge] at h
  rcases h with h | ⟨fs, hfs, h⟩
  · exact setIdx_ne_diverge _ _ _ h
  rw [findFollowsLoop_eq] at h
  rw [setIdx_ok] at hfs
  refine fixLoop_ne_diverge ?_ (fun _ _ h => followsPass_grow h) _ _ ?_ h
  · intro s
    exact forEach_ne_diverge (fun _ _ _ => forEach_ne_diverge (fun _ _ _ => inRule_ne_diverge _ _ _ _ _) _) _
  · rw [hfs.2]; simp [newSets]; omega

/-! ## Meaning of `symbolFirsts` -/

theorem symbolFirsts_ok {g : Grammar} {firsts : List ByteSet} (hx : FExact g firsts) {x : Symbol}
    {S : ByteSet}
    (h : symbolFirsts (newGen g) firsts x = .ok S) :
    (∀ b, b ≠ 0 → (S.contains b = true ↔ RFirst g [x] b)) ∧
    (S.contains 0 = true ↔ RNullable g [x]) := by
  have hread : ReadOk g firsts [x] := by
    cases x with
    | terminal t =>
      simp only [ReadOk]
      intro ht; subst ht; simp [symbolFirsts] at h
    | nothing => simp [ReadOk]
    | nonTerminal name =>
      simp only [symbolFirsts] at h
      cases hg : (newGen g).ruleMap.get name with
      | none => simp [hg] at h
      | some i => exact ⟨i, (get_ruleMap g name i).1 hg, fun _ => trivial⟩
  refine ⟨fun b hb => ?_, ?_⟩
  · rw [← hx.firstC_iff hb hread]
    cases x with
    | terminal t =>
      cases t with
      | nil => simp [symbolFirsts] at h
      | cons c t =>
        simp [symbolFirsts, terminalFirsts] at h
        subst h
        simp only [ByteSet.contains_new, FirstC, List.head?_cons,
            Option.some.injEq, List.contains_iff_mem, List.mem_singleton]
        rw [@eq_comm _ b c]
    | nothing =>
      simp only [symbolFirsts, Res.ok.injEq] at h; subst h
      simp [ByteSet.contains_new, FirstC, EOS, hb]
    | nonTerminal name =>
      simp only [symbolFirsts] at h
      cases hg : (newGen g).ruleMap.get name with
      | none => simp [hg] at h
      | some i =>
        simp only [hg] at h
        rw [idx_ok] at h
        have href := (get_ruleMap g name i).1 hg
        constructor
        · intro hb'; exact ⟨i, href, .inl ⟨S, h, hb'⟩⟩
        · rintro ⟨i', href', h1 | ⟨_, h1⟩⟩
          · have := href.det href'; subst this
            obtain ⟨s, hs, hb'⟩ := h1
            rw [h] at hs; cases hs; exact hb'
          · exact absurd h1 (by simp [FirstC])
  · rw [← hx.nullC_iff hread]
    cases x with
    | terminal t =>
      cases t with
      | nil => simp [symbolFirsts] at h
      | cons c t =>
        simp [symbolFirsts, terminalFirsts] at h
        subst h
        simp only [ByteSet.contains_new, NullC, List.head?_cons, Option.some.injEq, List.contains_iff_mem,
          List.mem_singleton]
        rw [@eq_comm _ (0 : UInt8) c]
    | nothing =>
      simp only [symbolFirsts, Res.ok.injEq] at h; subst h
      simp [ByteSet.contains_new, NullC, EOS]
    | nonTerminal name =>
      simp only [symbolFirsts] at h
      cases hg : (newGen g).ruleMap.get name with
      | none => simp [hg] at h
      | some i =>
        simp only [hg] at h
        rw [idx_ok] at h
        have href := (get_ruleMap g name i).1 hg
        constructor
        · intro hb'; exact ⟨i, href, ⟨S, h, hb'⟩, trivial⟩
        · rintro ⟨i', href', h1, _⟩
          have := href.det href'; subst this
          obtain ⟨s, hs, hb'⟩ := h1
          rw [h] at hs; cases hs; exact hb'

/-! ## Soundness -/

/-- Everything in the FOLLOW sets is right. -/
def LSound (g : Grammar) (follows : List ByteSet) : Prop :=
  ∀ i b, Has follows i b → RNextFollow g i b

theorem addFollows_sound {g : Grammar} {i : Nat} {set : ByteSet} {st : FState} {r : FState × Bool}
    (hs : LSound g st.1) (hset : ∀ b, set.contains b = true → RNextFollow g i b)
    (h : addFollows i set st = .ok r) : LSound g r.1.1 := by
  obtain ⟨cur, hc, h1 | h1⟩ := addFollows_ok h
  · rw [h1.2]; exact hs
  · rw [h1.2]
    intro j b hb
    rcases has_set hb with ⟨rfl, h2⟩ | h2
    · rw [ByteSet.contains_union, Bool.or_eq_true] at h2
      rcases h2 with h2 | h2
      · exact hs i b ⟨cur, hc, h2⟩
      · exact hset b h2
    · exact hs j b h2

theorem inSequence_sound {g : Grammar} {firsts : List ByteSet}
    (hx : FExact g firsts) {i j : Nat} {alt : Sequence} (ha : g.Alt j alt) {st st' : FState}
    (hs : LSound g st.1)
    (h : ruleFollowsInSequence (newGen g) firsts i alt j st = .ok st') : LSound g st'.1 := by
  obtain ⟨r, init, last, st1, ret, hr, hsym, h1, h2⟩ := inSequence_ok h
  have hhead : g.Head i r.head := ⟨r, hr, rfl⟩
  have hs1 : LSound g st1.1 := by
    unfold followsLast at h1
    split at h1
    · split at h1
      · split at h1
        · simp only [Res.ok.injEq, Prod.mk.injEq] at h1; rw [← h1.1]; exact hs
        · rename_i name hne
          rw [Res.bind_eq_ok] at h1
          obtain ⟨F, hF, h1⟩ := h1
          rw [idx_ok] at hF
          refine addFollows_sound (r := (st1, ret)) hs ?_ h1
          intro b hb
          have hname : name = r.head := by simpa using hne
          exact .last ha (hname ▸ hsym) hhead (hs j b ⟨F, hF, hb⟩)
      · simp only [Res.ok.injEq, Prod.mk.injEq] at h1; rw [← h1.1]; exact hs
    · simp only [Res.ok.injEq, Prod.mk.injEq] at h1; rw [← h1.1]; exact hs
  rcases h2 with ⟨_, rfl⟩ | ⟨_, h2⟩
  · exact hs1
  · have loop : ∀ (rev : List Symbol) (next : Symbol) (post : List Symbol) (st st' : FState),
        alt.symbols = rev.reverse ++ next :: post → LSound g st.1 →
        followsInnerLoop (newGen g) firsts i j r.head next rev st = .ok st' → LSound g st'.1 := by
      intro rev
      induction rev with
      | nil =>
        intro next post st st' _ hs h
        simp only [followsInnerLoop, Res.ok.injEq] at h; subst h; exact hs
      | cons x rev ih =>
        intro next post st st' hsy hs h
        simp only [followsInnerLoop] at h
        rw [Res.bind_eq_ok] at h
        obtain ⟨m, hm, h⟩ := h
        refine ih x (next :: post) m st' (by simpa using hsy) ?_ h
        by_cases hxe : x = .nonTerminal r.head
        · subst hxe
          obtain ⟨S, st1, b, hS, h1, h2⟩ := followsInner_nt.1 hm
          have hsy' : alt.symbols = rev.reverse ++ .nonTerminal r.head :: next :: post := by
            simpa using hsy
          obtain ⟨hS1, hS0⟩ := symbolFirsts_ok hx hS
          have hs1 : LSound g st1.1 := by
            rcases innerNull_ok h1 with ⟨_, rfl⟩ | ⟨h0, _, F, b, hF, h1⟩
            · exact hs
            · refine addFollows_sound (r := (st1, b)) hs ?_ h1
              intro c hc
              exact .nextNullable ha hsy' hhead (hS0.1 h0) (hs j c ⟨F, hF, hc⟩)
          refine addFollows_sound (r := (m, b)) hs1 ?_ h2
          intro c hc
          rw [ByteSet.contains_remove] at hc
          by_cases hc0 : c = 0
          · subst hc0; simp [EOS] at hc
          · have : S.contains c = true := by simpa [EOS, hc0] using hc
            exact .next ha hsy' hhead ((hS1 c hc0).1 this)
        · rw [followsInner_other hxe] at hm
          simp only [Res.ok.injEq] at hm; subst hm; exact hs
    exact loop _ _ [] _ _ (by simpa using hsym) hs1 h2

theorem inRule_sound {g : Grammar} {firsts : List ByteSet}
    (hx : FExact g firsts) {i j : Nat} {st st' : FState} (hs : LSound g st.1)
    (h : ruleFollowsInRule (newGen g) firsts i j st = .ok st') : LSound g st'.1 := by
  obtain ⟨r, hr, h⟩ := inRule_ok h
  have : ∀ (ss : List Sequence) (st st' : FState), (∀ s ∈ ss, g.Alt j s) → LSound g st.1 →
      followsSequences (newGen g) firsts i j ss st = .ok st' → LSound g st'.1 := by
    intro ss
    induction ss with
    | nil =>
      intro st st' _ hs h
      simp only [followsSequences, Res.ok.injEq] at h; subst h; exact hs
    | cons s ss ih =>
      intro st st' ha hs h
      simp only [followsSequences] at h
      rw [Res.bind_eq_ok] at h
      obtain ⟨m, hm, h⟩ := h
      exact ih m st' (fun s hs => ha s (List.mem_cons_of_mem _ hs))
        (inSequence_sound hx (ha s (by simp)) hs hm) h
  exact this _ _ _ (fun s hs => ⟨r, hr, hs⟩) hs h

/-! ## Closedness -/

/-- The FOLLOW sets are closed under the rules of the code for rule `i` used in `alt` of rule `j`. -/
structure LClosed (g : Grammar) (follows : List ByteSet) (i j : Nat) (alt : Sequence) : Prop where
  last : ∀ pre name, alt.symbols = pre ++ [.nonTerminal name] → g.Head i name →
    ∀ b, Has follows j b → Has follows i b
  next : ∀ pre name x post, alt.symbols = pre ++ .nonTerminal name :: x :: post → g.Head i name →
    ∀ b, RFirst g [x] b → Has follows i b
  nextNullable : ∀ pre name x post, alt.symbols = pre ++ .nonTerminal name :: x :: post →
    g.Head i name → RNullable g [x] → ∀ b, Has follows j b → Has follows i b
  nonempty : alt.symbols ≠ []
  nextTerm : ∀ pre name post t, alt.symbols = pre ++ .nonTerminal name :: .terminal t :: post →
    g.Head i name → t ≠ []
  nextDef : ∀ pre name post n', alt.symbols = pre ++ .nonTerminal name :: .nonTerminal n' :: post →
    g.Head i name → ∃ k, g.Refers n' k

theorem superset_has {follows : List ByteSet} {i : Nat} {cur set : ByteSet}
    (hc : follows[i]? = some cur) (h : cur.isSuperSet set = true) {b : UInt8}
    (hb : set.contains b = true) : Has follows i b :=
  ⟨cur, hc, (ByteSet.isSuperSet_iff _ _).1 h b hb⟩

theorem addFollows_unchanged {i : Nat} {set : ByteSet} {st : FState} {b : Bool}
    (hst : st.2 = false) (h : addFollows i set st = .ok (st, b)) :
    b = false ∧ ∀ c, set.contains c = true → Has st.1 i c := by
  obtain ⟨cur, hc, h1 | h1⟩ := addFollows_ok h
  · refine ⟨?_, fun c hcc => superset_has hc h1.1 hcc⟩
    have := congrArg Prod.snd h1.2
    simpa using this
  · have := congrArg (fun p => p.1.2) h1.2
    simp [hst] at this

theorem snoc_cases {α : Type} {pre post : List α} {a b last : α} {init : List α}
    (h : init ++ [last] = pre ++ a :: b :: post) :
    (post = [] ∧ b = last ∧ init = pre ++ [a]) ∨
    (∃ post', post = post' ++ [last] ∧ init = pre ++ a :: b :: post') := by
  rcases List.eq_nil_or_concat post with rfl | ⟨post', z, rfl⟩
  · left
    have h' : init ++ [last] = (pre ++ [a]) ++ [b] := by simpa using h
    have := List.append_inj' h' rfl
    simp only [List.cons.injEq, and_true] at this
    exact ⟨rfl, this.2.symm, this.1⟩
  · right
    have h' : init ++ [last] = (pre ++ a :: b :: post') ++ [z] := by simpa using h
    have := List.append_inj' h' rfl
    simp only [List.cons.injEq, and_true] at this
    exact ⟨post', by simp [this.2], this.1⟩

/-- What one unchanged visit of an occurrence of rule `i` establishes. -/
def NextDone (g : Grammar) (follows : List ByteSet) (i j : Nat) (x : Symbol) : Prop :=
  (∀ b, b ≠ 0 → RFirst g [x] b → Has follows i b) ∧
  (RNullable g [x] → i ≠ j → ∀ b, Has follows j b → Has follows i b) ∧
  x ≠ .terminal [] ∧ (∀ n', x = .nonTerminal n' → ∃ k, g.Refers n' k)

theorem inSequence_closed {g : Grammar} {firsts : List ByteSet}
    (hx : FExact g firsts) {i j : Nat} {alt : Sequence} (ha : g.Alt j alt) {st : FState}
    (hst : st.2 = false)
    (h : ruleFollowsInSequence (newGen g) firsts i alt j st = .ok st) : LClosed g st.1 i j alt := by
  obtain ⟨r, init, last, st1, ret, hr, hsym, h1, h2⟩ := inSequence_ok h
  have hheadOf : ∀ name, g.Head i name → name = r.head := by
    rintro name ⟨r', hr', hn⟩
    simp only [newGen_g] at hr
    rw [hr] at hr'; cases hr'; exact hn.symm
  have hst1 : st1 = st := by
    have g1 := followsLast_grow h1
    rcases h2 with ⟨_, rfl⟩ | ⟨_, h2⟩
    · rfl
    · have g2 := innerLoop_grow _ _ _ _ h2
      have e2 := g2.unchanged hst
      exact e2.symm
  subst hst1
  have hret : ret = false ∧ ∀ name, last = .nonTerminal name → g.Head i name → i ≠ j →
      ∀ b, Has st1.1 j b → Has st1.1 i b := by
    unfold followsLast at h1
    split at h1
    · split at h1
      · rename_i name
        split at h1
        · rename_i hne
          simp only [Res.ok.injEq, Prod.mk.injEq, true_and] at h1
          refine ⟨h1.symm, ?_⟩
          intro n hn hh
          cases hn
          exact absurd (hheadOf _ hh) hne
        · rw [Res.bind_eq_ok] at h1
          obtain ⟨F, hF, h1⟩ := h1
          rw [idx_ok] at hF
          obtain ⟨hb, hc⟩ := addFollows_unchanged hst h1
          refine ⟨hb, ?_⟩
          rintro _ _ _ _ b ⟨s, hs, hb'⟩
          rw [hF] at hs; cases hs; exact hc b hb'
      · rename_i hnt
        simp only [Res.ok.injEq, Prod.mk.injEq, true_and] at h1
        refine ⟨h1.symm, ?_⟩
        intro n hn
        subst hn
        exact absurd rfl (hnt n)
    · rename_i hij
      simp only [Res.ok.injEq, Prod.mk.injEq, true_and] at h1
      exact ⟨h1.symm, fun _ _ _ hne => absurd hne hij⟩
  obtain ⟨hret, hlast⟩ := hret
  subst hret
  have h2 : followsInnerLoop (newGen g) firsts i j r.head last init.reverse st1 = .ok st1 := by
    rcases h2 with ⟨h, _⟩ | ⟨_, h⟩
    · simp at h
    · exact h
  have loop : ∀ (rev : List Symbol) (next : Symbol) (post' : List Symbol),
      alt.symbols = rev.reverse ++ next :: post' →
      followsInnerLoop (newGen g) firsts i j r.head next rev st1 = .ok st1 →
      ∀ pre x post, rev.reverse ++ [next] = pre ++ .nonTerminal r.head :: x :: post →
        NextDone g st1.1 i j x := by
    intro rev
    induction rev with
    | nil =>
      intro next post' _ h pre x post hp
      have := congrArg List.length hp
      simp at this
      omega
    | cons y rev ih =>
      intro next post' hsy h pre x post hp
      simp only [followsInnerLoop] at h
      rw [Res.bind_eq_ok] at h
      obtain ⟨m, hm, h⟩ := h
      have em : m = st1 := by
        have g2 := innerLoop_grow _ _ _ _ h
        exact (g2.unchanged hst).symm
      subst em
      rw [List.reverse_cons] at hp
      rcases snoc_cases hp with ⟨rfl, rfl, hp'⟩ | ⟨post'', rfl, hp'⟩
      · have := List.append_inj' hp' rfl
        simp only [List.cons.injEq, and_true] at this
        obtain ⟨_, rfl⟩ := this
        obtain ⟨S, st2, b, hS, h3, h4⟩ := followsInner_nt.1 hm
        have hsy' : alt.symbols = rev.reverse ++ .nonTerminal r.head :: x :: post' := by
          simpa using hsy
        obtain ⟨hS1, hS0⟩ := symbolFirsts_ok hx hS
        have e2 : st2 = m := ((addFollows_grow h4).unchanged hst).symm
        subst e2
        obtain ⟨_, hadd⟩ := addFollows_unchanged hst h4
        refine ⟨?_, ?_, ?_, ?_⟩
        · intro c hc hf
          refine hadd c ?_
          rw [ByteSet.contains_remove]
          simp [EOS, hc, (hS1 c hc).2 hf]
        · intro hn hij c hc
          rcases innerNull_ok h3 with ⟨h5, _⟩ | ⟨_, _, F, b', hF, h5⟩
          · exact absurd ⟨hS0.2 hn, hij⟩ h5
          · obtain ⟨_, hadd'⟩ := addFollows_unchanged hst h5
            obtain ⟨s, hs, hc'⟩ := hc
            rw [hF] at hs; cases hs
            exact hadd' c hc'
        · intro ht; subst ht; simp [symbolFirsts] at hS
        · intro n' hn'; subst hn'
          simp only [symbolFirsts] at hS
          cases hg : (newGen g).ruleMap.get n' with
          | none => simp [hg] at hS
          | some k => exact ⟨k, (get_ruleMap g n' k).1 hg⟩
      · exact ih y (next :: post') (by simpa using hsy) h pre x post'' hp'
  have done : ∀ pre name x post, alt.symbols = pre ++ .nonTerminal name :: x :: post →
      g.Head i name → NextDone g st1.1 i j x := by
    intro pre name x post hp hh
    have := hheadOf name hh; subst this
    exact loop init.reverse last [] (by simpa using hsym) h2 pre x post (by rw [← hp]; simpa using hsym.symm)
  refine ⟨?_, ?_, ?_, ?_, ?_, ?_⟩
  · intro pre name hp hh b hb
    by_cases hij : i = j
    · subst hij; exact hb
    · have : init ++ [last] = pre ++ [.nonTerminal name] := by rw [← hp]; exact hsym.symm
      have := List.append_inj' this rfl
      simp only [List.cons.injEq, and_true] at this
      exact hlast name this.2 hh hij b hb
  · intro pre name x post hp hh b hf
    refine (done pre name x post hp hh).1 b ?_ hf
    exact first_ne_zero hf
  · intro pre name x post hp hh hn b hb
    by_cases hij : i = j
    · subst hij; exact hb
    · exact (done pre name x post hp hh).2.1 hn hij b hb
  · rw [hsym]; simp
  · intro pre name post t hp hh ht
    subst ht
    exact (done pre name _ post hp hh).2.2.1 rfl
  · intro pre name post n' hp hh
    exact (done pre name _ post hp hh).2.2.2 n' rfl

theorem inRule_closed {g : Grammar} {firsts : List ByteSet}
    (hx : FExact g firsts) {i j : Nat} {st : FState} (hst : st.2 = false)
    (h : ruleFollowsInRule (newGen g) firsts i j st = .ok st) :
    ∀ alt, g.Alt j alt → LClosed g st.1 i j alt := by
  obtain ⟨r, hr, h⟩ := inRule_ok h
  have : ∀ (ss : List Sequence), (∀ s ∈ ss, g.Alt j s) →
      followsSequences (newGen g) firsts i j ss st = .ok st → ∀ s ∈ ss, LClosed g st.1 i j s := by
    intro ss
    induction ss with
    | nil => intro _ _ s hs; simp at hs
    | cons s ss ih =>
      intro ha h s' hs'
      simp only [followsSequences] at h
      rw [Res.bind_eq_ok] at h
      obtain ⟨m, hm, h⟩ := h
      have em : m = st := ((sequences_grow _ _ _ h).unchanged hst).symm
      subst em
      rcases List.mem_cons.1 hs' with rfl | hs'
      · exact inSequence_closed hx (ha s' (by simp)) hst hm
      · exact ih (fun s hs => ha s (List.mem_cons_of_mem _ hs)) h s' hs'
  intro alt ⟨r', hr', hm⟩
  simp only [newGen_g] at hr
  rw [hr] at hr'; cases hr'
  exact this _ (fun s hs => ⟨r, hr, hs⟩) h alt hm

/-- The computed sets are exactly the next-symbol FOLLOW sets. -/
structure LExact (g : Grammar) (follows : List ByteSet) : Prop where
  len : follows.length = g.rules.length
  follow : ∀ i b, i < g.rules.length → (Has follows i b ↔ RNextFollow g i b)
  nonempty : ∀ j alt, g.Alt j alt → alt.symbols ≠ []
  nextDef : ∀ j alt pre name post n', g.Alt j alt →
    alt.symbols = pre ++ .nonTerminal name :: .nonTerminal n' :: post → (∃ i, g.Head i name) →
    ∃ k, g.Refers n' k
  nextTerm : ∀ j alt pre name post, g.Alt j alt →
    alt.symbols = pre ++ .nonTerminal name :: .terminal [] :: post → ¬ ∃ i, g.Head i name

theorem head_lt {g : Grammar} {i : Nat} {name : Str} (h : g.Head i name) : i < g.rules.length := by
  obtain ⟨r, hr, _⟩ := h
  exact (List.getElem?_eq_some_iff.1 hr).1

theorem findFollows_ok {g : Grammar} {firsts follows : List ByteSet}
    (hx : FExact g firsts)
    (h : findFollows (newGen g) firsts (newSets (newGen g).ruleCount) = .ok follows) :
    LExact g follows := by
  unfold findFollows at h
  rw [Res.bind_eq_ok] at h
  obtain ⟨f0, hf0, h⟩ := h
  rw [Res.bind_eq_ok] at h
  obtain ⟨fs, hfs, h⟩ := h
  rw [idx_ok] at hf0
  rw [setIdx_ok] at hfs
  rw [findFollowsLoop_eq] at h
  have hinit : LSound g fs := by
    intro i b hb
    rw [hfs.2] at hb
    rcases has_set hb with ⟨rfl, h2⟩ | h2
    · rw [ByteSet.contains_add, Bool.or_eq_true] at h2
      rcases h2 with h2 | h2
      · have : b = 0 := by simpa using (show decide (b = 0) = true from h2)
        subst this; exact .start
      · exact absurd ⟨f0, hf0, h2⟩ not_has_newSets
    · exact absurd h2 not_has_newSets
  obtain ⟨hs, hp, hlen, hsub⟩ := fixLoop_ok (P := LSound g) (fun _ _ h => followsPass_grow h)
    (fun s s' hs h => forEach_inv (P := fun st => LSound g st.1)
      (fun i _ st st' h1 h2 => forEach_inv (P := fun st => LSound g st.1)
        (fun j _ st st' h1 h2 => inRule_sound hx h1 h2) _ _ h1 h2) _ _ hs h) _ _ _ hinit h
  have hun := forEach_unchanged
    (fun _ _ _ _ h1 => forEach_grow (fun _ _ _ _ h2 => inRule_grow h2) _ _ h1) _ _ hp rfl
  have hcl : ∀ i j alt, i < g.rules.length → g.Alt j alt → LClosed g follows i j alt := by
    intro i j alt hi ha
    have h1 := hun i (by simpa using hi)
    have h2 := forEach_unchanged (fun _ _ _ _ h2 => inRule_grow h2) _ _ h1 rfl j
      (by simpa using ha.lt)
    exact inRule_closed hx rfl h2 alt ha
  have h00 : 0 < g.rules.length := by
    have := hfs.1
    simpa [newSets] using this
  refine ⟨?_, ?_, ?_, ?_, ?_⟩
  · rw [hlen, hfs.2]; simp [newSets]
  · intro i b hi
    refine ⟨hs i b, ?_⟩
    intro hf
    clear hi
    induction hf with
    | start =>
      refine hsub 0 0 ?_
      rw [hfs.2]
      refine ⟨f0.add EOS, by rw [List.getElem?_set_self hfs.1], ?_⟩
      rw [ByteSet.contains_add]; simp [EOS]
    | @last j i alt pre name b ha hsym hh _ ih =>
      exact (hcl i j alt (head_lt hh) ha).last pre name hsym hh b ih
    | @next j i alt pre post name next b ha hsym hh hf =>
      exact (hcl i j alt (head_lt hh) ha).next pre name next post hsym hh b hf
    | @nextNullable j i alt pre post name next b ha hsym hh hn _ ih =>
      exact (hcl i j alt (head_lt hh) ha).nextNullable pre name next post hsym hh hn b ih
  · intro j alt ha
    exact (hcl 0 j alt h00 ha).nonempty
  · rintro j alt pre name post n' ha hs ⟨i, hi⟩
    exact (hcl i j alt (head_lt hi) ha).nextDef pre name post n' hs hi
  · rintro j alt pre name post ha hs ⟨i, hi⟩
    exact (hcl i j alt (head_lt hi) ha).nextTerm pre name post [] hs hi rfl

end TG
end LL1
