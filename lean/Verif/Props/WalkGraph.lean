import Verif.Model.WalkGraph
import Verif.Spec.Graph
import Verif.Props.WalkDepth

/-!
# C73: `Walk` on any nodes: shared, cyclic, nil
-/

namespace LL1

variable {N Sl V S P : Type}

/-! ## Specification -/

/-- `Childs` never panics, and the entries of the slices it returns never change: those of `n`'s are `kids n`. -/
def FixedKids (I : NodeImpl N Sl V S P) (kids : N → List (Option N)) : Prop :=
  ∀ n s, ∃ s' sl, I.childs n s = .ok (s', sl) ∧ I.len sl = (kids n).length ∧ ∀ i m, (kids n)[i]? = some m →
    ∀ s'', I.elem sl i s'' = m

/-- `Visit` never panics and never returns nil. -/
def NeverPrunes (I : NodeImpl N Sl V S P) : Prop := ∀ v x s, ∃ s' w, I.visit v x s = .ok (s', some w)

/-- The same, with the argument of every `Visit` call written to a log. -/
def NodeImpl.logged (I : NodeImpl N Sl V S P) : NodeImpl N Sl V (S × List (Option N)) P where
  visit v x s :=
    match I.visit v x s.1 with
    | .error e => .error e
    | .ok (s', w) => .ok ((s', s.2 ++ [x]), w)
  childs n s := match I.childs n s.1 with | .error e => .error e | .ok (s', sl) => .ok ((s', s.2), sl)
  len := I.len
  elem sl i s := I.elem sl i s.1
  nilNode := I.nilNode

/-- `n` can be reached from `r` by going to children. -/
inductive NodeReaches (kids : N → List N) (r : N) : N → Prop
  | refl : NodeReaches kids r r
  | step {n c} : NodeReaches kids r n → c ∈ kids n → NodeReaches kids r c

/-! ## Deeper stacks change nothing -/

theorem rangeLoop_mono (I : NodeImpl N Sl V S P) {body body' : Option N → S → Option (Except P S)}
    (h : ∀ x s r, body x s = some r → body' x s = some r) (sl : Sl) (k : Nat) :
    ∀ i s r, rangeLoop I body sl k i s = some r → rangeLoop I body' sl k i s = some r := by
  induction k with
  | zero => intro i s r h'; exact h'
  | succ k ih =>
    intro i s r h'
    simp only [rangeLoop] at h' ⊢
    cases hb : body (I.elem sl i s) s with
    | none => simp [hb] at h'
    | some q =>
      rw [h _ _ _ hb]
      simp only [hb] at h'
      cases q with
      | error x => exact h'
      | ok s' => exact ih _ _ _ h'

theorem walkI_succ (I : NodeImpl N Sl V S P) (d : Nat) :
    ∀ v x s r, walkI I d v x s = some r → walkI I (d + 1) v x s = some r := by
  induction d with
  | zero => intro v x s r h; cases h
  | succ d ih =>
    intro v x s r h
    rw [walkI] at h ⊢
    split at h <;> try exact h
    split at h <;> try exact h
    split at h <;> try exact h
    exact rangeLoop_mono I (fun x s r => ih _ x s r) _ _ _ _ _ h

theorem walkI_le (I : NodeImpl N Sl V S P) {d d' : Nat} (hd : d ≤ d') (v : V) (x : Option N) (s : S) (r : Except P S)
    (h : walkI I d v x s = some r) : walkI I d' v x s = some r := by
  induction hd with
  | refl => exact h
  | step _ ih => exact walkI_succ I _ _ _ _ _ ih

/-! ## The library's own nodes -/

mutual
theorem walkI_own {V S P : Type} (vis : Visitor V S P) (nv : V → S → Except P (S × Option V)) (np : P) : (t : Node) → (v : V) →
    (s : S) → (d : Nat) → heightOf t ≤ d → walkI (ownNodes vis nv np) d v (some t) s = some (walk vis v t s)
  | .mk ty p e cs, v, s, 0, h => by simp [heightOf] at h
  | .mk ty p e cs, v, s, d + 1, h => by
    unfold walkI walk
    simp only [ownNodes]
    cases vis.visit v (.mk ty p e cs) s with
    | error x => rfl
    | ok r =>
      obtain ⟨s', w⟩ := r
      cases w with
      | none => rfl
      | some w =>
        simp only [Node.childs_mk]
        have := rangeLoop_own vis nv np cs w [] s' d (by simp only [heightOf] at h; omega)
        simpa [ownNodes] using this
theorem rangeLoop_own {V S P : Type} (vis : Visitor V S P) (nv : V → S → Except P (S × Option V)) (np : P) : (ts : List Node) →
    (w : V) → (pre : List Node) → (s : S) → (d : Nat) → heightOfList ts ≤ d →
    rangeLoop (ownNodes vis nv np) (walkI (ownNodes vis nv np) d w) (pre ++ ts) ts.length pre.length s =
      some (walkList vis w ts s)
  | [], w, pre, s, d, _ => by simp [rangeLoop, walkList]
  | t :: ts, w, pre, s, d, h => by
    simp only [heightOfList] at h
    have h1 := walkI_own vis nv np t w s d (by omega)
    have he : (ownNodes vis nv np).elem (pre ++ t :: ts) pre.length s = some t := by simp [ownNodes]
    unfold walkList
    rw [List.length_cons, rangeLoop, he, h1]
    cases walk vis w t s with
    | error x => rfl
    | ok s' =>
      have h2 := rangeLoop_own vis nv np ts w (pre ++ [t]) s' d (by omega)
      simpa using h2
end

/-- **C73.** On the library's own nodes this is the `Walk` of C06, C07 and C72: it ends with result `r` if a stack of as
many calls as the tree is high is available. -/
theorem C73_own_nodes {V S P : Type} (vis : Visitor V S P) (nv : V → S → Except P (S × Option V)) (np : P) (v : V) (t : Node)
    (s : S) (h : Nat) (hh : IsHeight t h) :
    walkI (ownNodes vis nv np) h v (some t) s = some (walk vis v t s) := by
  refine walkI_own vis nv np t v s h ?_
  obtain ⟨⟨p, n, f1, f2⟩, _⟩ := isHeight_heightOf t
  have := hh.2 _ _ f1
  omega

/-! ## Shared nodes, cycles, nil -/

theorem loop_ends {I : NodeImpl N Sl V S P} {body : Option N → S → Option (Except P S)} {sl : Sl} {ks : List (Option N)}
    (hel : ∀ i m, ks[i]? = some m → ∀ s'', I.elem sl i s'' = m) (bad : Option N → Prop)
    (hbody : ∀ c ∈ ks, ∀ s, (bad c ∧ body c s = some (.error I.nilNode)) ∨ (¬ bad c ∧ ∃ s', body c s = some (.ok s')))
    (k : Nat) : ∀ i s, i + k = ks.length →
      ((∃ c ∈ ks.drop i, bad c) ∧ rangeLoop I body sl k i s = some (.error I.nilNode)) ∨
      ((∀ c ∈ ks.drop i, ¬ bad c) ∧ ∃ s', rangeLoop I body sl k i s = some (.ok s')) := by
  induction k with
  | zero =>
    intro i s hi
    refine .inr ⟨?_, s, rfl⟩
    have : i = ks.length := by omega
    subst this
    simp
  | succ k ih =>
    intro i s hi
    have hlt : i < ks.length := by omega
    have he := hel i ks[i] (by simp [hlt]) s
    rw [rangeLoop, he, List.drop_eq_getElem_cons hlt]
    rcases hbody ks[i] (List.getElem_mem _) s with ⟨h1, h2⟩ | ⟨h1, s', h2⟩
    · exact .inl ⟨⟨_, List.mem_cons_self, h1⟩, by rw [h2]⟩
    · rw [h2]
      rcases ih (i + 1) s' (by omega) with ⟨⟨c, hc, hb⟩, h3⟩ | ⟨h3, h4⟩
      · exact .inl ⟨⟨c, List.mem_cons_of_mem _ hc, hb⟩, h3⟩
      · refine .inr ⟨?_, h4⟩
        intro c hc
        rcases List.mem_cons.1 hc with rfl | hc
        · exact h1
        · exact h3 c hc

theorem walkI_ends {I : NodeImpl N Sl V S P} {kids : N → List (Option N)} (hk : FixedKids I kids) (hv : NeverPrunes I)
    (B : Nat) : ∀ x, (∀ path y, entryAt kids x path = some y → path.length < B) → ∀ v s,
      ((∃ path, entryAt kids x path = some none) ∧ walkI I B v x s = some (.error I.nilNode)) ∨
      ((¬ ∃ path, entryAt kids x path = some none) ∧ ∃ s', walkI I B v x s = some (.ok s')) := by
  induction B with
  | zero => intro x h; exact absurd (h [] x rfl) (by simp)
  | succ B ih =>
    intro x h v s
    obtain ⟨s1, w, e1⟩ := hv v x s
    rw [walkI, e1]
    cases x with
    | none => exact .inl ⟨⟨[], rfl⟩, rfl⟩
    | some n =>
      obtain ⟨s2, sl, e2, hl, hel⟩ := hk n s1
      simp only [e2]
      have hb : ∀ c ∈ kids n, ∀ s, ((∃ path, entryAt kids c path = some none) ∧ walkI I B w c s = some (.error I.nilNode)) ∨
          ((¬ ∃ path, entryAt kids c path = some none) ∧ ∃ s', walkI I B w c s = some (.ok s')) := by
        intro c hc s
        obtain ⟨i, hi⟩ := List.getElem?_of_mem hc
        refine ih c (fun path y hp => ?_) w s
        have := h (i :: path) y (by simp only [entryAt, hi]; exact hp)
        simp at this; omega
      have hiff : (∃ path, entryAt kids (some n) path = some none) ↔ ∃ c ∈ kids n, ∃ path, entryAt kids c path = some none := by
        constructor
        · rintro ⟨path, hp⟩
          cases path with
          | nil => simp [entryAt] at hp
          | cons i path =>
            simp only [entryAt] at hp
            cases hi : (kids n)[i]? with
            | none => simp [hi] at hp
            | some c => exact ⟨c, List.mem_of_getElem? hi, path, by simpa [hi] using hp⟩
        · rintro ⟨c, hc, path, hp⟩
          obtain ⟨i, hi⟩ := List.getElem?_of_mem hc
          exact ⟨i :: path, by simp only [entryAt, hi]; exact hp⟩
      have := loop_ends (I := I) hel (fun c => ∃ path, entryAt kids c path = some none) hb (I.len sl) 0 s2 (by omega)
      rw [List.drop_zero] at this
      rcases this with ⟨h1, h2⟩ | ⟨h1, h2⟩
      · exact .inl ⟨hiff.2 h1, h2⟩
      · refine .inr ⟨fun hc => ?_, h2⟩
        obtain ⟨c, hc, hp⟩ := hiff.1 hc
        exact h1 c hc hp

/-- What a loop that ended normally did. -/
theorem loop_log {I : NodeImpl N Sl V (S × List (Option N)) P}
    {body : Option N → S × List (Option N) → Option (Except P (S × List (Option N)))} {sl : Sl} {ks : List (Option N)}
    (hel : ∀ i m, ks[i]? = some m → ∀ s'', I.elem sl i s'' = m) (at' : Option N → List Nat → Option (Option N))
    (hbody : ∀ c ∈ ks, ∀ s s', body c s = some (.ok s') → ∃ ps : List (List Nat),
      ps.Pairwise (List.Lex (· < ·)) ∧ (∀ π, π ∈ ps ↔ ∃ y, at' c π = some y) ∧
      ∃ l, s'.2 = s.2 ++ l ∧ l.map some = ps.map (at' c))
    (k : Nat) : ∀ i s s', i + k = ks.length → rangeLoop I body sl k i s = some (.ok s') → ∃ ps : List (List Nat),
      ps.Pairwise (List.Lex (· < ·)) ∧
      (∀ π, π ∈ ps ↔ ∃ j ρ c, π = j :: ρ ∧ i ≤ j ∧ ks[j]? = some c ∧ ∃ y, at' c ρ = some y) ∧
      ∃ l, s'.2 = s.2 ++ l ∧ l.map some = ps.map fun π => match π with
        | [] => none
        | j :: ρ => match ks[j]? with | none => none | some c => at' c ρ := by
  induction k with
  | zero =>
    intro i s s' hi h
    simp only [rangeLoop, Option.some.injEq, Except.ok.injEq] at h
    subst h
    refine ⟨[], .nil, fun π => ⟨fun h => (List.not_mem_nil h).elim, ?_⟩, [], by simp⟩
    rintro ⟨j, ρ, c, rfl, h1, h2, -⟩
    have := (List.getElem?_eq_some_iff.1 h2).1
    omega
  | succ k ih =>
    intro i s s' hi h
    have hlt : i < ks.length := by omega
    have hki : ks[i]? = some ks[i] := by simp [hlt]
    have he := hel i ks[i] hki s
    rw [rangeLoop, he] at h
    cases hb : body ks[i] s with
    | none => simp [hb] at h
    | some q =>
      cases q with
      | error x => simp [hb] at h
      | ok s1 =>
        simp only [hb] at h
        obtain ⟨ps1, a1, a2, l1, a3, a4⟩ := hbody ks[i] (List.getElem_mem _) s s1 hb
        obtain ⟨ps2, b1, b2, l2, b3, b4⟩ := ih (i + 1) s1 s' (by omega) h
        refine ⟨ps1.map (i :: ·) ++ ps2, ?_, ?_, l1 ++ l2, ?_, ?_⟩
        · rw [List.pairwise_append]
          refine ⟨?_, b1, ?_⟩
          · rw [List.pairwise_map]
            exact a1.imp fun h => .cons h
          · intro π hπ ρ hρ
            obtain ⟨π', -, rfl⟩ := List.mem_map.1 hπ
            obtain ⟨j, ρ', c, rfl, h1, -⟩ := (b2 ρ).1 hρ
            exact .rel (by omega)
        · intro π
          rw [List.mem_append, List.mem_map]
          constructor
          · rintro (⟨π', h1, rfl⟩ | h1)
            · exact ⟨i, π', ks[i], rfl, Nat.le_refl _, hki, (a2 π').1 h1⟩
            · obtain ⟨j, ρ, c, e1, e2, e3⟩ := (b2 π).1 h1
              exact ⟨j, ρ, c, e1, by omega, e3⟩
          · rintro ⟨j, ρ, c, rfl, h1, h2, h3⟩
            by_cases hj : j = i
            · subst hj
              rw [hki] at h2; cases h2
              exact .inl ⟨ρ, (a2 ρ).2 h3, rfl⟩
            · exact .inr ((b2 _).2 ⟨j, ρ, c, rfl, by omega, h2, h3⟩)
        · rw [b3, a3, List.append_assoc]
        · rw [List.map_append, List.map_append, b4, List.map_map, a4]
          congr 1
          apply List.map_congr_left
          intro π _
          simp [hki]

theorem walkI_log {I : NodeImpl N Sl V S P} {kids : N → List (Option N)} (hk : FixedKids I kids) (hv : NeverPrunes I)
    (d : Nat) : ∀ v x s s', walkI I.logged d v x s = some (.ok s') → ∃ ps : List (List Nat),
      ps.Pairwise (List.Lex (· < ·)) ∧ (∀ π, π ∈ ps ↔ ∃ y, entryAt kids x π = some y) ∧
      ∃ l, s'.2 = s.2 ++ l ∧ l.map some = ps.map (entryAt kids x) := by
  induction d with
  | zero => intro v x s s' h; cases h
  | succ d ih =>
    intro v x s s' h
    obtain ⟨s1, w, e1⟩ := hv v x s.1
    have e1' : I.logged.visit v x s = .ok ((s1, s.2 ++ [x]), some w) := by simp [NodeImpl.logged, e1]
    rw [walkI, e1'] at h
    cases x with
    | none => simp at h
    | some n =>
      obtain ⟨s2, sl, e2, hl, hel⟩ := hk n s1
      have e2' : I.logged.childs n (s1, s.2 ++ [some n]) = .ok ((s2, s.2 ++ [some n]), sl) := by
        simp [NodeImpl.logged, e2]
      simp only [e2'] at h
      obtain ⟨ps, a1, a2, l, a3, a4⟩ := loop_log (I := I.logged) (ks := kids n) (fun i m hi s'' => hel i m hi s''.1)
        (entryAt kids) (fun c _ s s' h => ih w c s s' h) (I.len sl) 0 _ _ (by omega) h
      refine ⟨[] :: ps, ?_, ?_, some n :: l, ?_, ?_⟩
      · refine List.pairwise_cons.2 ⟨?_, a1⟩
        intro π hπ
        obtain ⟨j, ρ, c, rfl, -⟩ := (a2 π).1 hπ
        exact .nil
      · intro π
        cases π with
        | nil => simp [entryAt]
        | cons j ρ =>
          rw [List.mem_cons, a2]
          constructor
          · rintro (h | ⟨j', ρ', c, e, -, h1, h2⟩)
            · cases h
            · cases e
              simpa only [entryAt, h1] using h2
          · rintro ⟨y, hy⟩
            simp only [entryAt] at hy
            cases hc : (kids n)[j]? with
            | none => simp [hc] at hy
            | some c => exact .inr ⟨j, ρ, c, rfl, Nat.zero_le _, hc, y, by simpa [hc] using hy⟩
      · rw [a3]; simp
      · rw [List.map_cons, List.map_cons, a4]
        congr 1
        apply List.map_congr_left
        intro π hπ
        obtain ⟨j, ρ, c, rfl, -, h1, -⟩ := (a2 π).1 hπ
        simp only [entryAt, h1]

/-- Removing the log. -/
theorem rangeLoop_logged (I : NodeImpl N Sl V S P) {body : Option N → S → Option (Except P S)}
    {body' : Option N → S × List (Option N) → Option (Except P (S × List (Option N)))}
    (h : ∀ x s l, (body' x (s, l)).map (fun r => r.map Prod.fst) = body x s) (sl : Sl) (k : Nat) : ∀ i s l,
      (rangeLoop I.logged body' sl k i (s, l)).map (fun r => r.map Prod.fst) = rangeLoop I body sl k i s := by
  induction k with
  | zero => intro i s l; rfl
  | succ k ih =>
    intro i s l
    have := h (I.elem sl i s) s l
    have he : I.logged.elem sl i (s, l) = I.elem sl i s := rfl
    rw [rangeLoop, rangeLoop, he, ← this]
    cases body' (I.elem sl i s) (s, l) with
    | none => rfl
    | some q =>
      cases q with
      | error x => rfl
      | ok s' => obtain ⟨a, b⟩ := s'; exact ih (i + 1) a b

theorem walkI_logged (I : NodeImpl N Sl V S P) (d : Nat) : ∀ v x s l,
    (walkI I.logged d v x (s, l)).map (fun r => r.map Prod.fst) = walkI I d v x s := by
  induction d with
  | zero => intro v x s l; rfl
  | succ d ih =>
    intro v x s l
    rw [walkI, walkI]
    simp only [NodeImpl.logged]
    cases I.visit v x s with
    | error e => rfl
    | ok r =>
      obtain ⟨s', w⟩ := r
      cases w with
      | none => rfl
      | some w =>
        cases x with
        | none => rfl
        | some n =>
          simp only
          cases I.childs n s' with
          | error e => rfl
          | ok r =>
            obtain ⟨s'', sl⟩ := r
            exact rangeLoop_logged I (ih w) sl _ 0 s'' _

theorem walkI_ok_bound {I : NodeImpl N Sl V S P} {kids : N → List (Option N)} (hk : FixedKids I kids) (hv : NeverPrunes I)
    (d : Nat) : ∀ v x s s', walkI I d v x s = some (.ok s') → ∀ path y, entryAt kids x path = some y → path.length < d ∧ y ≠ none := by
  induction d with
  | zero => intro v x s s' h; cases h
  | succ d ih =>
    intro v x s s' h path y hp
    obtain ⟨s1, w, e1⟩ := hv v x s
    rw [walkI, e1] at h
    cases x with
    | none => simp at h
    | some n =>
      obtain ⟨s2, sl, e2, hl, hel⟩ := hk n s1
      simp only [e2] at h
      have hloop : ∀ k i s s', i + k = (kids n).length → rangeLoop I (walkI I d w) sl k i s = some (.ok s') →
          ∀ j c, i ≤ j → (kids n)[j]? = some c → ∃ t t', walkI I d w c t = some (.ok t') := by
        intro k
        induction k with
        | zero =>
          intro i s s' hi _ j c hj hc
          have := (List.getElem?_eq_some_iff.1 hc).1
          omega
        | succ k ih2 =>
          intro i s s' hi hr j c hj hc
          have hlt : i < (kids n).length := by omega
          have hki : (kids n)[i]? = some (kids n)[i] := by simp [hlt]
          rw [rangeLoop, hel i _ hki s] at hr
          cases hb : walkI I d w (kids n)[i] s with
          | none => simp [hb] at hr
          | some q =>
            cases q with
            | error x => simp [hb] at hr
            | ok t =>
              simp only [hb] at hr
              by_cases hji : j = i
              · subst hji
                rw [hki] at hc; cases hc
                exact ⟨s, t, hb⟩
              · exact ih2 (i + 1) t s' (by omega) hr j c (by omega) hc
      cases path with
      | nil => simp only [entryAt, Option.some.injEq] at hp; subst hp; simp
      | cons j path =>
        simp only [entryAt] at hp
        cases hc : (kids n)[j]? with
        | none => simp [hc] at hp
        | some c =>
          simp only [hc] at hp
          obtain ⟨t, t', ht⟩ := hloop _ 0 s2 s' (by omega) h j c (Nat.zero_le _) hc
          have := ih w c t t' ht path y hp
          simp; exact ⟨this.1, this.2⟩

/-- **C73.** Nodes whose children are fixed, shared or not, walked with a visitor that never returns nil: `Walk` returns
iff every way down ends and none ends in nil; and then it has visited the node at the end of *every* way down from the
root, in the order of the ways (so a shared node once per way that leads to it). -/
theorem C73_paths {I : NodeImpl N Sl V S P} {kids : N → List (Option N)} (hk : FixedKids I kids) (hv : NeverPrunes I)
    (v : V) (x : Option N) (s : S) :
    ((∃ d s', walkI I d v x s = some (.ok s')) ↔ Unfolds kids x ∧ ∀ path, entryAt kids x path ≠ some none) ∧
    ∀ d s' log, walkI I.logged d v x (s, []) = some (.ok (s', log)) → ∃ ps : List (List Nat),
      ps.Pairwise (List.Lex (· < ·)) ∧ (∀ π, π ∈ ps ↔ ∃ y, entryAt kids x π = some y) ∧
      log.map some = ps.map (entryAt kids x) := by
  refine ⟨⟨?_, ?_⟩, ?_⟩
  · rintro ⟨d, s', h⟩
    have := walkI_ok_bound hk hv d v x s s' h
    exact ⟨⟨d, fun path y hp => Nat.le_of_lt (this path y hp).1⟩, fun path hp => (this path none hp).2 rfl⟩
  · rintro ⟨⟨B, hB⟩, hn⟩
    rcases walkI_ends hk hv (B + 1) x (fun path y hp => Nat.lt_succ_of_le (hB path y hp)) v s with ⟨⟨path, hp⟩, -⟩ | ⟨-, s', h⟩
    · exact absurd hp (hn path)
    · exact ⟨_, _, h⟩
  · intro d s' log h
    obtain ⟨ps, a1, a2, l, a3, a4⟩ := walkI_log hk hv d v x _ _ h
    refine ⟨ps, a1, a2, ?_⟩
    simp only [List.nil_append] at a3
    rw [a3]; exact a4

/-- **C73.** If all ways down end but one of them in nil, `Walk` panics like a method call on nil. -/
theorem C73_nil {I : NodeImpl N Sl V S P} {kids : N → List (Option N)} (hk : FixedKids I kids) (hv : NeverPrunes I)
    (v : V) (x : Option N) (s : S) (hu : Unfolds kids x) (path : List Nat) (hp : entryAt kids x path = some none) :
    ∃ d, walkI I d v x s = some (.error I.nilNode) := by
  obtain ⟨B, hB⟩ := hu
  rcases walkI_ends hk hv (B + 1) x (fun path y hp => Nat.lt_succ_of_le (hB path y hp)) v s with ⟨-, h⟩ | ⟨h, -⟩
  · exact ⟨_, h⟩
  · exact absurd ⟨path, hp⟩ h

theorem entryAt_append (kids : N → List (Option N)) (x : Option N) (p q : List Nat) (y : Option N)
    (h : entryAt kids x p = some y) : entryAt kids x (p ++ q) = entryAt kids y q := by
  induction p generalizing x with
  | nil => simp only [entryAt, Option.some.injEq] at h; subst h; rfl
  | cons i p ih =>
    cases x with
    | none => simp [entryAt] at h
    | some n =>
      rw [List.cons_append]
      simp only [entryAt] at h ⊢
      cases hc : (kids n)[i]? with
      | none => simp [hc] at h
      | some c => simp only [hc] at h ⊢; exact ih c h

theorem walkI_error {I : NodeImpl N Sl V S P} {kids : N → List (Option N)} (hk : FixedKids I kids) (hv : NeverPrunes I)
    (d : Nat) : ∀ v x s e, walkI I d v x s = some (.error e) → ∃ path, entryAt kids x path = some none := by
  induction d with
  | zero => intro v x s e h; cases h
  | succ d ih =>
    intro v x s e h
    obtain ⟨s1, w, e1⟩ := hv v x s
    rw [walkI, e1] at h
    cases x with
    | none => exact ⟨[], rfl⟩
    | some n =>
      obtain ⟨s2, sl, e2, hl, hel⟩ := hk n s1
      simp only [e2] at h
      have hloop : ∀ k i s, i + k = (kids n).length → rangeLoop I (walkI I d w) sl k i s = some (.error e) →
          ∃ path, entryAt kids (some n) path = some none := by
        intro k
        induction k with
        | zero => intro i s _ hr; simp [rangeLoop] at hr
        | succ k ih2 =>
          intro i s hi hr
          have hlt : i < (kids n).length := by omega
          have hki : (kids n)[i]? = some (kids n)[i] := by simp [hlt]
          rw [rangeLoop, hel i _ hki s] at hr
          cases hb : walkI I d w (kids n)[i] s with
          | none => simp [hb] at hr
          | some q =>
            cases q with
            | error x =>
              obtain ⟨path, hp⟩ := ih w _ s x hb
              exact ⟨i :: path, by simp only [entryAt, hki]; exact hp⟩
            | ok t =>
              simp only [hb] at hr
              exact ih2 (i + 1) t (by omega) hr
      exact hloop _ 0 s2 (by omega) h

/-- **C73.** If a way down leads back to a node it has passed, `Walk` with a visitor that never returns nil does not
return, no matter how large the stack is (and if no way leads to nil, it exhausts every stack). -/
theorem C73_cycle {I : NodeImpl N Sl V S P} {kids : N → List (Option N)} (hk : FixedKids I kids) (hv : NeverPrunes I)
    (v : V) (x : Option N) (s : S) (n : N) (p q : List Nat) (hq : q ≠ []) (h1 : entryAt kids x p = some (some n))
    (h2 : entryAt kids (some n) q = some (some n)) (d : Nat) :
    (∀ s', walkI I d v x s ≠ some (.ok s')) ∧ ((∀ path, entryAt kids x path ≠ some none) → walkI I d v x s = none) := by
  suffices hmain : ∀ s', walkI I d v x s ≠ some (.ok s') by
    refine ⟨hmain, fun hn => ?_⟩
    cases hw : walkI I d v x s with
    | none => rfl
    | some r =>
      cases r with
      | ok s' => exact absurd hw (hmain s')
      | error e =>
        obtain ⟨path, hp⟩ := walkI_error hk hv d v x s e hw
        exact absurd hp (hn path)
  intro s' h
  have hpow : ∀ k, ∃ r, k ≤ r.length ∧ entryAt kids (some n) r = some (some n) := by
    intro k
    induction k with
    | zero => exact ⟨[], Nat.le_refl _, rfl⟩
    | succ k ih =>
      obtain ⟨r, h3, h4⟩ := ih
      refine ⟨q ++ r, ?_, by rw [entryAt_append kids _ q r _ h2]; exact h4⟩
      have : q.length ≠ 0 := by simpa using hq
      simp; omega
  obtain ⟨r, h3, h4⟩ := hpow d
  have := (walkI_ok_bound hk hv d v x s s' h (p ++ r) (some n) (by rw [entryAt_append kids _ p r _ h1]; exact h4)).1
  simp at this; omega

/-! ## A visitor that remembers -/

section dfs
variable [DecidableEq N]

/-- How many nodes of `L` are not in `log`. -/
def unseen (L log : List N) : Nat := (L.filter fun n => decide (n ∉ log)).length

theorem unseen_le {L log log' : List N} (h : ∀ n ∈ log, n ∈ log') : unseen L log' ≤ unseen L log := by
  unfold unseen
  induction L with
  | nil => simp
  | cons a L ih =>
    simp only [List.filter_cons]
    by_cases h1 : a ∈ log'
    · by_cases h2 : a ∈ log <;> simp only [h1, h2, not_true_eq_false, not_false_eq_true, decide_false, decide_true,
        Bool.false_eq_true, if_false, if_true, List.length_cons] <;> omega
    · have h2 : a ∉ log := fun h' => h1 (h a h')
      simp only [h1, h2, not_false_eq_true, decide_true, if_true, List.length_cons]; omega

theorem unseen_lt {L log : List N} {n : N} (hn : n ∈ L) (h : n ∉ log) : unseen L (n :: log) < unseen L log := by
  unfold unseen
  induction L with
  | nil => cases hn
  | cons a L ih =>
    have hle : (L.filter fun m => decide (m ∉ n :: log)).length ≤ (L.filter fun m => decide (m ∉ log)).length :=
      unseen_le (L := L) (fun m hm => List.mem_cons_of_mem _ hm)
    simp only [List.filter_cons]
    by_cases ha : a = n
    · subst ha
      simp only [List.mem_cons, true_or, not_true_eq_false, decide_false, h, not_false_eq_true, decide_true, if_true,
        List.length_cons]
      simp only [List.mem_cons] at hle
      simpa using Nat.lt_succ_of_le hle
    · have hn' : n ∈ L := by
        rcases List.mem_cons.1 hn with h | h
        · exact absurd h.symm ha
        · exact h
      have := ih hn'
      by_cases h2 : a ∈ log
      · simp [h2, ha] at this ⊢; omega
      · simp [h2, ha] at this ⊢; omega

/-- The visitor remembers in `seen` the nodes it has been shown and returns nil exactly on those it knows already;
`Childs` does not touch that memory. -/
structure Remembers (I : NodeImpl N Sl V S P) (seen : S → List N) : Prop where
  known : ∀ v n s, n ∈ seen s → ∃ s', I.visit v (some n) s = .ok (s', none) ∧ seen s' = seen s
  fresh : ∀ v n s, n ∉ seen s → ∃ s' w, I.visit v (some n) s = .ok (s', some w) ∧ seen s' = n :: seen s
  childs : ∀ n s s' sl, I.childs n s = .ok (s', sl) → seen s' = seen s

/-- What one call does. -/
structure DfsStep (kids : N → List N) (xs : List N) (a b : List N) : Prop where
  grows : ∀ n ∈ a, n ∈ b
  nodup : a.Nodup → b.Nodup
  roots : ∀ x ∈ xs, x ∈ b
  closed : ∀ n ∈ b, n ∉ a → ∀ c ∈ kids n, c ∈ b
  sound : ∀ n ∈ b, n ∈ a ∨ ∃ x ∈ xs, NodeReaches kids x n

theorem DfsStep.nil (kids : N → List N) (a : List N) : DfsStep kids [] a a where
  grows _ h := h
  nodup h := h
  roots _ h := by cases h
  closed _ h1 h2 := absurd h1 h2
  sound _ h := .inl h

theorem DfsStep.cons {kids : N → List N} {x : N} {xs a b c : List N} (h1 : DfsStep kids [x] a b) (h2 : DfsStep kids xs b c) :
    DfsStep kids (x :: xs) a c where
  grows n h := h2.grows n (h1.grows n h)
  nodup h := h2.nodup (h1.nodup h)
  roots y hy := by
    rcases List.mem_cons.1 hy with rfl | hy
    · exact h2.grows _ (h1.roots _ (by simp))
    · exact h2.roots y hy
  closed n hn hna k hk := by
    by_cases hb : n ∈ b
    · exact h2.grows _ (h1.closed n hb hna k hk)
    · exact h2.closed n hn hb k hk
  sound n hn := by
    rcases h2.sound n hn with h | ⟨y, hy, hr⟩
    · rcases h1.sound n h with h | ⟨y, hy, hr⟩
      · exact .inl h
      · exact .inr ⟨y, by simp at hy; simp [hy], hr⟩
    · exact .inr ⟨y, List.mem_cons_of_mem _ hy, hr⟩

theorem NodeReaches.head {kids : N → List N} {x c n : N} (hc : c ∈ kids x) (h : NodeReaches kids c n) : NodeReaches kids x n := by
  induction h with
  | refl => exact .step .refl hc
  | step _ h2 ih => exact .step ih h2

theorem dfs {I : NodeImpl N Sl V S P} {kids : N → List N} (hk : FixedKids I (fun n => (kids n).map some))
    {seen : S → List N} (hr : Remembers I seen) (L : List N) (hL : ∀ n ∈ L, ∀ c ∈ kids n, c ∈ L) (k : Nat) :
    ∀ v x s, x ∈ L → unseen L (seen s) ≤ k →
      ∃ s', walkI I (k + 1) v (some x) s = some (.ok s') ∧ DfsStep kids [x] (seen s) (seen s') := by
  induction k with
  | zero =>
    intro v x s hx hu
    by_cases hs : x ∈ seen s
    · obtain ⟨s', e, hs'⟩ := hr.known v x s hs
      refine ⟨s', by simp [walkI, e], ?_⟩
      rw [hs']
      have := DfsStep.nil kids (seen s)
      exact { this with roots := by simpa using hs, sound := fun n h => .inl h }
    · have := unseen_lt hx hs
      omega
  | succ k ih =>
    intro v x s hx hu
    by_cases hs : x ∈ seen s
    · obtain ⟨s', e, hs'⟩ := hr.known v x s hs
      refine ⟨s', by simp [walkI, e], ?_⟩
      rw [hs']
      have := DfsStep.nil kids (seen s)
      exact { this with roots := by simpa using hs, sound := fun n h => .inl h }
    · obtain ⟨s1, w, e1, hs1⟩ := hr.fresh v x s hs
      obtain ⟨s2, sl, e2, hl, hel⟩ := hk x s1
      have hs2 : seen s2 = x :: seen s := by rw [hr.childs _ _ _ _ e2, hs1]
      have hlt := unseen_lt hx hs
      have hloop : ∀ m i t, i + m = (kids x).length → unseen L (seen t) ≤ k →
          ∃ t', rangeLoop I (walkI I (k + 1) w) sl m i t = some (.ok t') ∧ DfsStep kids ((kids x).drop i) (seen t) (seen t') := by
        intro m
        induction m with
        | zero =>
          intro i t hi _
          refine ⟨t, rfl, ?_⟩
          have : i = (kids x).length := by omega
          subst this
          rw [List.drop_length]
          exact .nil kids _
        | succ m ihm =>
          intro i t hi hut
          have hlt : i < (kids x).length := by omega
          have he := hel i (some (kids x)[i]) (by simp [hlt]) t
          obtain ⟨t1, f1, f2⟩ := ih w (kids x)[i] t (hL x hx _ (List.getElem_mem _)) hut
          obtain ⟨t2, g1, g2⟩ := ihm (i + 1) t1 (by omega) (Nat.le_trans (unseen_le f2.grows) hut)
          refine ⟨t2, by rw [rangeLoop, he, f1]; exact g1, ?_⟩
          rw [List.drop_eq_getElem_cons hlt]
          exact f2.cons g2
      obtain ⟨t', f1, f2⟩ := hloop (I.len sl) 0 s2 (by simpa using hl) (by rw [hs2]; omega)
      refine ⟨t', ?_, ?_⟩
      · rw [walkI, e1]
        simp only [e2]
        exact f1
      · rw [List.drop_zero] at f2
        rw [hs2] at f2
        exact {
          grows := fun n h => f2.grows n (List.mem_cons_of_mem _ h)
          nodup := fun h => f2.nodup (List.nodup_cons.2 ⟨hs, h⟩)
          roots := by
            intro y hy
            simp only [List.mem_singleton] at hy
            subst hy
            exact f2.grows _ List.mem_cons_self
          closed := by
            intro n hn hna c hc
            by_cases hnx : n = x
            · subst hnx; exact f2.roots c hc
            · exact f2.closed n hn (by simp [hnx, hna]) c hc
          sound := by
            intro n hn
            rcases f2.sound n hn with h | ⟨y, hy, hry⟩
            · rcases List.mem_cons.1 h with rfl | h
              · exact .inr ⟨n, by simp, .refl⟩
              · exact .inl h
            · exact .inr ⟨x, by simp, hry.head hy⟩ }

/-- **C73.** With a visitor that remembers the nodes it has seen and returns nil on known ones, `Walk` returns on every
finite graph, shared nodes and cycles included, and has gone through each node reachable from the root exactly once. -/
theorem C73_remembering {I : NodeImpl N Sl V S P} {kids : N → List N} (hk : FixedKids I (fun n => (kids n).map some))
    {seen : S → List N} (hr : Remembers I seen) (root : N) (L : List N) (hL : ∀ n, NodeReaches kids root n → n ∈ L)
    (v : V) (s : S) (hs : seen s = []) :
    ∃ d s', walkI I d v (some root) s = some (.ok s') ∧ (seen s').Nodup ∧ ∀ n, n ∈ seen s' ↔ NodeReaches kids root n := by
  classical
  let L' := L.filter fun n => decide (NodeReaches kids root n)
  have hL' : ∀ n, n ∈ L' ↔ NodeReaches kids root n := by
    intro n
    simp only [L', List.mem_filter, decide_eq_true_eq]
    exact ⟨fun h => h.2, fun h => ⟨hL n h, h⟩⟩
  obtain ⟨s', h1, h2⟩ := dfs hk hr L' (fun n hn c hc => (hL' c).2 (.step ((hL' n).1 hn) hc)) _ v root s
    ((hL' root).2 .refl) (Nat.le_refl _)
  refine ⟨_, s', h1, h2.nodup (by simp [hs]), fun n => ⟨fun h => ?_, fun h => ?_⟩⟩
  · rcases h2.sound n h with h | ⟨x, hx, hr⟩
    · simp [hs] at h
    · simp only [List.mem_singleton] at hx; subst hx; exact hr
  · induction h with
    | refl => exact h2.roots _ (by simp)
    | step _ hc ih => exact h2.closed _ ih (by simp [hs]) _ hc

end dfs

/-! ## Non-vacuity -/

namespace Ex

/-- Nodes 0, 1, 2 with children 0 → 1, 2; 1 → 2; 2 → 0 if `cyclic`. -/
def kids3 (cyclic : Bool) : Nat → List Nat
  | 0 => [1, 2]
  | 1 => [2]
  | 2 => if cyclic then [0] else []
  | _ => []

/-- The visitor that remembers, and (with `remember = false`) the one that never prunes; memory: the nodes seen. -/
def graphImpl (cyclic remember : Bool) : NodeImpl Nat (List Nat) Unit (List Nat) String where
  visit _ x s := match x with
    | none => .ok (s, some ())
    | some n => if remember && s.contains n then .ok (s, none) else .ok (n :: s, some ())
  childs n s := .ok (s, kids3 cyclic n)
  len sl := sl.length
  elem sl i _ := sl[i]?
  nilNode := "nil"

theorem graphImpl_fixed (c r : Bool) : FixedKids (graphImpl c r) (fun n => (kids3 c n).map some) := by
  intro n s
  refine ⟨s, kids3 c n, rfl, by simp [graphImpl], ?_⟩
  intro i m hm s''
  simp only [List.getElem?_map, Option.map_eq_some_iff] at hm
  obtain ⟨a, h1, rfl⟩ := hm
  exact h1

theorem graphImpl_neverPrunes (c : Bool) : NeverPrunes (graphImpl c false) := by
  intro v x s
  cases x <;> simp [graphImpl]

theorem graphImpl_remembers (c : Bool) : Remembers (graphImpl c true) id where
  known v n s h := ⟨s, by simpa [graphImpl] using h, rfl⟩
  fresh v n s h := ⟨n :: s, (), by simpa [graphImpl] using h, rfl⟩
  childs n s s' sl h := by simp only [graphImpl, Except.ok.injEq, Prod.mk.injEq] at h; simp [h.1]

/-- Node 2 is visited twice on the graph without the cycle. -/
example : walkI (graphImpl false false) 5 () (some 0) [] = some (.ok [2, 2, 1, 0]) := by rfl

/-- The cycle: no result without memory (`C73_cycle`), each node once with memory. -/
example : (∀ d s', walkI (graphImpl true false) d () (some 0) [] ≠ some (.ok s')) ∧
    walkI (graphImpl true true) 5 () (some 0) [] = some (.ok [2, 1, 0]) :=
  ⟨fun d => (C73_cycle (graphImpl_fixed true false) (graphImpl_neverPrunes true) () (some 0) [] 0 [] [1, 0] (by decide) rfl rfl d).1,
    by rfl⟩

/-- One node whose only child is nil. -/
def nilKid : NodeImpl Unit (List (Option Unit)) Unit Unit String where
  visit _ _ s := .ok (s, some ())
  childs _ s := .ok (s, [none])
  len sl := sl.length
  elem sl i _ := sl[i]?.getD none
  nilNode := "nil"

theorem nilKid_entries (x : Option Unit) (path : List Nat) (y : Option Unit)
    (h : entryAt (fun _ => [none]) x path = some y) : path.length ≤ 1 := by
  match x, path with
  | _, [] => simp
  | none, _ :: _ => simp [entryAt] at h
  | some _, [i] => simp
  | some _, i :: j :: path =>
    simp only [entryAt] at h
    cases i <;> simp [entryAt] at h

example : ∃ d, walkI nilKid d () (some ()) () = some (.error "nil") :=
  C73_nil (kids := fun _ => [none]) (fun n s => ⟨s, [none], rfl, rfl, fun i m h _ => by simp [nilKid, h]⟩)
    (fun _ _ s => ⟨s, (), rfl⟩) () (some ()) () ⟨1, nilKid_entries _⟩ [0] rfl

end Ex

end LL1
