import Verif.Proofs.ParserHeap

/-!
# C70: stacks that share arrays, trees that do not
-/

namespace LL1
namespace PH

open Mem (Roomy)

theorem hrel_init {grow : Nat → Nat → Nat} (hg : Roomy grow) (om : Mem ParserOp) (nm : Mem HNode) :
    HRel om.next om.arrays nm.next nm.arrays (initState grow om nm) LL1.initState := by
  have h0 : HRel om.next om.arrays nm.next nm.arrays ⟨0, om, SliceRef.empty, nm, SliceRef.empty⟩ ⟨0, [], []⟩ :=
    ⟨rfl, Nat.le_refl _, fun _ _ => rfl, Mem.fits_empty _ _, by simp [Mem.read, SliceRef.empty], [],
      ⟨Nat.le_refl _, fun _ _ => rfl, Mem.fits_empty _ _, by simp [Mem.read, SliceRef.empty, ShowsAll],
        by simp [own, SliceRef.empty], by simp⟩⟩
  exact (h0.pushOp hg .eos).pushOp hg (.nonTerminal 0)

theorem sim_parse {grow : Nat → Nat → Nat} (hg : Roomy grow) (p : Parser) (fuel : Nat) (src : Source) (om : Mem ParserOp)
    (nm : Mem HNode) :
    (parseFuel grow p fuel src om nm = none ∧ p.parseFuel fuel src = none) ∨
    ∃ om' nm' ho o, parseFuel grow p fuel src om nm = some (om', nm', ho) ∧ p.parseFuel fuel src = some o ∧
      Frame om.next om.arrays nm.next nm.arrays om' nm' ∧ OutRel nm.next nm' ho o := by
  have hfr : Frame om.next om.arrays nm.next nm.arrays om nm :=
    ⟨Nat.le_refl _, fun _ _ => rfl, Nat.le_refl _, fun _ _ => rfl⟩
  unfold parseFuel Parser.parseFuel
  by_cases h0 : p.table.length = 0
  · rw [if_pos h0, if_pos h0]; exact .inr ⟨om, nm, _, _, rfl, rfl, hfr, .err⟩
  · rw [if_neg h0, if_neg h0]
    cases p.table.get 0 with
    | none => exact .inr ⟨om, nm, _, _, rfl, rfl, hfr, .err⟩
    | some row =>
      simp only
      cases readSource src with
      | error e => exact .inr ⟨om, nm, _, _, rfl, rfl, hfr, .err⟩
      | ok text =>
        rcases sim_run hg p.table p.names text fuel (hrel_init hg om nm) with ⟨h1, h2⟩ | ⟨hs, ho, o, h1, h2, h3, h4⟩
        · exact .inl ⟨by simp only [h1], h2⟩
        · exact .inr ⟨_, _, ho, o, by simp only [h1], h2, h3, h4⟩

/-! ## Editing a tree -/

theorem showsAll_length {m : Mem HNode} {ts : List Node} {hs : List HNode} {fp : List Nat} (h : ShowsAll m ts hs fp) :
    ts.length = hs.length := by
  induction ts generalizing hs fp with
  | nil => simp only [ShowsAll] at h; rw [h.1]; rfl
  | cons t ts ih =>
    simp only [ShowsAll] at h
    obtain ⟨x, hs', fp1, fp2, rfl, _, h2, _⟩ := h
    simp [ih h2]

theorem showsAll_split {m : Mem HNode} {ts : List Node} {hs : List HNode} {fp : List Nat} (h : ShowsAll m ts hs fp)
    {i : Nat} {x : HNode} (hx : hs[i]? = some x) :
    ∃ as t bs has hbs f1 f2 f3, ts = as ++ t :: bs ∧ hs = has ++ x :: hbs ∧ fp = f1 ++ (f2 ++ f3) ∧ as.length = i ∧
      has.length = i ∧ ShowsAll m as has f1 ∧ Shows m t x f2 ∧ ShowsAll m bs hbs f3 := by
  induction ts generalizing hs fp i with
  | nil => simp only [ShowsAll] at h; rw [h.1] at hx; simp at hx
  | cons t ts ih =>
    simp only [ShowsAll] at h
    obtain ⟨y, hs', fp1, fp2, rfl, h1, h2, rfl⟩ := h
    cases i with
    | zero =>
      simp only [List.getElem?_cons_zero, Option.some.injEq] at hx
      subst hx
      exact ⟨[], t, ts, [], hs', [], fp1, fp2, rfl, rfl, rfl, rfl, rfl, by simp [ShowsAll], h1, h2⟩
    | succ i =>
      simp only [List.getElem?_cons_succ] at hx
      obtain ⟨as, t', bs, has, hbs, f1, f2, f3, rfl, rfl, rfl, e1, e2, e3, e4, e5⟩ := ih h2 hx
      refine ⟨t :: as, t', bs, y :: has, hbs, fp1 ++ f1, f2, f3, rfl, rfl, by simp, by simp [e1], by simp [e2], ?_, e4, e5⟩
      simp only [ShowsAll]
      exact ⟨y, has, fp1, f1, rfl, h1, e3, rfl⟩

theorem showsAll_join {m : Mem HNode} {as bs : List Node} {t : Node} {has hbs : List HNode} {x : HNode} {f1 f2 f3 : List Nat}
    (h1 : ShowsAll m as has f1) (h2 : Shows m t x f2) (h3 : ShowsAll m bs hbs f3) :
    ShowsAll m (as ++ t :: bs) (has ++ x :: hbs) (f1 ++ (f2 ++ f3)) :=
  showsAll_append h1 (by simp only [ShowsAll]; exact ⟨x, hbs, f2, f3, rfl, h2, h3, rfl⟩)

/-- The array of a node with children below `h` is one of the tree's. -/
theorem descend_mem {m : Mem HNode} {path : List Nat} {t : Node} {h x : HNode} {fp : List Nat} (hs : Shows m t h fp)
    (hd : h.descend m path = some x) (hx : 0 < x.childs.cap) : x.childs.arr ∈ fp := by
  induction path generalizing t h fp with
  | nil =>
    cases t
    simp only [Shows] at hs
    obtain ⟨_, _, _, fp', _, rfl⟩ := hs
    simp only [HNode.descend, Option.some.injEq] at hd
    subst hd
    exact List.mem_append_left _ (mem_own hx)
  | cons i path ih =>
    cases t
    simp only [Shows] at hs
    obtain ⟨_, _, _, fp', hc, rfl⟩ := hs
    unfold HNode.descend at hd
    cases hi : (m.read h.childs)[i]? with
    | none => simp [hi] at hd
    | some c =>
      simp only [hi] at hd
      obtain ⟨_, t', _, _, _, f1, f2, f3, _, _, rfl, _, _, _, hs', _⟩ := showsAll_split hc hi
      simp only [List.mem_append]
      exact .inr (.inr (.inl (ih hs' hd)))

theorem modify_mid {α : Type} (as bs : List α) (x : α) (f : α → α) :
    (as ++ x :: bs).modify as.length f = as ++ f x :: bs := by
  induction as with
  | nil => rfl
  | cons a as ih => simpa using ih

theorem shows_store {m : Mem HNode} {path : List Nat} {t : Node} {h x : HNode} {fp : List Nat} (hs : Shows m t h fp)
    (hn : fp.Nodup) (hd : h.descend m path = some x) {i : Nat} (hi : i < (m.read x.childs).length) {t' : Node} {h' : HNode}
    {fp' : List Nat} (hs' : Shows m t' h' fp') (hdis : ∀ a ∈ fp', a ∉ fp) :
    ∃ fp'', Shows (m.store x.childs i h') (t.replaceAt (path ++ [i]) t') h fp'' := by
  have hcap : 0 < x.childs.cap := by
    rcases Nat.eq_zero_or_pos x.childs.cap with h0 | h0
    · simp [Mem.read, h0] at hi
    · exact h0
  have hother : ∀ a, a ≠ x.childs.arr → (m.store x.childs i h').arrays a = m.arrays a := by
    intro a ha; simp [Mem.store, Mem.write, ha]
  induction path generalizing t h fp with
  | nil =>
    cases t with
    | mk ty p e cs =>
    simp only [HNode.descend, Option.some.injEq] at hd
    subst hd
    simp only [Shows] at hs
    obtain ⟨h1, h2, h3, f0, hc, rfl⟩ := hs
    have hno : h.childs.arr ∉ f0 := fun hm => (List.nodup_append.1 hn).2.2 _ (mem_own hcap) _ hm rfl
    have hx : (m.read h.childs)[i]? = some ((m.read h.childs)[i]'hi) := List.getElem?_eq_getElem hi
    have hread : (m.store h.childs i h').read h.childs = (m.read h.childs).set i h' := by
      have h0 : h.childs.cap ≠ 0 := by omega
      simp [Mem.read, Mem.store, Mem.write, h0, List.take_set]
    have hc' : ShowsAll (m.store h.childs i h') cs (m.read h.childs) f0 :=
      showsAll_congr _ hc fun a ha => hother a (by rintro rfl; exact hno ha)
    obtain ⟨as, t0, bs, has, hbs, f1, f2, f3, rfl, e0, rfl, e1, e2, e3, _, e5⟩ := showsAll_split hc' hx
    have hs'' : Shows (m.store h.childs i h') t' h' fp' :=
      shows_congr _ hs' fun a ha => hother a (by
        rintro rfl; exact hdis _ ha (List.mem_append_left _ (mem_own hcap)))
    refine ⟨own h.childs ++ (f1 ++ (fp' ++ f3)), ?_⟩
    simp only [List.nil_append, Node.replaceAt, Shows]
    refine ⟨h1, h2, h3, _, ?_, rfl⟩
    rw [hread, e0]
    have hset : (has ++ (m.read h.childs)[i] :: hbs).set i h' = has ++ h' :: hbs := by
      rw [List.set_append_right _ _ (by omega), e2]; simp
    have hmod : (as ++ t0 :: bs).modify i (fun _ => t') = as ++ t' :: bs := by
      subst e1
      exact modify_mid _ _ _ _
    rw [hset, hmod]
    exact showsAll_join e3 hs'' e5
  | cons j path ih =>
    cases t with
    | mk ty p e cs =>
    simp only [Shows] at hs
    obtain ⟨h1, h2, h3, f0, hc, rfl⟩ := hs
    unfold HNode.descend at hd
    cases hj : (m.read h.childs)[j]? with
    | none => simp [hj] at hd
    | some c =>
      simp only [hj] at hd
      obtain ⟨as, t0, bs, has, hbs, f1, f2, f3, rfl, e0, rfl, e1, e2, e3, e4, e5⟩ := showsAll_split hc hj
      have hmem := descend_mem e4 hd hcap
      have hn0 := (List.nodup_append.1 hn)
      have hn1 := List.nodup_append.1 hn0.2.1
      have hn2 := List.nodup_append.1 hn1.2.1
      obtain ⟨g2, ihs⟩ := ih e4 hn2.1 hd (fun a ha hf => hdis a ha (by
        simp only [List.mem_append]; exact .inr (.inr (.inl hf))))
      have h0 : 0 < h.childs.cap := by
        rcases Nat.eq_zero_or_pos h.childs.cap with h0 | h0
        · simp [Mem.read, h0] at hj
        · exact h0
      have hne : h.childs.arr ≠ x.childs.arr := by
        intro he
        exact hn0.2.2 _ (mem_own h0) _ (List.mem_append_right _ (List.mem_append_left _ hmem)) he
      have hread : (m.store x.childs i h').read h.childs = m.read h.childs := Mem.read_congr fun _ => hother _ hne
      have e3' := showsAll_congr (m' := m.store x.childs i h') _ e3 fun a ha => hother a (by
        rintro rfl; exact hn1.2.2 _ ha _ (List.mem_append_left _ hmem) rfl)
      have e5' := showsAll_congr (m' := m.store x.childs i h') _ e5 fun a ha => hother a (by
        rintro rfl; exact hn2.2.2 _ hmem _ ha rfl)
      refine ⟨own h.childs ++ (f1 ++ (g2 ++ f3)), ?_⟩
      simp only [List.cons_append, Node.replaceAt, Shows]
      refine ⟨h1, h2, h3, _, ?_, rfl⟩
      rw [hread, e0]
      have hmod : (as ++ t0 :: bs).modify j (fun n => n.replaceAt (path ++ [i]) t') =
          as ++ t0.replaceAt (path ++ [i]) t' :: bs := by
        subst e1
        exact modify_mid _ _ _ _
      rw [hmod]
      exact showsAll_join e3' ihs e5'

mutual
theorem shows_unique {m : Mem HNode} : (t : Node) → {t' : Node} → {h : HNode} → {fp fp' : List Nat} → Shows m t h fp →
    Shows m t' h fp' → t = t'
  | .mk ty p e cs, .mk ty' p' e' cs', h, fp, fp', h1, h2 => by
    simp only [Shows] at h1 h2
    obtain ⟨rfl, rfl, rfl, f, hc, _⟩ := h1
    obtain ⟨rfl, rfl, rfl, f', hc', _⟩ := h2
    rw [showsAll_unique cs hc hc']
theorem showsAll_unique {m : Mem HNode} : (ts : List Node) → {ts' : List Node} → {hs : List HNode} → {fp fp' : List Nat} →
    ShowsAll m ts hs fp → ShowsAll m ts' hs fp' → ts = ts'
  | [], ts', hs, fp, fp', h1, h2 => by
    have e1 := showsAll_length h1
    have e2 := showsAll_length h2
    rw [← e1] at e2
    exact (List.length_eq_zero_iff.1 e2).symm
  | t :: ts, [], hs, fp, fp', h1, h2 => by
    have e1 := showsAll_length h1
    have e2 := showsAll_length h2
    rw [← e1] at e2
    simp at e2
  | t :: ts, t' :: ts', hs, fp, fp', h1, h2 => by
    simp only [ShowsAll] at h1 h2
    obtain ⟨x, hs1, f1, f2, rfl, a1, a2, _⟩ := h1
    obtain ⟨y, hs2, g1, g2, he, b1, b2, _⟩ := h2
    simp only [List.cons.injEq] at he
    obtain ⟨rfl, rfl⟩ := he
    rw [shows_unique t a1 b1, showsAll_unique ts a2 b2]
end

/-! ## Histories -/

theorem Results.congr {m m' : Mem HNode} {calls : List (Parser × Source)} {os : List HOutcome} {fps : List Nat}
    (h : Results m calls os fps) (hc : ∀ a ∈ fps, m'.arrays a = m.arrays a) : Results m' calls os fps := by
  induction h with
  | nil => exact .nil
  | ok h1 h2 _ ih =>
    exact .ok h1 (shows_congr _ h2 fun a ha => hc a (List.mem_append_left _ ha))
      (ih fun a ha => hc a (List.mem_append_right _ ha))
  | err h1 _ ih => exact .err h1 (ih hc)
  | panic h1 _ ih => exact .panic h1 (ih hc)

theorem Calls.results {grow : Nat → Nat → Nat} (hg : Roomy grow) {om om' : Mem ParserOp} {nm nm' : Mem HNode}
    {calls : List (Parser × Source)} {os : List HOutcome} (h : Calls grow om nm calls om' nm' os) :
    Frame om.next om.arrays nm.next nm.arrays om' nm' ∧
    ∃ fps, Results nm' calls os fps ∧ fps.Nodup ∧ ∀ a ∈ fps, nm.next ≤ a ∧ a < nm'.next := by
  induction h with
  | nil => exact ⟨⟨Nat.le_refl _, fun _ _ => rfl, Nat.le_refl _, fun _ _ => rfl⟩, [], .nil, by simp, by simp⟩
  | @cons om om1 om2 nm nm1 nm2 p src calls o os fuel hp _ ih =>
    obtain ⟨hf, fps, hr, hn, hb⟩ := ih
    rcases sim_parse hg p fuel src om nm with ⟨h1, _⟩ | ⟨om', nm', ho, o', h1, h2, h3, h4⟩
    · rw [h1] at hp; cases hp
    · rw [h1] at hp
      simp only [Option.some.injEq, Prod.mk.injEq] at hp
      obtain ⟨rfl, rfl, rfl⟩ := hp
      have hbl := h3.base_le
      have hbl2 := hf.base_le
      refine ⟨⟨Nat.le_trans h3.opBase hf.opBase,
        fun a ha => by rw [hf.ops a (Nat.lt_of_lt_of_le ha h3.opBase), h3.ops a ha], by omega,
        fun a ha => by rw [hf.nodes a (by omega), h3.nodes a ha]⟩, ?_⟩
      cases h4 with
      | ok hs hnd hbs =>
        refine ⟨_, .ok ⟨fuel, h2⟩ (shows_congr _ hs fun a ha => hf.nodes a (hbs a ha).2) hr, ?_, ?_⟩
        · rw [List.nodup_append]
          refine ⟨hnd, hn, ?_⟩
          intro a ha b hb' hab
          have := (hbs a ha).2
          have := (hb b hb').1
          omega
        · intro a ha
          rcases List.mem_append.1 ha with ha | ha
          · have := hbs a ha; omega
          · have := hb a ha; omega
      | err => exact ⟨fps, .err ⟨fuel, h2⟩ hr, hn, fun a ha => by have := hb a ha; omega⟩
      | panic => exact ⟨fps, .panic ⟨fuel, h2⟩ hr, hn, fun a ha => by have := hb a ha; omega⟩

theorem Results.get {m : Mem HNode} {calls : List (Parser × Source)} {os : List HOutcome} {fps : List Nat}
    (hr : Results m calls os fps) {k : Nat} {h : HNode} {names : Names} (hk : os[k]? = some (.ok h names)) :
    ∃ p src t fp, calls[k]? = some (p, src) ∧ p.Returns src (.ok t names) ∧ Shows m t h fp ∧ fp.Sublist fps := by
  induction hr generalizing k with
  | nil => simp at hk
  | @ok p src calls os fp fps t h' names' h1 h2 _ ih =>
    cases k with
    | zero =>
      simp only [List.getElem?_cons_zero, Option.some.injEq, HOutcome.ok.injEq] at hk
      obtain ⟨rfl, rfl⟩ := hk
      exact ⟨p, src, t, fp, rfl, h1, h2, List.sublist_append_left _ _⟩
    | succ k =>
      obtain ⟨p, src, t, fp', e1, e2, e3, e4⟩ := ih (by simpa using hk)
      exact ⟨p, src, t, fp', by simpa using e1, e2, e3, e4.trans (List.sublist_append_right _ _)⟩
  | err _ _ ih =>
    cases k with
    | zero => simp at hk
    | succ k => simpa using ih (by simpa using hk)
  | panic _ _ ih =>
    cases k with
    | zero => simp at hk
    | succ k => simpa using ih (by simpa using hk)

theorem Results.apart {m : Mem HNode} {calls : List (Parser × Source)} {os : List HOutcome} {fps : List Nat}
    (hr : Results m calls os fps) (hn : fps.Nodup) {k l : Nat} (hkl : k ≠ l) {h h' : HNode} {names names' : Names}
    (hk : os[k]? = some (.ok h names)) (hl : os[l]? = some (.ok h' names')) :
    ∃ t fp t' fp', Shows m t h fp ∧ Shows m t' h' fp' ∧ (∀ a ∈ fp, a ∉ fp') ∧
      (∃ p src, calls[l]? = some (p, src) ∧ p.Returns src (.ok t' names')) := by
  induction hr generalizing k l with
  | nil => simp at hk
  | @ok p src calls os fp fps t h₀ names₀ h1 h2 hr ih =>
    have hnd := List.nodup_append.1 hn
    cases k with
    | zero =>
      simp only [List.getElem?_cons_zero, Option.some.injEq, HOutcome.ok.injEq] at hk
      obtain ⟨rfl, rfl⟩ := hk
      cases l with
      | zero => exact absurd rfl hkl
      | succ l =>
        obtain ⟨p', src', t', fp', e1, e2, e3, e4⟩ := hr.get (by simpa using hl)
        exact ⟨t, fp, t', fp', h2, e3, fun a ha ha' => hnd.2.2 a ha a (e4.subset ha') rfl, p', src', by simpa using e1, e2⟩
    | succ k =>
      cases l with
      | zero =>
        simp only [List.getElem?_cons_zero, Option.some.injEq, HOutcome.ok.injEq] at hl
        obtain ⟨rfl, rfl⟩ := hl
        obtain ⟨p', src', t', fp', e1, e2, e3, e4⟩ := hr.get (by simpa using hk)
        exact ⟨t', fp', t, fp, e3, h2, fun a ha ha' => hnd.2.2 a ha' a (e4.subset ha) rfl, p, src, rfl, h1⟩
      | succ l => simpa using ih (k := k) (l := l) hnd.2.1 (by omega) (by simpa using hk) (by simpa using hl)
  | err _ _ ih =>
    cases k with
    | zero => simp at hk
    | succ k =>
      cases l with
      | zero => simp at hl
      | succ l => simpa using ih (k := k) (l := l) hn (by omega) (by simpa using hk) (by simpa using hl)
  | panic _ _ ih =>
    cases k with
    | zero => simp at hk
    | succ k =>
      cases l with
      | zero => simp at hl
      | succ l => simpa using ih (k := k) (l := l) hn (by omega) (by simpa using hk) (by simpa using hl)

end PH

open PH in
/-- What a caller sees of a tree in memory is one tree. -/
theorem C70_sees_one_tree (m : Mem HNode) (h : HNode) (t t' : Node) (h1 : Says m h t) (h2 : Says m h t') : t = t' := by
  obtain ⟨_, h1⟩ := h1
  obtain ⟨_, h2⟩ := h2
  exact shows_unique t h1 h2

open PH Mem in
/-- **C70.** With both stacks in arrays that `append` grows and later pushes overwrite, `Parse` ends exactly as it does
with the stacks as values — whatever capacities the runtime chooses and whatever is in memory — and the tree it returns
is in memory the tree of the value model.  Nothing that was in memory before is changed. -/
theorem C70_memory (grow : Nat → Nat → Nat) (hg : Roomy grow) (p : Parser) (fuel : Nat) (src : Source) (om : Mem ParserOp)
    (nm : Mem HNode) :
    (PH.parseFuel grow p fuel src om nm = none ∧ p.parseFuel fuel src = none) ∨
    ∃ om' nm' ho o, PH.parseFuel grow p fuel src om nm = some (om', nm', ho) ∧ p.parseFuel fuel src = some o ∧
      (∀ a, a < om.next → om'.arrays a = om.arrays a) ∧ (∀ a, a < nm.next → nm'.arrays a = nm.arrays a) ∧
      ((∃ h t names, ho = .ok h names ∧ o = .ok t names ∧ Says nm' h t) ∨ (∃ e, ho = .err e ∧ o = .err e) ∨
        (∃ e, ho = .panic e ∧ o = .panic e)) := by
  rcases sim_parse hg p fuel src om nm with h | ⟨om', nm', ho, o, h1, h2, h3, h4⟩
  · exact .inl h
  · refine .inr ⟨om', nm', ho, o, h1, h2, h3.ops, h3.nodes, ?_⟩
    cases h4 with
    | ok hs _ _ => exact .inl ⟨_, _, _, rfl, rfl, _, hs⟩
    | err => exact .inr (.inl ⟨_, rfl, rfl⟩)
    | panic => exact .inr (.inr ⟨_, rfl, rfl⟩)

open PH Mem in
/-- **C70.** After any number of calls, by any parsers, every tree returned along the way is still the tree its call
returned: later calls do not disturb it. -/
theorem C70_trees_last (grow : Nat → Nat → Nat) (hg : Roomy grow) (om om' : Mem ParserOp) (nm nm' : Mem HNode)
    (calls : List (Parser × Source)) (os : List HOutcome) (h : Calls grow om nm calls om' nm' os) (k : Nat) (t : HNode)
    (names : Names) (hk : os[k]? = some (.ok t names)) :
    ∃ p src v, calls[k]? = some (p, src) ∧ p.Returns src (.ok v names) ∧ Says nm' t v := by
  obtain ⟨_, fps, hr, _, _⟩ := h.results hg
  obtain ⟨p, src, v, fp, e1, e2, e3, _⟩ := hr.get hk
  exact ⟨p, src, v, e1, e2, fp, e3⟩

open PH Mem in
/-- **C70.** A caller may edit the slices `Childs()` hands out: overwriting child `i` of the node at `path` in one of the
returned trees changes that tree at that position only, and no other returned tree. -/
theorem C70_edits_stay_local (grow : Nat → Nat → Nat) (hg : Roomy grow) (om om' : Mem ParserOp) (nm nm' : Mem HNode)
    (calls : List (Parser × Source)) (os : List HOutcome) (h : Calls grow om nm calls om' nm' os) (k : Nat) (t : HNode)
    (names : Names) (hk : os[k]? = some (.ok t names)) (path : List Nat) (x : HNode) (hx : t.descend nm' path = some x)
    (i : Nat) (hi : i < (nm'.read x.childs).length) (new : HNode) (hnew : new.childs = SliceRef.empty) :
    (∀ v, Says nm' t v →
      Says (nm'.store x.childs i new) t (v.replaceAt (path ++ [i]) (.mk new.type new.pos new.stop []))) ∧
    ∀ l t' names', l ≠ k → os[l]? = some (.ok t' names') → ∀ v, Says nm' t' v → Says (nm'.store x.childs i new) t' v := by
  obtain ⟨_, fps, hr, hn, _⟩ := h.results hg
  constructor
  · intro v hv
    obtain ⟨p, src, v', fp, _, _, e3, e4⟩ := hr.get hk
    obtain ⟨_, hv⟩ := hv
    obtain rfl := shows_unique v hv e3
    refine shows_store e3 (hn.sublist e4) hx hi (fp' := []) ?_ (by simp)
    simp only [Shows, true_and]
    exact ⟨[], by rw [hnew]; simp [ShowsAll, Mem.read, SliceRef.empty], by rw [hnew]; simp [own, SliceRef.empty]⟩
  · intro l t' names' hl ht' v hv
    obtain ⟨v1, fp, v2, fp', e1, e2, e3, _⟩ := hr.apart hn (k := k) (l := l) (fun h => hl h.symm) hk ht'
    obtain ⟨_, hv⟩ := hv
    obtain rfl := shows_unique v hv e2
    have hcap : 0 < x.childs.cap := by
      rcases Nat.eq_zero_or_pos x.childs.cap with h0 | h0
      · simp [Mem.read, h0] at hi
      · exact h0
    have hm := descend_mem e1 hx hcap
    refine ⟨fp', shows_congr _ e2 fun a ha => ?_⟩
    have hne : a ≠ x.childs.arr := by rintro rfl; exact e3 _ hm ha
    simp [Mem.store, Mem.write, hne]

section Example
open PH Mem

/-- S ::= "a" S "b" | ; with doubling capacities. -/
private def exParser : Parser :=
  ⟨[(0, [(97, [.terminal b!"a", .nonTerminal 0, .terminal b!"b"]), (98, []), (0, [])])], some []⟩

private def exGrow : Nat → Nat → Nat := fun _ n => 2 * n

private def exCall (om : Mem ParserOp) (nm : Mem HNode) : Option (Mem ParserOp × Mem HNode × HOutcome) :=
  PH.parseFuel exGrow exParser 100 (.buffer (some b!"aabb")) om nm

/-- Two calls one after the other that meet the hypotheses; in the trees there is a node with children to edit. -/
example : Roomy exGrow ∧ ∃ om nm om1 nm1 t1 n1 om2 nm2 t2 n2,
    exCall om nm = some (om1, nm1, .ok t1 n1) ∧ exCall om1 nm1 = some (om2, nm2, .ok t2 n2) ∧
    Calls exGrow om nm [(exParser, .buffer (some b!"aabb")), (exParser, .buffer (some b!"aabb"))] om2 nm2
      [.ok t1 n1, .ok t2 n2] ∧
    t1.childs.arr ≠ t2.childs.arr ∧ ∃ x, t1.descend nm2 [1] = some x ∧ 2 < (nm2.read x.childs).length := by
  refine ⟨fun _ n => by show n ≤ 2 * n; omega, ⟨0, fun _ => []⟩, ⟨0, fun _ => []⟩, _, _, _, _, _, _, _, _, rfl, rfl,
    .cons (fuel := 100) rfl (.cons (fuel := 100) rfl .nil), by decide +kernel, _, rfl, by decide +kernel⟩
end Example

end LL1
