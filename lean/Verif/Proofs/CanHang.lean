import Verif.Spec.CanHang
import Verif.Props.Hang

/-!
# Proofs for C88
-/

namespace LL1

variable {tbl : Table}

theorem byteAt_left {w v : Str} {q : Nat} (h : q < w.length) : byteAt (w ++ v) q = byteAt w q := by
  simp [byteAt, List.getD_eq_getElem?_getD, List.getElem?_append_left h]

theorem byteAt_right {w v : Str} {q : Nat} : byteAt (w ++ v) (w.length + q) = byteAt v q := by
  simp [byteAt, List.getD_eq_getElem?_getD, List.getElem?_append_right]

theorem byteAt_here {w v : Str} {c : UInt8} : byteAt (w ++ c :: v) w.length = c := by
  have := @byteAt_right w (c :: v) 0
  rw [Nat.add_zero] at this
  rw [this]; rfl

theorem agree_extend {w v : Str} {d : UInt8} (h : byteAt (w ++ v) w.length = d) : AgreeTo (w ++ [d]) (w ++ v) w.length := by
  intro q hq
  rcases Nat.lt_or_ge q w.length with h' | h'
  · rw [byteAt_left h', byteAt_left h']
  · have : q = w.length := by omega
    subst this
    rw [h, byteAt_here]

/-! ## `Leads` -/

theorem Leads.sound {ops : List ParserOp} {b c : UInt8} (h : Leads tbl ops b c) : ∀ w : Str, ∃ (u : Str) (cs : List Node),
    byteAt (w ++ u ++ [c]) w.length = b ∧ Derives tbl (w ++ u ++ [c]) ops w.length (w ++ u).length cs := by
  induction h with
  | nil b => exact fun w => ⟨[], [], by simp [byteAt_here], by simpa using Derives.nil _⟩
  | @empty ops b c h ih =>
    intro w
    obtain ⟨u, cs, h1, h2⟩ := ih w
    exact ⟨u, _, h1, .lit (s := []) (fun k hk => (Nat.not_lt_zero _ hk).elim) (by simpa using h2)⟩
  | @lit rest ops b d c h ih =>
    intro w
    obtain ⟨u, cs, h1, h2⟩ := ih (w ++ (b :: rest))
    refine ⟨b :: rest ++ u, literalNode (b :: rest) w.length :: cs, ?_, .lit (s := b :: rest) ?_ ?_⟩
    · rw [show w ++ (b :: rest ++ u) ++ [c] = w ++ b :: (rest ++ u ++ [c]) by simp]
      exact byteAt_here
    · intro k hk
      rw [show w ++ (b :: rest ++ u) ++ [c] = w ++ ((b :: rest) ++ (u ++ [c])) by simp, byteAt_right,
        byteAt_left hk]
      simp only [byteAt, List.getD_eq_getElem?_getD, List.getElem?_eq_getElem hk, Option.getD_some]
    · simpa [Nat.add_assoc, Nat.add_comm, Nat.add_left_comm] using h2
  | @nt n body ops b d c hb h1 h2 ih1 ih2 =>
    intro w
    obtain ⟨u1, cs, e1, d1⟩ := ih1 w
    obtain ⟨u2, ds, e2, d2⟩ := ih2 (w ++ u1)
    have ha : AgreeTo (w ++ u1 ++ [d]) (w ++ u1 ++ (u2 ++ [c])) (w ++ u1).length :=
      agree_extend (by simpa [List.append_assoc] using e2)
    have hsrc : w ++ (u1 ++ u2) ++ [c] = w ++ u1 ++ (u2 ++ [c]) := by simp
    have hb' : byteAt (w ++ (u1 ++ u2) ++ [c]) w.length = b := by
      rw [hsrc, ← ha _ (by simp)]
      exact e1
    refine ⟨u1 ++ u2, _, hb', .nt (by rw [hb']; exact hb) (j := (w ++ u1).length) (cs := cs) (ds := ds) ?_ ?_⟩
    · rw [hsrc]
      exact d1.agree ha
    · simpa [List.append_assoc] using d2

theorem Derives.leads {src : Str} {ops : List ParserOp} {i j : Nat} {cs : List Node} (h : Derives tbl src ops i j cs) :
    Leads tbl ops (byteAt src i) (byteAt src j) := by
  induction h with
  | nil i => exact .nil _
  | @lit s ops i j cs hl _ ih =>
    cases s with
    | nil => exact .empty ih
    | cons a rest =>
      have := hl 0 (by simp)
      simp only [List.getElem?_cons_zero, Nat.add_zero, Option.some.injEq] at this
      rw [← this]
      exact .lit ih
  | nt hb _ _ ih1 ih2 => exact .nt hb ih1 ih2

/-! ## `CanEnter` -/

theorem CanEnter.sound {n : Int} {b : UInt8} (h : CanEnter tbl n b) :
    ∃ w : Str, Steps (Enters tbl (w ++ [b])) (0, 0) (n, w.length) := by
  induction h with
  | start b => exact ⟨[], .refl⟩
  | @inner n m b c pre post _ hb hl ih =>
    obtain ⟨w, hw⟩ := ih
    obtain ⟨u, cs, e, d⟩ := hl.sound w
    have ha : AgreeTo (w ++ [b]) (w ++ (u ++ [c])) w.length := agree_extend (by rw [← List.append_assoc]; exact e)
    refine ⟨w ++ u, .step (y := (n, w.length)) ?_ ⟨pre, post, cs, ?_, d⟩⟩
    · rw [List.append_assoc]
      exact hw.agree ha
    · rw [e]; exact hb

theorem CanEnter.of_steps {src : Str} {x : Int × Nat} (h : Steps (Enters tbl src) (0, 0) x) :
    CanEnter tbl x.1 (byteAt src x.2) := by
  induction h with
  | refl => exact .start _
  | step _ h2 ih =>
    obtain ⟨pre, post, cs, hb, hd⟩ := h2
    exact .inner ih hb hd.leads

/-! ## `ReadsNothing`, `ReadsNuls` -/

theorem ReadsNothing.leads {b : UInt8} {ops : List ParserOp} (h : ReadsNothing tbl b ops) : Leads tbl ops b b := by
  induction h with
  | nil => exact .nil _
  | lit _ ih => exact .empty ih
  | nt hb _ _ ih1 ih2 => exact .nt hb ih1 ih2

theorem ReadsNuls.leads {ops : List ParserOp} (h : ReadsNuls tbl ops) : Leads tbl ops 0 0 := by
  induction h with
  | nil => exact .nil _
  | @lit s ops hs _ ih =>
    cases s with
    | nil => exact .empty ih
    | cons a rest =>
      obtain rfl := hs a (by simp)
      exact .lit ih
  | nt hb _ _ ih1 ih2 => exact .nt hb ih1 ih2

theorem ReadsNothing.derives {b : UInt8} {ops : List ParserOp} (h : ReadsNothing tbl b ops) {src : Str} {i : Nat}
    (hi : byteAt src i = b) : ∃ cs, Derives tbl src ops i i cs := by
  induction h with
  | nil => exact ⟨_, .nil _⟩
  | lit _ ih =>
    obtain ⟨cs, h⟩ := ih
    exact ⟨_, .lit (s := []) (fun k hk => (Nat.not_lt_zero _ hk).elim) h⟩
  | nt hb _ _ ih1 ih2 =>
    obtain ⟨cs, h1⟩ := ih1
    obtain ⟨ds, h2⟩ := ih2
    exact ⟨_, .nt (by rw [hi]; exact hb) h1 h2⟩

theorem ReadsNuls.derives {ops : List ParserOp} (h : ReadsNuls tbl ops) {src : Str} : ∀ {i : Nat},
    (∀ q, i ≤ q → byteAt src q = 0) → ∃ j cs, i ≤ j ∧ Derives tbl src ops i j cs := by
  induction h with
  | nil => exact fun _ => ⟨_, _, Nat.le_refl _, .nil _⟩
  | @lit s ops hs _ ih =>
    intro i hi
    obtain ⟨j, cs, h1, h2⟩ := @ih (i + s.length) (fun q hq => hi q (by omega))
    refine ⟨j, _, by omega, .lit (fun k hk => ?_) h2⟩
    rw [List.getElem?_eq_getElem hk, hi _ (by omega), hs _ (List.getElem_mem hk)]
  | nt hb _ _ ih1 ih2 =>
    intro i hi
    obtain ⟨j, cs, h1, h2⟩ := ih1 hi
    obtain ⟨k, ds, h3, h4⟩ := @ih2 j (fun q hq => hi q (by omega))
    exact ⟨k, _, by omega, .nt (by rw [hi i (Nat.le_refl _)]; exact hb) h2 h4⟩

theorem Derives.readsNothing {src : Str} {ops : List ParserOp} {i j : Nat} {cs : List Node}
    (h : Derives tbl src ops i j cs) : j = i → ReadsNothing tbl (byteAt src i) ops := by
  induction h with
  | nil i => exact fun _ => .nil
  | @lit s ops i j cs hl hd ih =>
    intro hj
    have := hd.le
    cases s with
    | nil => exact .lit (ih hj)
    | cons a rest => simp at this; omega
  | @nt n body ops i j k cs ds hb h1 h2 ih1 ih2 =>
    intro hj
    have l1 := h1.le
    have l2 := h2.le
    have hji : j = i := by omega
    subst hji
    exact .nt hb (ih1 rfl) (ih2 hj)

theorem Derives.readsNuls {src : Str} {ops : List ParserOp} {i j : Nat} {cs : List Node}
    (h : Derives tbl src ops i j cs) : (∀ q, i ≤ q → byteAt src q = 0) → ReadsNuls tbl ops := by
  induction h with
  | nil i => exact fun _ => .nil
  | @lit s ops i j cs hl hd ih =>
    intro hz
    refine .lit (fun a ha => ?_) (ih fun q hq => hz q (by omega))
    obtain ⟨k, hk, rfl⟩ := List.getElem_of_mem ha
    have := hl k hk
    rw [List.getElem?_eq_getElem hk, hz _ (by omega)] at this
    exact Option.some.inj this
  | @nt n body ops i j k cs ds hb h1 h2 ih1 ih2 =>
    intro hz
    have l1 := h1.le
    exact .nt (by rw [← hz i (Nat.le_refl _)]; exact hb) (ih1 hz) (ih2 fun q hq => hz q (by omega))

/-! ## Hanging -/

theorem CanEnter.comes {b : UInt8} {n m : Int} (h : CanEnter tbl n b) (hc : ComesTo tbl b n m) : CanEnter tbl m b := by
  obtain ⟨pre, post, hb, hr⟩ := hc
  refine .inner h hb ?_
  rcases hr with hr | ⟨rfl, hr⟩
  · exact hr.leads
  · exact hr.leads

theorem CanEnter.steps {b : UInt8} {n m : Int} (h : CanEnter tbl n b) (hs : Steps (ComesTo tbl b) n m) :
    CanEnter tbl m b := by
  induction hs with
  | refl => exact h
  | step _ h2 ih => exact ih.comes h2

theorem Enters.comes {src : Str} {x y : Int × Nat} (h : Enters tbl src x y) (he : y.2 = x.2) :
    ComesTo tbl (byteAt src x.2) x.1 y.1 := by
  obtain ⟨pre, post, cs, hb, hd⟩ := h
  exact ⟨pre, post, hb, .inl (hd.readsNothing he)⟩

theorem Enters.comes_end {src : Str} {x y : Int × Nat} (h : Enters tbl src x y) (hx : src.length ≤ x.2) :
    ComesTo tbl 0 x.1 y.1 := by
  have hz : ∀ q, x.2 ≤ q → byteAt src q = 0 := by
    intro q hq
    simp [byteAt, List.getD_eq_getElem?_getD, List.getElem?_eq_none (show src.length ≤ q by omega)]
  obtain ⟨pre, post, cs, hb, hd⟩ := h
  exact ⟨pre, post, by rw [← hz _ (Nat.le_refl _)]; exact hb, .inr ⟨rfl, hd.readsNuls hz⟩⟩

theorem steps_comes {src : Str} {x y : Int × Nat} (h : Steps (Enters tbl src) x y) (he : y.2 = x.2) :
    Steps (ComesTo tbl (byteAt src x.2)) x.1 y.1 := by
  induction h with
  | refl => exact .refl
  | @step u v h1 h2 ih =>
    have l1 := steps_le h1
    have l2 := h2.le
    have hu : u.2 = x.2 := by omega
    have := h2.comes (by omega)
    rw [hu] at this
    exact .step (ih hu) this

theorem not_acc_of_comes {src : Str} {b : UInt8} {f : Nat → Int} (hf : ∀ k, ComesTo tbl b (f k) (f (k + 1)))
    {x : Int × Nat} (ha : Acc (fun y x => Enters tbl src x y) x) :
    ∀ k, x.1 = f k → byteAt src x.2 = b → (b = 0 → ∀ q, x.2 ≤ q → byteAt src q = 0) → False := by
  induction ha with
  | intro x _ ih =>
    intro k hk hb hz
    obtain ⟨pre, post, hbody, hr⟩ := hf k
    rcases hr with hr | ⟨rfl, hr⟩
    · obtain ⟨cs, hd⟩ := hr.derives hb
      exact ih (f (k + 1), x.2) ⟨pre, post, cs, by rw [hk, hb]; exact hbody, hd⟩ (k + 1) rfl hb hz
    · obtain ⟨j, cs, hj, hd⟩ := hr.derives (hz rfl)
      exact ih (f (k + 1), j) ⟨pre, post, cs, by rw [hk, hb]; exact hbody, hd⟩ (k + 1) rfl
        (hz rfl j hj) (fun _ q hq => hz rfl q (by simp at hq; omega))

theorem rows_finite (tbl : Table) : ∃ L : List Int, ∀ n b body, bodyFor tbl n b = some body → n ∈ L :=
  ⟨(Lin.cells tbl).map fun c => c.1, fun _ _ _ h => List.mem_map.2 ⟨_, Lin.mem_cells h, rfl⟩⟩

theorem chain_comes {src : Str} {f : Nat → Int × Nat} (h0 : f 0 = (0, 0)) (hf : ∀ k, Enters tbl src (f k) (f (k + 1))) :
    ∃ n b, CanEnter tbl n b ∧ Steps1 (ComesTo tbl b) n n := by
  obtain ⟨L, hL⟩ := rows_finite tbl
  have hrow : ∀ k, (f k).1 ∈ L := by
    intro k
    obtain ⟨pre, post, cs, hb, _⟩ := hf k
    exact hL _ _ _ hb
  have hent : ∀ k, CanEnter tbl (f k).1 (byteAt src (f k).2) := by
    intro k
    have := steps_of_chain hf 0 k
    rw [h0, Nat.zero_add] at this
    exact CanEnter.of_steps this
  by_cases hB : ∃ k, src.length ≤ (f k).2
  · obtain ⟨k, hk⟩ := hB
    have hge : ∀ j, src.length ≤ (f (k + j)).2 := by
      intro j
      induction j with
      | zero => exact hk
      | succ j ih => exact Nat.le_trans ih (hf (k + j)).le
    have hc : ∀ j, ComesTo tbl 0 (f (k + j)).1 (f (k + (j + 1))).1 := fun j => (hf (k + j)).comes_end (hge j)
    obtain ⟨n, h1, h2⟩ := loop_of_chain (f := fun j => (f (k + j)).1) hc L (fun j => hrow _)
    refine ⟨n, 0, CanEnter.steps ?_ h1, h2⟩
    have := hent k
    rwa [show byteAt src (f k).2 = 0 by
      simp [byteAt, List.getD_eq_getElem?_getD, List.getElem?_eq_none hk]] at this
  · have hlt : ∀ k, (f k).2 < src.length := fun k => Nat.lt_of_not_le fun h => hB ⟨k, h⟩
    obtain ⟨x, h1, y, h2, h3⟩ := loop_of_chain hf (L.flatMap fun n => (List.range src.length).map fun i => (n, i))
      (fun k => List.mem_flatMap.2 ⟨_, hrow k, List.mem_map.2 ⟨(f k).2, List.mem_range.2 (hlt k), rfl⟩⟩)
    rw [h0] at h1
    have l1 := steps_le h2
    have l2 := h3.le
    have hy : y.2 = x.2 := by omega
    have := h3.comes hy.symm
    rw [hy] at this
    exact ⟨x.1, byteAt src x.2, CanEnter.of_steps h1, y.1, steps_comes h2 hy, this⟩

/-! ## Cells that are never used -/

/-- Wherever a row can be wanted among `ops`, begun when the next byte is `b`, it can be wanted from row 0. -/
def Within (tbl : Table) (ops : List ParserOp) (b : UInt8) : Prop :=
  ∀ pre m post c, ops = pre ++ .nonTerminal m :: post → Leads tbl pre b c → CanEnter tbl m c

theorem Within.start (b : UInt8) : Within tbl [.nonTerminal 0] b := by
  intro pre m post c he hl
  cases pre with
  | nil =>
    cases he
    cases hl
    exact .start _
  | cons x xs => cases xs <;> cases he

theorem Within.body {n : Int} {b : UInt8} {body : List ParserOp} (h : CanEnter tbl n b) (hb : bodyFor tbl n b = some body) :
    Within tbl body b := by
  rintro pre m post c rfl hl
  exact .inner h hb hl

theorem Within.head {n : Int} {b : UInt8} {ops : List ParserOp} (h : Within tbl (.nonTerminal n :: ops) b) :
    CanEnter tbl n b := h [] n ops b rfl (.nil _)

theorem Within.tail {op : ParserOp} {b d : UInt8} {ops : List ParserOp} (h : Within tbl (op :: ops) b)
    (hl : ∀ {xs : List ParserOp} {c : UInt8}, Leads tbl xs d c → Leads tbl (op :: xs) b c) : Within tbl ops d := by
  rintro pre m post c rfl hp
  exact h (op :: pre) m post c rfl (hl hp)

theorem leads_lit {src s : Str} {i : Nat} (h : LitAt src s i) {xs : List ParserOp} {c : UInt8}
    (hx : Leads tbl xs (byteAt src (i + s.length)) c) : Leads tbl (.terminal s :: xs) (byteAt src i) c := by
  cases s with
  | nil => exact .empty hx
  | cons a rest =>
    have := h 0 (by simp)
    simp only [List.getElem?_cons_zero, Nat.add_zero, Option.some.injEq] at this
    rw [← this]
    exact .lit hx

/-- The two tables have the same cells where the first can come to; and the same rows there. -/
def SameWhereUsed (tbl tbl' : Table) : Prop :=
  ∀ n b, CanEnter tbl n b → bodyFor tbl' n b = bodyFor tbl n b ∧ (tbl'.get n).isSome = (tbl.get n).isSome

variable {tbl' : Table} (hs : SameWhereUsed tbl tbl')
include hs

theorem Derives.unused {src : Str} {ops : List ParserOp} {i j : Nat} {cs : List Node} (h : Derives tbl src ops i j cs) :
    Within tbl ops (byteAt src i) → Derives tbl' src ops i j cs := by
  induction h with
  | nil i => exact fun _ => .nil _
  | lit hl hd ih => exact fun hw => .lit hl (ih (hw.tail (leads_lit hl)))
  | nt hb h1 h2 ih1 ih2 =>
    intro hw
    refine .nt (by rw [(hs _ _ hw.head).1]; exact hb) (ih1 (Within.body hw.head hb)) (ih2 (hw.tail fun hx => ?_))
    exact .nt hb h1.leads hx

theorem whyNot_same {names : Option Names} {n : Int} {b : UInt8} (h : CanEnter tbl n b) :
    whyNot tbl' names n b = whyNot tbl names n b := by
  have := (hs n b h).2
  unfold whyNot
  split
  · cases h1 : tbl'.get n <;> cases h2 : tbl.get n <;> simp_all
  · rfl

theorem FailsAt.unused {names : Option Names} {src : Str} {ops : List ParserOp} {i k : Nat} {e : PErr}
    (h : FailsAt tbl names src ops i k e) : Within tbl ops (byteAt src i) → FailsAt tbl' names src ops i k e := by
  induction h with
  | lit h1 h2 h3 => exact fun _ => .lit h1 h2 h3
  | afterLit hl hf ih => exact fun hw => .afterLit hl (ih (hw.tail (leads_lit hl)))
  | noBody hb =>
    intro hw
    rw [← whyNot_same hs hw.head]
    exact .noBody (by rw [(hs _ _ hw.head).1]; exact hb)
  | inside hb _ ih =>
    intro hw
    exact .inside (by rw [(hs _ _ hw.head).1]; exact hb) (ih (Within.body hw.head hb))
  | afterNt hb hd _ ih =>
    intro hw
    exact .afterNt (by rw [(hs _ _ hw.head).1]; exact hb) (hd.unused hs (Within.body hw.head hb))
      (ih (hw.tail fun hx => .nt hb hd.leads hx))

theorem Enters.unused {src : Str} {x y : Int × Nat} (hx : CanEnter tbl x.1 (byteAt src x.2)) (h : Enters tbl src x y) :
    Enters tbl' src x y := by
  obtain ⟨pre, post, cs, hb, hd⟩ := h
  refine ⟨pre, post, cs, by rw [(hs _ _ hx).1]; exact hb, hd.unused hs ?_⟩
  rintro p m q c rfl hl
  exact .inner hx (by rw [hb, List.append_assoc]; rfl) hl

end LL1
