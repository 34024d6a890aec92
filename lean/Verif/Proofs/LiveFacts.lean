import Verif.Proofs.Live
import Verif.Props.Hang

/-!
# A source that changes: trees, loops, grammars
-/

namespace LL1

variable {tbl : Table} {names : Option Names} {mem : Nat → Str}

/-! ## Trees -/

/-- Every node lies in `[0, j]` and is tiled by its children. -/
def WellTiled (j : Nat) (t : Node) : Prop :=
  ∀ n ∈ preorder t, n.pos ≤ n.stop ∧ n.stop ≤ j ∧ (n.childs ≠ [] → Tiles n.pos n.childs n.stop)

theorem WellTiled.mono {j k : Nat} {t : Node} (h : WellTiled j t) (hjk : j ≤ k) : WellTiled k t := by
  intro n hn
  obtain ⟨h1, h2, h3⟩ := h n hn
  exact ⟨h1, by omega, h3⟩

theorem wellTiled_mk {j : Nat} {n : Int} {a b : Nat} {cs : List Node} (hab : a ≤ b) (hb : b ≤ j)
    (ht : cs ≠ [] → Tiles a cs b) (hc : ∀ c ∈ cs, WellTiled j c) : WellTiled j (.mk n a b cs) := by
  intro m hm
  simp only [preorder, List.mem_cons, List.mem_flatten, List.mem_map] at hm
  rcases hm with rfl | ⟨_, ⟨c, hc', rfl⟩, hm⟩
  · exact ⟨hab, hb, ht⟩
  · exact hc c hc' m hm

theorem LiveDerives.tiled {ops : List ParserOp} {r i r' j : Nat} {cs : List Node}
    (h : LiveDerives tbl mem ops r i r' j cs) : Tiles i cs j ∧ ∀ c ∈ cs, WellTiled j c := by
  induction h with
  | nil => exact ⟨rfl, by simp⟩
  | @lit s ops r i r' j cs hl hd ih =>
    have hle := hd.le.1
    refine ⟨⟨rfl, ih.1⟩, ?_⟩
    intro c hc
    rcases List.mem_cons.1 hc with rfl | hc
    · refine wellTiled_mk (by omega) hle ?_ ?_
      · intro _
        by_cases hs : s = []
        · subst hs; simp [Tiles, nothingNode]
        · simp_all
      · intro c hc
        by_cases hs : s = []
        · subst hs
          simp only [if_true, List.mem_singleton] at hc
          subst hc
          exact wellTiled_mk (Nat.le_refl _) (by simpa using hle) (by simp) (by simp)
        · simp [hs] at hc
    · exact ih.2 c hc
  | @nt n body ops r i r' j r'' k cs ds hb hd1 hd2 ih1 ih2 =>
    have hle1 := hd1.le.1
    have hle2 := hd2.le.1
    refine ⟨⟨rfl, ih2.1⟩, ?_⟩
    intro c hc
    rcases List.mem_cons.1 hc with rfl | hc
    · refine wellTiled_mk hle1 hle2 ?_ ?_
      · intro _
        by_cases hs : body = []
        · subst hs
          have := hd1.nil_inv.2.1
          subst this
          simp [Tiles, nothingNode]
        · simpa [hs] using ih1.1
      · intro c hc
        by_cases hs : body = []
        · subst hs
          simp only [if_true, List.mem_singleton] at hc
          subst hc
          exact wellTiled_mk (Nat.le_refl _) (by omega) (by simp) (by simp)
        · simp only [hs, if_false] at hc
          exact (ih1.2 c hc).mono hle2
    · exact ih2.2 c hc

theorem liveLit_inside {s : Str} {r i L : Nat} (hL : ∀ r, (mem r).length = L)
    (h : ∀ k, k < s.length → s[k]? = some (byteAt (mem (r + k)) (i + k))) :
    (s.head? ≠ some 0 → s ≠ [] → i < L) ∧ ((0 : UInt8) ∉ s → i ≤ L → i + s.length ≤ L) := by
  constructor
  · intro h0 hs
    obtain ⟨c, s, rfl⟩ := List.exists_cons_of_ne_nil hs
    have := h 0 (by simp)
    rcases Nat.lt_or_ge i L with hlt | hge
    · exact hlt
    · rw [byteAt_ge (by rw [hL]; omega)] at this
      exact absurd (by simpa using this) h0
  · intro h0 hi
    rcases Nat.lt_or_ge L (i + s.length) with hlt | hge
    · exfalso
      have := h (L - i) (by omega)
      rw [byteAt_ge (by rw [hL]; omega)] at this
      exact h0 (List.mem_of_getElem? this)
    · exact hge

theorem LiveDerives.bound {L : Nat} (hL : ∀ r, (mem r).length = L) (hnf : tbl.NulFree) {ops : List ParserOp}
    {r i r' j : Nat} {cs : List Node} (h : LiveDerives tbl mem ops r i r' j cs)
    (ho : ∀ s, ParserOp.terminal s ∈ ops → (0 : UInt8) ∉ s) (hi : i ≤ L) : j ≤ L := by
  induction h with
  | nil => exact hi
  | lit hl _ ih =>
    exact ih (fun s hs => ho s (List.mem_cons_of_mem _ hs)) ((liveLit_inside hL hl).2 (ho _ List.mem_cons_self) hi)
  | nt hb _ _ ih1 ih2 =>
    exact ih2 (fun s hs => ho s (List.mem_cons_of_mem _ hs)) (ih1 (bodyFor_nulFree hnf hb) hi)

theorem LiveDerives.bound_start {L : Nat} (hL : ∀ r, (mem r).length = L) (hnf : tbl.NulStartFree) {B : Nat}
    (hB : ∀ n b body, bodyFor tbl n b = some body → ∀ s, ParserOp.terminal s ∈ body → s.length ≤ B)
    {ops : List ParserOp} {r i r' j : Nat} {cs : List Node} (h : LiveDerives tbl mem ops r i r' j cs)
    (ho : ∀ s, ParserOp.terminal s ∈ ops → s.head? ≠ some 0)
    (hl : ∀ s, ParserOp.terminal s ∈ ops → s.length ≤ B) (hi : i ≤ L + B) : j ≤ L + B := by
  induction h with
  | nil => exact hi
  | @lit s ops r i r' j cs hlit hd ih =>
    refine ih (fun s hs => ho s (List.mem_cons_of_mem _ hs)) (fun s hs => hl s (List.mem_cons_of_mem _ hs)) ?_
    by_cases hs : s = []
    · subst hs; exact hi
    · have := (liveLit_inside hL hlit).1 (ho _ List.mem_cons_self) hs
      have := hl _ List.mem_cons_self
      omega
  | nt hb hd1 hd2 ih1 ih2 =>
    exact ih2 (fun s hs => ho s (List.mem_cons_of_mem _ hs)) (fun s hs => hl s (List.mem_cons_of_mem _ hs))
      (ih1 (bodyFor_startFree hnf hb) (hB _ _ _ hb) hi)

/-! ## Loops -/

theorem LiveDerives.canFinish {ops : List ParserOp} {r i r' j : Nat} {cs : List Node}
    (h : LiveDerives tbl mem ops r i r' j cs) : CanFinish tbl ops := by
  induction h with
  | nil => exact .nil
  | lit _ _ ih => exact .lit ih
  | nt hb _ _ ih1 ih2 => exact .nt hb ih1 ih2

theorem LiveDerives.canVanish {ops : List ParserOp} {r i r' j : Nat} {cs : List Node}
    (h : LiveDerives tbl mem ops r i r' j cs) (he : j ≤ i) : CanVanish tbl ops := by
  induction h with
  | nil => exact .nil
  | @lit s ops r i r' j cs _ hd ih =>
    have := hd.le.1
    have hs : s = [] := List.eq_nil_of_length_eq_zero (by omega)
    subst hs
    exact .lit (ih (by simpa using he))
  | nt hb hd1 hd2 ih1 ih2 =>
    have := hd1.le.1
    have := hd2.le.1
    exact .nt hb (ih1 (by omega)) (ih2 (by omega))

theorem CanVanish.canFinish {ops : List ParserOp} (h : CanVanish tbl ops) : CanFinish tbl ops := by
  induction h with
  | nil => exact .nil
  | lit _ ih => exact .lit ih
  | nt hb _ _ ih1 ih2 => exact .nt hb ih1 ih2

theorem AnyCorner.enters {n m : Int} (h : AnyCorner tbl n m) : AnyEnters tbl n m := by
  obtain ⟨b, pre, post, hb, hv⟩ := h
  exact ⟨b, pre, post, hb, hv.canFinish⟩

theorem LiveEnters.le {x y : Int × Nat × Nat} (h : LiveEnters tbl mem x y) : x.2.1 ≤ y.2.1 := by
  obtain ⟨pre, post, cs, _, hd⟩ := h
  exact hd.le.1

theorem LiveEnters.any {x y : Int × Nat × Nat} (h : LiveEnters tbl mem x y) : AnyEnters tbl x.1 y.1 := by
  obtain ⟨pre, post, cs, hb, hd⟩ := h
  exact ⟨_, pre, post, hb, hd.canFinish⟩

theorem LiveEnters.corner {x y : Int × Nat × Nat} (h : LiveEnters tbl mem x y) (he : y.2.1 ≤ x.2.1) :
    AnyCorner tbl x.1 y.1 := by
  obtain ⟨pre, post, cs, hb, hd⟩ := h
  exact ⟨_, pre, post, hb, hd.canVanish he⟩

theorem Steps.mono {α : Type} {r r' : α → α → Prop} (hr : ∀ x y, r x y → r' x y) {x y : α} (h : Steps r x y) :
    Steps r' x y := by
  induction h with
  | refl => exact .refl
  | step _ h2 ih => exact .step ih (hr _ _ h2)

/-- A bounded non-decreasing sequence of numbers becomes constant. -/
theorem eventually_constant {f : Nat → Nat} (hm : ∀ k, f k ≤ f (k + 1)) {B : Nat} (hB : ∀ k, f k ≤ B) :
    ∃ K, ∀ k, f (K + k) = f K := by
  have mono : ∀ a d, f a ≤ f (a + d) := by
    intro a d
    induction d with
    | zero => exact Nat.le_refl _
    | succ d ih => exact Nat.le_trans ih (hm _)
  suffices h : ∀ n a, B - f a ≤ n → ∃ K, ∀ k, f (K + k) = f K from h _ 0 (Nat.le_refl _)
  intro n
  induction n with
  | zero =>
    intro a ha
    refine ⟨a, fun k => ?_⟩
    have := mono a k
    have := hB (a + k)
    omega
  | succ n ih =>
    intro a ha
    by_cases h : ∀ k, f (a + k) = f a
    · exact ⟨a, h⟩
    · obtain ⟨k, hk⟩ := Classical.not_forall.1 h
      have h1 := mono a k
      exact ih (a + k) (by omega)

theorem live_loop {p : Parser} (he : p.table.HasEntry) (hpub : p.table.Public) (hnf : p.table.NulStartFree) {L : Nat}
    (hL : ∀ r, (mem r).length = L) (hd : Live.Diverges p mem) :
    ∃ n, Steps (AnyEnters p.table) 0 n ∧ Steps1 (AnyCorner p.table) n n := by
  obtain ⟨f, h0, hf⟩ := chain_of_not_acc ((Live.diverges_iff_not_acc he hpub).1 hd)
  obtain ⟨B, hB⟩ := literal_bound p.table
  have hb : ∀ k, (f k).2.1 ≤ L + B := by
    intro k
    induction k with
    | zero => rw [h0]; exact Nat.zero_le _
    | succ k ih =>
      obtain ⟨pre, post, cs, hb, hd⟩ := hf k
      exact hd.bound_start hL hnf hB (fun s hs => bodyFor_startFree hnf hb s (List.mem_append_left _ hs))
        (fun s hs => hB _ _ _ hb s (List.mem_append_left _ hs)) ih
  obtain ⟨K, hK⟩ := eventually_constant (f := fun k => (f k).2.1) (fun k => (hf k).le) hb
  have hc : ∀ k, AnyCorner p.table ((f (K + k)).1) ((f (K + (k + 1))).1) := by
    intro k
    refine (hf (K + k)).corner ?_
    have h1 := hK (k + 1)
    have h2 := hK k
    rw [show K + k + 1 = K + (k + 1) by omega, h1, h2]
  obtain ⟨n, h1, h2⟩ := loop_of_chain (f := fun k => (f (K + k)).1) hc ((Lin.cells p.table).map fun c => c.1) (by
    intro k
    obtain ⟨b, pre, post, hbd, _⟩ := hc k
    exact List.mem_map.2 ⟨_, Lin.mem_cells hbd, rfl⟩)
  refine ⟨n, ?_, h2⟩
  have h3 : Steps (AnyEnters p.table) 0 (f K).1 := by
    have := steps_of_chain (f := fun k => (f k).1) (r := AnyEnters p.table) (fun k => (hf k).any) 0 K
    simpa [h0] using this
  exact h3.trans (h1.mono fun _ _ => AnyCorner.enters)

/-! ## The adversary -/

/-- Shown the bytes `w`, one per read, the operations are derived and `c` bytes are consumed. -/
def Plays (tbl : Table) (ops : List ParserOp) (w : Str) (c : Nat) : Prop :=
  ∀ (mem : Nat → Str) (r i : Nat), (∀ k x, w[k]? = some x → ∀ q, q ≤ i + c → byteAt (mem (r + k)) q = x) →
    ∃ cs, LiveDerives tbl mem ops r i (r + w.length) (i + c) cs

theorem CanFinish.plays {ops : List ParserOp} (h : CanFinish tbl ops) : ∃ w c, Plays tbl ops w c := by
  induction h with
  | nil => exact ⟨[], 0, fun mem r i _ => ⟨[], .nil _ _⟩⟩
  | @lit s ops _ ih =>
    obtain ⟨w, c, ih⟩ := ih
    refine ⟨s ++ w, s.length + c, fun mem r i hm => ?_⟩
    obtain ⟨cs, hd⟩ := ih mem (r + s.length) (i + s.length) (fun k x hk q hq => by
      have := hm (s.length + k) x (by rw [List.getElem?_append_right (by omega)]; simpa using hk) q (by omega)
      rwa [← Nat.add_assoc] at this)
    refine ⟨_, .lit (fun k hk => ?_) (by simpa [Nat.add_assoc] using hd)⟩
    have h1 : s[k]? = some s[k] := List.getElem?_eq_getElem hk
    rw [h1, hm k s[k] (by rw [List.getElem?_append_left hk, h1]) (i + k) (by omega)]
  | @nt n b body ops hb _ _ ih1 ih2 =>
    obtain ⟨w1, c1, ih1⟩ := ih1
    obtain ⟨w2, c2, ih2⟩ := ih2
    refine ⟨b :: (w1 ++ w2), c1 + c2, fun mem r i hm => ?_⟩
    obtain ⟨cs, hd1⟩ := ih1 mem (r + 1) i (fun k x hk q hq => by
      have hlt : k < w1.length := (List.getElem?_eq_some_iff.1 hk).1
      have := hm (k + 1) x (by rw [List.getElem?_cons_succ, List.getElem?_append_left hlt]; exact hk) q (by omega)
      rwa [show r + (k + 1) = r + 1 + k by omega] at this)
    obtain ⟨ds, hd2⟩ := ih2 mem (r + 1 + w1.length) (i + c1) (fun k x hk q hq => by
      have := hm (w1.length + k + 1) x (by
        rw [List.getElem?_cons_succ, List.getElem?_append_right (by omega)]; simpa using hk) q (by omega)
      rwa [show r + (w1.length + k + 1) = r + 1 + w1.length + k by omega] at this)
    have h0 := hm 0 b rfl i (by omega)
    refine ⟨_ :: ds, .nt (by simpa using (h0 ▸ hb : bodyFor tbl n (byteAt (mem (r + 0)) i) = some body)) hd1 ?_⟩
    have e1 : r + (b :: (w1 ++ w2)).length = r + 1 + w1.length + w2.length := by simp; omega
    rw [e1, ← Nat.add_assoc]
    exact hd2

theorem CanVanish.plays {ops : List ParserOp} (h : CanVanish tbl ops) : ∃ w, Plays tbl ops w 0 := by
  induction h with
  | nil => exact ⟨[], fun mem r i _ => ⟨[], .nil _ _⟩⟩
  | @lit ops _ ih =>
    obtain ⟨w, ih⟩ := ih
    refine ⟨w, fun mem r i hm => ?_⟩
    obtain ⟨cs, hd⟩ := ih mem r i hm
    exact ⟨_, .lit (fun k hk => by simp at hk) (by simpa using hd)⟩
  | @nt n b body ops hb _ _ ih1 ih2 =>
    obtain ⟨w1, ih1⟩ := ih1
    obtain ⟨w2, ih2⟩ := ih2
    refine ⟨b :: (w1 ++ w2), fun mem r i hm => ?_⟩
    obtain ⟨cs, hd1⟩ := ih1 mem (r + 1) i (fun k x hk q hq => by
      have hlt : k < w1.length := (List.getElem?_eq_some_iff.1 hk).1
      have := hm (k + 1) x (by rw [List.getElem?_cons_succ, List.getElem?_append_left hlt]; exact hk) q (by omega)
      rwa [show r + (k + 1) = r + 1 + k by omega] at this)
    obtain ⟨ds, hd2⟩ := ih2 mem (r + 1 + w1.length) i (fun k x hk q hq => by
      have := hm (w1.length + k + 1) x (by
        rw [List.getElem?_cons_succ, List.getElem?_append_right (by omega)]; simpa using hk) q (by omega)
      rwa [show r + (w1.length + k + 1) = r + 1 + w1.length + k by omega] at this)
    have h0 := hm 0 b rfl i (by omega)
    refine ⟨_ :: ds, .nt (by simpa using (h0 ▸ hb : bodyFor tbl n (byteAt (mem (r + 0)) i) = some body)) hd1 ?_⟩
    have e1 : r + (b :: (w1 ++ w2)).length = r + 1 + w1.length + w2.length := by simp; omega
    rw [e1]
    exact hd2

/-- Shown the bytes `w`, the parser goes from row `n` to row `m` and consumes `c` bytes. -/
def Moves (tbl : Table) (n m : Int) (w : Str) (c : Nat) : Prop :=
  ∀ (mem : Nat → Str) (r i : Nat), (∀ k x, w[k]? = some x → ∀ q, q ≤ i + c → byteAt (mem (r + k)) q = x) →
    Steps (LiveEnters tbl mem) (n, i, r) (m, i + c, r + w.length)

theorem moves_of {n m : Int} {b : UInt8} {pre post : List ParserOp} {w : Str} {c : Nat}
    (hb : bodyFor tbl n b = some (pre ++ .nonTerminal m :: post)) (hp : Plays tbl pre w c) (mem : Nat → Str) (r i : Nat)
    (hm : ∀ k x, (b :: w)[k]? = some x → ∀ q, q ≤ i + c → byteAt (mem (r + k)) q = x) :
    LiveEnters tbl mem (n, i, r) (m, i + c, r + (b :: w).length) := by
  have h0 : byteAt (mem r) i = b := hm 0 b rfl i (by omega)
  obtain ⟨cs, hd⟩ := hp mem (r + 1) i (fun k x hk q hq => by
    have := hm (k + 1) x (by rw [List.getElem?_cons_succ]; exact hk) q hq
    rwa [show r + (k + 1) = r + 1 + k by omega] at this)
  refine ⟨pre, post, cs, by simpa only [h0] using hb, ?_⟩
  simpa [Nat.add_assoc, Nat.add_comm 1] using hd

theorem Moves.trans {n m l : Int} {w w' : Str} {c c' : Nat} (h : Moves tbl n m w c) (h' : Moves tbl m l w' c') :
    Moves tbl n l (w ++ w') (c + c') := by
  intro mem r i hm
  have h1 := h mem r i (fun k x hk q hq => hm k x (by
    rw [List.getElem?_append_left (List.getElem?_eq_some_iff.1 hk).1]; exact hk) q (by omega))
  have h2 := h' mem (r + w.length) (i + c) (fun k x hk q hq => by
    have := hm (w.length + k) x (by rw [List.getElem?_append_right (by omega)]; simpa using hk) q (by omega)
    rwa [← Nat.add_assoc] at this)
  have := h1.trans h2
  simpa [Nat.add_assoc] using this

theorem moves_refl (n : Int) : Moves tbl n n [] 0 := fun _ _ _ _ => .refl

theorem moves_enters {n m : Int} (h : Steps (AnyEnters tbl) n m) : ∃ w c, Moves tbl n m w c := by
  induction h with
  | refl => exact ⟨[], 0, moves_refl _⟩
  | step _ h2 ih =>
    obtain ⟨w, c, ih⟩ := ih
    obtain ⟨b, pre, post, hb, hf⟩ := h2
    obtain ⟨w', c', hp⟩ := hf.plays
    exact ⟨_, _, ih.trans (w' := b :: w') (fun mem r i hm => .step .refl (moves_of hb hp mem r i hm))⟩

theorem moves_corner {n m : Int} (h : Steps (AnyCorner tbl) n m) : ∃ w, Moves tbl n m w 0 := by
  induction h with
  | refl => exact ⟨[], moves_refl _⟩
  | step _ h2 ih =>
    obtain ⟨w, ih⟩ := ih
    obtain ⟨b, pre, post, hb, hf⟩ := h2
    obtain ⟨w', hp⟩ := hf.plays
    exact ⟨_, by simpa using ih.trans (w' := b :: w') (fun mem r i hm => .step .refl (moves_of hb hp mem r i hm))⟩

theorem Steps.cases_head {α : Type} {r : α → α → Prop} {x z : α} (h : Steps r x z) : x = z ∨ ∃ y, r x y ∧ Steps r y z := by
  induction h with
  | refl => exact .inl rfl
  | step _ h2 ih =>
    rcases ih with rfl | ⟨y, h3, h4⟩
    · exact .inr ⟨_, h2, .refl⟩
    · exact .inr ⟨y, h3, .step h4 h2⟩

theorem acc_steps1 {α : Type} {r : α → α → Prop} {x : α} (h : Acc (fun y x => r x y) x) :
    Acc (fun y x => Steps1 r x y) x := by
  induction h with
  | intro x _ ih =>
    refine ⟨_, ?_⟩
    rintro y ⟨z, h1, h2⟩
    rcases h1.cases_head with rfl | ⟨u, h3, h4⟩
    · exact ih y h2
    · exact (ih u h3).inv ⟨z, h4, h2⟩

theorem Moves.pos {n m : Int} (h : Steps1 (AnyCorner tbl) n m) : ∃ w, w ≠ [] ∧
    ∀ (mem : Nat → Str) (r i : Nat), (∀ k x, w[k]? = some x → ∀ q, q ≤ i → byteAt (mem (r + k)) q = x) →
      Steps1 (LiveEnters tbl mem) (n, i, r) (m, i, r + w.length) := by
  obtain ⟨y, h1, b, pre, post, hb, hf⟩ := h
  obtain ⟨w, hw⟩ := moves_corner h1
  obtain ⟨w', hp⟩ := hf.plays
  refine ⟨w ++ b :: w', by simp, fun mem r i hm => ?_⟩
  have h2 := hw mem r i (fun k x hk q hq => hm k x (by
    rw [List.getElem?_append_left (List.getElem?_eq_some_iff.1 hk).1]; exact hk) q hq)
  have h3 := moves_of hb hp mem (r + w.length) i (fun k x hk q hq => by
    have := hm (w.length + k) x (by rw [List.getElem?_append_right (by omega)]; simpa using hk) q hq
    rwa [← Nat.add_assoc] at this)
  refine ⟨_, h2, ?_⟩
  simpa [Nat.add_assoc] using h3

/-- The bytes an adversary shows: `w` first, then `v` for ever. -/
def lasso (w v : Str) (r : Nat) : UInt8 :=
  if h : r < w.length then w[r] else (v[(r - w.length) % v.length]?).getD 0

theorem live_adversary {p : Parser} (he : p.table.HasEntry) (hpub : p.table.Public) {n : Int}
    (h1 : Steps (AnyEnters p.table) 0 n) (h2 : Steps1 (AnyCorner p.table) n n) :
    ∃ (L : Nat) (bytes : Nat → UInt8), Live.Diverges p (fun r => List.replicate L (bytes r)) := by
  obtain ⟨w, c, hw⟩ := moves_enters h1
  obtain ⟨v, hv, hloop⟩ := Moves.pos h2
  have hv0 : 0 < v.length := List.length_pos_iff.2 hv
  refine ⟨c + 1, lasso w v, ?_⟩
  rw [Live.diverges_iff_not_acc he hpub]
  intro ha
  have hbyte : ∀ r q, q ≤ c → byteAt (List.replicate (c + 1) (lasso w v r)) q = lasso w v r := by
    intro r q hq
    have : q < c + 1 := by omega
    simp [byteAt, this]
  have hA := hw (fun r => List.replicate (c + 1) (lasso w v r)) 0 0 (fun k x hk q hq => by
    rw [hbyte _ _ (by omega)]
    obtain ⟨hlt, hx⟩ := List.getElem?_eq_some_iff.1 hk
    simp [lasso, hlt, hx])
  have hstep : ∀ t, Steps1 (LiveEnters p.table fun r => List.replicate (c + 1) (lasso w v r))
      (n, c, w.length + t * v.length) (n, c, w.length + (t + 1) * v.length) := by
    intro t
    have := hloop (fun r => List.replicate (c + 1) (lasso w v r)) (w.length + t * v.length) c (fun k x hk q hq => by
      rw [hbyte _ _ (by omega)]
      obtain ⟨hlt, hx⟩ := List.getElem?_eq_some_iff.1 hk
      have h3 : ¬ (w.length + t * v.length + k < w.length) := by omega
      have h4 : (w.length + t * v.length + k - w.length) % v.length = k := by
        rw [show w.length + t * v.length + k - w.length = k + t * v.length by omega, Nat.add_mul_mod_self_right,
          Nat.mod_eq_of_lt hlt]
      simp [lasso, h3, h4, hk])
    rwa [Nat.add_assoc, ← Nat.succ_mul] at this
  have hacc : Acc (fun y x => LiveEnters p.table (fun r => List.replicate (c + 1) (lasso w v r)) x y) (n, c, w.length) := by
    refine acc_steps ha ?_
    simpa using hA
  exact not_acc_of_chain (acc_steps1 hacc) (fun t => (n, c, w.length + t * v.length)) (by simp) hstep

/-! ## Grammars -/

/-- A left corner of an alternative that can begin with some byte. -/
def FirstCorner (g : Grammar) (i k : Nat) : Prop :=
  ∃ alt pre name post b, g.Alt i alt ∧ alt.symbols = pre ++ .nonTerminal name :: post ∧ Nullable g pre ∧
    g.Refers name k ∧ First g alt.symbols b

theorem FirstCorner.left {g : Grammar} {i k : Nat} (h : FirstCorner g i k) : LeftCorner g i k := by
  obtain ⟨alt, pre, name, post, b, h1, h2, h3, h4, _⟩ := h
  exact ⟨alt, pre, name, post, h1, h2, h3, h4⟩

theorem CanVanish.append_inv {xs ys : List ParserOp} (h : CanVanish tbl (xs ++ ys)) : CanVanish tbl xs ∧ CanVanish tbl ys := by
  induction xs with
  | nil => exact ⟨.nil, h⟩
  | cons x xs ih =>
    cases h with
    | lit h => exact ⟨.lit (ih h).1, (ih h).2⟩
    | nt hb h1 h2 => exact ⟨.nt hb h1 (ih h2).1, (ih h2).2⟩

section
variable {g : Grammar}

theorem bodyFor_lits (hcl : tbl.Closed g.rules.length) {n : Int} (hn : ¬ ∃ i : Nat, i < g.rules.length ∧ n = i) {b : UInt8}
    {body : List ParserOp} (hb : bodyFor tbl n b = some body) : body ≠ [] ∧ ∀ op ∈ body, ∃ c, op = .terminal [c] := by
  unfold bodyFor at hb
  split at hb
  · cases hg : tbl.get n with
    | none => simp [hg] at hb
    | some row => exact (hn ((hcl.rows n).1 ⟨row, hg⟩)).elim
  · split at hb
    · split at hb
      · cases hb; simp
      · split at hb
        · cases hb; simp
        · simp at hb
    · simp at hb

theorem predicted_head {b : UInt8} {alts : List Sequence} {body : List ParserOp} (h : Predicted g b alts body)
    (hf : ∃ alt ∈ alts, First g alt.symbols b) :
    ∃ alt ∈ alts, ∃ ops rest, body = ops ++ rest ∧ AllPairs (OpOf g) alt.symbols ops := by
  induction h with
  | nil => obtain ⟨_, h, _⟩ := hf; cases h
  | @take alt alts ops rest _ ho _ _ => exact ⟨alt, List.mem_cons_self, ops, rest, rfl, ho⟩
  | @skip alt alts rest hn _ ih =>
    obtain ⟨a, h, hf⟩ := hf
    rcases List.mem_cons.1 h with rfl | h
    · exact (hn hf).elim
    · obtain ⟨alt', h1, h2⟩ := ih ⟨a, h, hf⟩
      exact ⟨alt', List.mem_cons_of_mem _ h1, h2⟩

/-- Operations of a generated table that can be derived without consuming anything stand for symbols that can be empty. -/
theorem CanVanish.nullable (h : TG.TableOk g tbl) {ops : List ParserOp}
    (hv : CanVanish tbl ops) : ∀ {syms : List Symbol} {xs ys : List ParserOp}, ops = xs ++ ys →
      AllPairs (OpOf g) syms xs → Nullable g syms := by
  induction hv with
  | nil =>
    intro syms xs ys he hp
    cases xs with
    | nil => cases hp; exact .nil
    | cons _ _ => cases he
  | lit _ ih =>
    intro syms xs ys he hp
    cases hp with
    | nil => exact .nil
    | @cons x _ syms xs hx hp =>
      cases he
      cases x with
      | terminal t => cases (hx : _ = _); exact .emptyTerminal (ih rfl hp)
      | nothing => exact (hx : False).elim
      | nonTerminal name => obtain ⟨_, _, h'⟩ := hx; cases h'
  | @nt n b body ops hb hv1 hv2 ih1 ih2 =>
    intro syms xs ys he hp
    cases hp with
    | nil => exact .nil
    | @cons x _ syms xs hx hp =>
      cases he
      cases x with
      | terminal t => cases (hx : _ = _)
      | nothing => exact (hx : False).elim
      | nonTerminal name =>
        obtain ⟨i, hr, h'⟩ := hx
        cases h'
        obtain ⟨r, hri⟩ : ∃ r, g.rules[i]? = some r := ⟨_, List.getElem?_eq_getElem hr.lt⟩
        suffices hn : RuleNullable g i by
          obtain ⟨alt, ha, hn⟩ := hn
          exact .nonTerminal hr ha hn (ih2 rfl hp)
        by_cases hf : RuleFirst g i b
        · obtain ⟨alt, ⟨r', hr', hm⟩, hf⟩ := hf
          rw [hri] at hr'
          cases hr'
          obtain ⟨alt', h1, ops', rest, h2, h3⟩ := predicted_head ((h.cell hri b).2 body hb) ⟨alt, hm, hf⟩
          exact ⟨alt', ⟨r, hri, h1⟩, ih1 h2 h3⟩
        · rcases Classical.em (bodyFor tbl i b = none) with h0 | h0
          · rw [hb] at h0; cases h0
          · have := (Classical.not_not.1 (mt (h.cell hri b).1.2 h0)).resolve_left hf
            exact this.1

theorem allPairs_split {α β : Type} {R : α → β → Prop} {as : List α} {bs : List β} (h : AllPairs R as bs) :
    ∀ {xs : List β} {y : β} {ys : List β}, bs = xs ++ y :: ys →
      ∃ as1 a as2, as = as1 ++ a :: as2 ∧ AllPairs R as1 xs ∧ R a y := by
  induction h with
  | nil => intro xs y ys he; cases xs <;> cases he
  | @cons a b as bs hab _ ih =>
    intro xs y ys he
    cases xs with
    | nil => cases he; exact ⟨[], a, as, rfl, .nil, hab⟩
    | cons x xs =>
      cases he
      obtain ⟨as1, a', as2, rfl, h1, h2⟩ := ih rfl
      exact ⟨a :: as1, a', as2, rfl, .cons hab h1, h2⟩

theorem predicted_anyCorner (h : TG.TableOk g tbl) {i : Nat} {b : UInt8} {alts : List Sequence} {body : List ParserOp}
    (hp : Predicted g b alts body) (ha : ∀ alt ∈ alts, g.Alt i alt) {P : List ParserOp} {m : Int} {post : List ParserOp}
    (he : body = P ++ .nonTerminal m :: post) (hv : CanVanish tbl P) : ∃ k : Nat, m = k ∧ FirstCorner g i k := by
  induction hp generalizing P with
  | nil => cases P <;> cases he
  | @take alt alts ops rest hf ho _ ih =>
    rcases List.append_eq_append_iff.1 he with ⟨as, h1, h2⟩ | ⟨as, h1, h2⟩
    · subst h1
      exact ih (fun a h => ha a (List.mem_cons_of_mem _ h)) h2 hv.append_inv.2
    · cases as with
      | nil =>
        simp only [List.append_nil] at h1
        exact ih (fun a h => ha a (List.mem_cons_of_mem _ h)) (P := []) (by simpa using h2.symm) .nil
      | cons a as =>
        simp only [List.cons_append, List.cons.injEq] at h2
        obtain ⟨rfl, _⟩ := h2
        obtain ⟨pre, x, post', h3, h4, h5⟩ := allPairs_split ho h1
        cases x with
        | terminal t => cases (h5 : _ = _)
        | nothing => exact (h5 : False).elim
        | nonTerminal name =>
          obtain ⟨k, hr, h'⟩ := h5
          cases h'
          exact ⟨k, rfl, alt, pre, name, post', b, ha alt List.mem_cons_self, h3,
            hv.nullable h (List.append_nil _).symm h4, hr, hf⟩
  | skip _ _ ih => exact ih (fun a h => ha a (List.mem_cons_of_mem _ h)) he hv

/-- In a generated table the loops of a changing source are left corners of alternatives that can begin with some byte. -/
theorem anyCorner_first (h : TG.TableOk g tbl) (hcl : tbl.Closed g.rules.length) {n m : Int} (hc : AnyCorner tbl n m) :
    ∃ i k : Nat, n = i ∧ m = k ∧ FirstCorner g i k := by
  obtain ⟨b, pre, post, hb, hv⟩ := hc
  by_cases hn : ∃ i : Nat, i < g.rules.length ∧ n = i
  · obtain ⟨i, hi, rfl⟩ := hn
    obtain ⟨r, hr⟩ : ∃ r, g.rules[i]? = some r := ⟨_, List.getElem?_eq_getElem hi⟩
    obtain ⟨k, hk, hc⟩ := predicted_anyCorner h ((h.cell hr b).2 _ hb) (i := i) (fun alt ha => ⟨r, hr, ha⟩) rfl hv
    exact ⟨i, k, rfl, hk, hc⟩
  · obtain ⟨c, hc⟩ := (bodyFor_lits hcl hn hb).2 (.nonTerminal m) (by simp)
    cases hc

theorem anyCorner_loop (h : TG.TableOk g tbl) (hcl : tbl.Closed g.rules.length) {n : Int}
    (hl : Steps1 (AnyCorner tbl) n n) : ∃ i : Nat, n = i ∧ Steps1 (FirstCorner g) i i := by
  obtain ⟨y, h1, h2⟩ := hl
  obtain ⟨a, i, hy, hn, hc⟩ := anyCorner_first h hcl h2
  subst hn
  have : ∀ z, Steps (AnyCorner tbl) (i : Int) z → ∃ k : Nat, z = k ∧ Steps (FirstCorner g) i k := by
    intro z hz
    induction hz with
    | refl => exact ⟨i, rfl, .refl⟩
    | step _ h4 ih =>
      obtain ⟨k, hk, hs⟩ := ih
      obtain ⟨k', l, h5, h6, h7⟩ := anyCorner_first h hcl h4
      have : k' = k := by omega
      subst this
      exact ⟨l, h6, .step hs h7⟩
  obtain ⟨k, hk, hs⟩ := this y h1
  have : k = a := by omega
  subst this
  exact ⟨i, rfl, k, hs, hc⟩

/-! ## LL(1) grammars have no such loops -/

theorem alt_eq_of_first (hll : IsLL1 g) {i : Nat} {a c : Sequence} {b : UInt8} (ha : g.Alt i a) (hc : g.Alt i c)
    (hfa : First g a.symbols b) (hfc : First g c.symbols b) : a = c := by
  obtain ⟨r, hr, ha⟩ := ha
  obtain ⟨r', hr', hc⟩ := hc
  rw [hr] at hr'
  cases hr'
  obtain ⟨k, hk⟩ := List.mem_iff_getElem?.1 ha
  obtain ⟨l, hl⟩ := List.mem_iff_getElem?.1 hc
  have := hll.1 i r k l a c b hr hk hl hfa hfc
  subst this
  rw [hk] at hl
  cases hl
  rfl

theorem FirstCorner.ruleFirst {i k : Nat} (h : FirstCorner g i k) {b : UInt8} (hf : RuleFirst g k b) : RuleFirst g i b := by
  obtain ⟨alt, pre, name, post, _, h1, h2, h3, h4, _⟩ := h
  obtain ⟨alt', h5, h6⟩ := hf
  exact ⟨alt, h1, by rw [h2]; exact first_append.2 (.inr ⟨h3, .head h4 h5 h6⟩)⟩

theorem Nullable.append_inv {xs ys : List Symbol} (h : Nullable g (xs ++ ys)) : Nullable g xs ∧ Nullable g ys := by
  induction xs with
  | nil => exact ⟨.nil, h⟩
  | cons x xs ih =>
    cases h with
    | nothing h => exact ⟨.nothing (ih h).1, (ih h).2⟩
    | emptyTerminal h => exact ⟨.emptyTerminal (ih h).1, (ih h).2⟩
    | nonTerminal hr ha hn h => exact ⟨.nonTerminal hr ha hn (ih h).1, (ih h).2⟩

theorem ll1_no_firstCorner_loop (hll : IsLL1 g) (i : Nat) : ¬ Steps1 (FirstCorner g) i i := by
  intro hl
  -- the rules on loops through `i`
  have next : ∀ a, Steps (FirstCorner g) i a → Steps (FirstCorner g) a i → ∃ k, FirstCorner g a k ∧
      Steps (FirstCorner g) i k ∧ Steps (FirstCorner g) k i := by
    intro a h1 h2
    rcases h2.cases_head with rfl | ⟨k, h3, h4⟩
    · obtain ⟨y, h5, h6⟩ := hl
      rcases h5.cases_head with rfl | ⟨k, h7, h8⟩
      · exact ⟨a, h6, .refl, .refl⟩
      · exact ⟨k, h7, .step .refl h7, .step h8 h6⟩
    · exact ⟨k, h3, .step h1 h3, h4⟩
  have lift : ∀ {a k b}, Steps (FirstCorner g) a k → RuleFirst g k b → RuleFirst g a b := by
    intro a k b hs
    induction hs with
    | refl => exact id
    | step _ h2 ih => exact fun h => ih (h2.ruleFirst h)
  have main : ∀ {syms : List Symbol} {b : UInt8}, First g syms b → ∀ a alt pre', Steps (FirstCorner g) i a →
      Steps (FirstCorner g) a i → g.Alt a alt → alt.symbols = pre' ++ syms → Nullable g pre' → False := by
    intro syms b hF
    -- what holds at each place of the alternative
    have common : ∀ {syms : List Symbol} {b : UInt8}, First g syms b → ∀ a alt pre', Steps (FirstCorner g) i a →
        Steps (FirstCorner g) a i → g.Alt a alt → alt.symbols = pre' ++ syms → Nullable g pre' →
        ∃ pre name post k, alt.symbols = pre ++ .nonTerminal name :: post ∧ Nullable g pre ∧ g.Refers name k ∧
          Steps (FirstCorner g) i k ∧ Steps (FirstCorner g) k i ∧ RuleFirst g k b ∧ pre'.length ≤ pre.length := by
      intro syms b hF a alt pre' h1 h2 ha he hn
      have hFa : First g alt.symbols b := by rw [he]; exact first_append.2 (.inr ⟨hn, hF⟩)
      obtain ⟨k, ⟨alt2, pre, name, post, b2, h3, h4, h5, h6, _⟩, hk1, hk2⟩ := next a h1 h2
      have hRk : RuleFirst g k b := lift (hk2.trans h1) ⟨alt, ha, hFa⟩
      have hF2 : First g alt2.symbols b := by
        obtain ⟨alt3, h7, h8⟩ := hRk
        rw [h4]
        exact first_append.2 (.inr ⟨h5, .head h6 h7 h8⟩)
      have := alt_eq_of_first hll ha h3 hFa hF2
      subst this
      refine ⟨pre, name, post, k, h4, h5, h6, hk1, hk2, hRk, ?_⟩
      rcases Nat.lt_or_ge pre.length pre'.length with hlt | hge
      · exfalso
        -- the corner lies in `pre'`: it is nullable and `b` follows it
        rw [h4] at he
        rcases List.append_eq_append_iff.1 he with ⟨as, h7, h8⟩ | ⟨as, h7, h8⟩
        · cases as with
          | nil => simp [h7] at hlt
          | cons x as =>
            simp only [List.cons_append, List.cons.injEq] at h8
            obtain ⟨rfl, rfl⟩ := h8
            subst h7
            obtain ⟨_, hn2⟩ := hn.append_inv
            cases hn2 with
            | nonTerminal hr ha' hn3 hn4 =>
              have := hr.det h6
              subst this
              exact hll.2.2 _ b ⟨_, ha', hn3⟩ hRk (.first ha h4 h6 (first_append.2 (.inr ⟨hn4, hF⟩)))
        · have := congrArg List.length h7
          simp at this
          omega
      · exact hge
    induction hF with
    | @terminal b t rest =>
      intro a alt pre' h1 h2 ha he hn
      obtain ⟨pre, name, post, k, h3, h4, h5, _, _, _, h6⟩ := common .terminal a alt pre' h1 h2 ha he hn
      rw [h3] at he
      rcases List.append_eq_append_iff.1 he with ⟨as, h7, h8⟩ | ⟨as, h7, h8⟩
      · have := congrArg List.length h7
        simp at this
        have : as = [] := List.eq_nil_of_length_eq_zero (by omega)
        subst this
        cases h8
      · cases as with
        | nil => cases h8
        | cons x as =>
          cases h8
          subst h7
          cases h4.append_inv.2
    | @head name' i' alt' rest b hr ha' hF' ih =>
      intro a alt pre' h1 h2 ha he hn
      obtain ⟨pre, name, post, k, h3, h4, h5, hk1, hk2, hRk, h6⟩ := common (.head hr ha' hF') a alt pre' h1 h2 ha he hn
      have he0 := he
      rw [h3] at he
      have hat : ∀ {nm : Str} {po : List Symbol}, Symbol.nonTerminal nm :: po = Symbol.nonTerminal name' :: rest →
          g.Refers nm k → False := by
        intro nm po h hr'
        cases h
        have := hr'.det hr
        subst this
        exact ih k alt' [] hk1 hk2 ha' rfl .nil
      rcases List.append_eq_append_iff.1 he with ⟨as, h7, h8⟩ | ⟨as, h7, h8⟩
      · have := congrArg List.length h7
        simp at this
        have : as = [] := List.eq_nil_of_length_eq_zero (by omega)
        subst this
        exact hat h8 h5
      · cases as with
        | nil => exact hat h8.symm h5
        | cons x as =>
          simp only [List.cons_append, List.cons.injEq] at h8
          obtain ⟨rfl, rfl⟩ := h8
          subst h7
          obtain ⟨_, hn2⟩ := h4.append_inv
          cases hn2 with
          | nonTerminal hr2 ha2 hn3 hn4 =>
            have := hr2.det hr
            subst this
            obtain ⟨alt3, h9, h10⟩ := hRk
            exact hll.2.2 _ _ ⟨_, ha2, hn3⟩ ⟨alt', ha', hF'⟩
              (.first ha he0 hr (first_append.2 (.inr ⟨hn4, .head h5 h9 h10⟩)))
    | @skip x rest b hx hF' ih =>
      intro a alt pre' h1 h2 ha he hn
      exact ih a alt (pre' ++ [x]) h1 h2 ha (by rw [he]; simp) (hn.append hx)
  obtain ⟨k, ⟨alt, pre, name, post, b, h1, h2, h3, h4, h5⟩, _⟩ := next i .refl .refl
  exact main h5 i alt [] .refl .refl h1 rfl .nil

end

end LL1
