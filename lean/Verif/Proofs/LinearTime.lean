import Verif.Proofs.Language

/-!
# The number of loop iterations is linear in the length of the source

Every derivation (finished or stuck) is bounded by a potential argument: an operation that consumes nothing
costs at most `E` of its rank; one that consumes costs at most `G` of its rank plus `A` for every byte
after the first.
-/

namespace LL1.Lin

/-- Cost of an operation that consumes nothing and has rank below `r`, for bodies of length ≤ `L`. -/
def E (L : Nat) : Nat → Nat
  | 0 => 2
  | r + 1 => 2 + L * E L r

/-- Cost, up to its first byte, of an operation of rank below `r` that consumes something. -/
def G (L X : Nat) : Nat → Nat
  | 0 => 3
  | r + 1 => 2 + L * E L r + G L X r + L * X

theorem E_two (L r : Nat) : 2 ≤ E L r := by cases r <;> simp [E]

theorem E_mono_succ {L : Nat} (hL : 1 ≤ L) (r : Nat) : E L r ≤ E L (r + 1) := by
  rw [E]
  have : 1 * E L r ≤ L * E L r := Nat.mul_le_mul_right _ hL
  omega

theorem E_mono {L : Nat} (hL : 1 ≤ L) {r s : Nat} (h : r ≤ s) : E L r ≤ E L s := by
  induction h with
  | refl => exact Nat.le_refl _
  | step _ ih => exact Nat.le_trans ih (E_mono_succ hL _)

theorem G_mono {L X : Nat} {r s : Nat} (h : r ≤ s) : G L X r ≤ G L X s := by
  induction h with
  | refl => exact Nat.le_refl _
  | step _ ih => refine Nat.le_trans ih ?_; rw [G]; omega

theorem G_three (L X r : Nat) : 3 ≤ G L X r := G_mono (Nat.zero_le r)

variable {tbl : Table} {names : Option Names} {src : Str}

/-- What is known about the table: bodies have at most `L` operations, ranks are at most `R`, and ranks go
down until input is consumed. -/
structure Ranked (tbl : Table) (L R : Nat) (Sure : Int → UInt8 → Prop) (rank : Int → UInt8 → Nat) : Prop where
  len : ∀ n b body, bodyFor tbl n b = some body → body.length ≤ L
  top : ∀ n b body, bodyFor tbl n b = some body → rank n b ≤ R
  sure : ∀ n b body, Sure n b → bodyFor tbl n b = some body → ∃ op ∈ body, SureOp Sure b op
  rank : ∀ n b body, bodyFor tbl n b = some body → RankBelow Sure rank b (rank n b) body

/-- The bounds for a list of `len` operations running from `i` to `j` in `s` steps. -/
structure Bounds (L R : Nat) (Sure : Int → UInt8 → Prop) (rank : Int → UInt8 → Nat) (src : Str)
    (ops : List ParserOp) (i j s : Nat) : Prop where
  any : s ≤ ops.length * E L (R + 1) + G L (E L (R + 1)) (R + 1) * (j - i)
  stay : ∀ r, RankBelow Sure rank (byteAt src i) r ops → j = i → s ≤ ops.length * E L r
  move : ∀ r, RankBelow Sure rank (byteAt src i) r ops → i < j →
    s ≤ ops.length * E L r + G L (E L (R + 1)) r + ops.length * E L (R + 1) +
      G L (E L (R + 1)) (R + 1) * (j - i - 1)

theorem mul_split (A : Nat) {i j k : Nat} (h1 : i ≤ j) (h2 : j ≤ k) :
    A * (k - i) = A * (j - i) + A * (k - j) := by
  rw [← Nat.mul_add]; congr 1; omega

theorem mul_split' (A : Nat) {i j k : Nat} (h1 : i < j) (h2 : j ≤ k) :
    A * (k - i - 1) = A * (j - i - 1) + A * (k - j) := by
  rw [← Nat.mul_add]; congr 1; omega

theorem mul_one_more (A : Nat) {i j : Nat} (h1 : i < j) : A * (j - i) = A + A * (j - i - 1) := by
  rw [show j - i = (j - i - 1) + 1 by omega, Nat.mul_add]; simp; omega

/-- The cost of one node whose body took `t` steps. -/
theorem node_bounds {L R : Nat} {Sure : Int → UInt8 → Prop} {rank : Int → UInt8 → Nat}
    (hR : Ranked tbl L R Sure rank) {n : Int} {body : List ParserOp} {i j t : Nat}
    (hb : bodyFor tbl n (byteAt src i) = some body) (h : Bounds L R Sure rank src body i j t) :
    (j = i → t + 2 ≤ E L (rank n (byteAt src i) + 1)) ∧
    (i < j → t + 2 ≤ G L (E L (R + 1)) (rank n (byteAt src i) + 1) +
      G L (E L (R + 1)) (R + 1) * (j - i - 1)) := by
  have hl := hR.len _ _ _ hb
  have hrk := hR.rank _ _ _ hb
  constructor
  · intro hij
    have h1 := h.stay _ hrk hij
    have h2 : body.length * E L (rank n (byteAt src i)) ≤ L * E L (rank n (byteAt src i)) :=
      Nat.mul_le_mul_right _ hl
    rw [E]; omega
  · intro hij
    have h1 := h.move _ hrk hij
    have h2 : body.length * E L (rank n (byteAt src i)) ≤ L * E L (rank n (byteAt src i)) :=
      Nat.mul_le_mul_right _ hl
    have h3 : body.length * E L (R + 1) ≤ L * E L (R + 1) := Nat.mul_le_mul_right _ hl
    rw [show G L (E L (R + 1)) (rank n (byteAt src i) + 1) = 2 + L * E L (rank n (byteAt src i)) +
      G L (E L (R + 1)) (rank n (byteAt src i)) + L * E L (R + 1) from rfl]
    omega

/-- Combining the cost of one operation with that of the following ones. -/
theorem cons_bounds {L R : Nat} (hL : 1 ≤ L) {Sure : Int → UInt8 → Prop} {rank : Int → UInt8 → Nat}
    {op : ParserOp} {ops : List ParserOp} {i j k t u c : Nat} (hij : i ≤ j) (hjk : j ≤ k)
    (hc : c ≤ R + 1)
    (h1 : j = i → t ≤ E L c) (h2 : i < j → t ≤ G L (E L (R + 1)) c + G L (E L (R + 1)) (R + 1) * (j - i - 1))
    (hr : ∀ r, RankBelow Sure rank (byteAt src i) r (op :: ops) → c ≤ r)
    (hs : SureOp Sure (byteAt src i) op → i < j)
    (h : Bounds L R Sure rank src ops j k u) :
    Bounds L R Sure rank src (op :: ops) i k (t + u) := by
  have hE := E_mono hL hc
  have hG := G_mono (L := L) (X := E L (R + 1)) hc
  have e1 : (op :: ops).length * E L (R + 1) = ops.length * E L (R + 1) + E L (R + 1) := by
    rw [List.length_cons, Nat.succ_mul]
  have ha := h.any
  refine ⟨?_, ?_, ?_⟩
  · rw [e1, mul_split _ hij hjk]
    rcases Nat.lt_or_ge i j with hlt | hge
    · have := h2 hlt
      rw [mul_one_more _ hlt]
      omega
    · have hji : j = i := by omega
      have := h1 hji
      omega
  · intro r hrb hki
    have hji : j = i := by omega
    subst hji
    have hcr := hr r hrb
    have := E_mono hL hcr
    rw [List.length_cons, Nat.succ_mul]
    have ht := h1 rfl
    rcases hrb.2 with hsu | hrest
    · exact absurd (hs hsu) (Nat.lt_irrefl _)
    · have := h.stay r hrest hki
      omega
  · intro r hrb hik
    have hcr := hr r hrb
    have hEr := E_mono hL hcr
    have hGr := G_mono (L := L) (X := E L (R + 1)) hcr
    have e2 : (op :: ops).length * E L r = ops.length * E L r + E L r := by
      rw [List.length_cons, Nat.succ_mul]
    rw [e1, e2]
    rcases Nat.lt_or_ge i j with hlt | hge
    · have := h2 hlt
      rw [mul_split' _ hlt hjk]
      omega
    · have hji : j = i := by omega
      subst hji
      have ht := h1 rfl
      rcases hrb.2 with hsu | hrest
      · exact absurd (hs hsu) (Nat.lt_irrefl _)
      · have := h.move r hrest hik
        omega

theorem nil_bounds {L R : Nat} {Sure : Int → UInt8 → Prop} {rank : Int → UInt8 → Nat} {i j : Nat}
    (ops : List ParserOp) : Bounds L R Sure rank src ops i j 0 :=
  ⟨Nat.zero_le _, fun _ _ _ => Nat.zero_le _, fun _ _ _ => Nat.zero_le _⟩

theorem lit_cost {L X R : Nat} {i l s : Nat} (hs : s ≤ l + 2) :
    (i + l = i → s ≤ E L 0) ∧ (i < i + l → s ≤ G L X 0 + G L X (R + 1) * (i + l - i - 1)) := by
  constructor
  · intro h
    have : l = 0 := by omega
    subst this
    simp [E]; omega
  · intro h
    have hA := G_three L X (R + 1)
    have : 1 * (i + l - i - 1) ≤ G L X (R + 1) * (i + l - i - 1) := Nat.mul_le_mul_right _ (by omega)
    rw [show G L X 0 = 3 from rfl]
    omega

/-- A finished derivation. -/
theorem steps_derives {L R : Nat} (hL : 1 ≤ L) {Sure : Int → UInt8 → Prop} {rank : Int → UInt8 → Nat}
    (hR : Ranked tbl L R Sure rank) {ops : List ParserOp} {i j : Nat} {cs : List Node}
    (h : Derives tbl src ops i j cs) :
    ∃ s, (∀ fuel S P, runFuel tbl names src (fuel + s) ⟨i, ops ++ S, P⟩ =
      runFuel tbl names src fuel ⟨j, S, cs.reverse ++ P⟩) ∧ Bounds L R Sure rank src ops i j s := by
  induction h with
  | nil i => exact ⟨0, by simp, nil_bounds _⟩
  | @lit s ops i j cs hl hd ih =>
    obtain ⟨k, hk, hb⟩ := ih
    refine ⟨(s.length + 2) + k, fun fuel S P => ?_, ?_⟩
    · rw [show fuel + (s.length + 2 + k) = (fuel + k) + (s.length + 2) by omega, List.cons_append,
        run_literal s i hl, hk]
      simp
    · obtain ⟨h1, h2⟩ := lit_cost (L := L) (X := E L (R + 1)) (R := R) (i := i) (l := s.length) (Nat.le_refl _)
      refine cons_bounds hL (Nat.le_add_right _ _) hd.le (Nat.zero_le _) h1 h2 (fun _ _ => Nat.zero_le _) ?_ hb
      intro hs
      have hs : s ≠ [] := hs.1
      have : s.length ≠ 0 := by simpa using hs
      omega
  | @nt n body ops i j k cs ds hb hd1 hd2 ih1 ih2 =>
    obtain ⟨k1, hk1, hb1⟩ := ih1
    obtain ⟨k2, hk2, hb2⟩ := ih2
    refine ⟨(k1 + 2) + k2, fun fuel S P => ?_, ?_⟩
    · rw [show fuel + (k1 + 2 + k2) = (((fuel + k2) + 1) + k1) + 1 by omega, runFuel, List.cons_append,
        step_nonTerminal, hb]
      simp only
      rw [hk1, run_function n i j body cs hd1.length (bodyFor_ne hb), hk2]
      · simp
      · rintro rfl
        exact hd1.nil_inv.1
    · obtain ⟨h1, h2⟩ := node_bounds hR hb hb1
      refine cons_bounds hL hd1.le hd2.le ?_ h1 h2 (fun r hr => hr.1) ?_ hb2
      · have := hR.top _ _ _ hb; omega
      · intro hs
        exact sure_consumes hR.sure hd1 (hR.sure _ _ _ hs hb)

theorem FailsAt.le' {ops : List ParserOp} {i k : Nat} {e : PErr} (h : FailsAt tbl names src ops i k e) :
    i ≤ k := by
  induction h with
  | lit => omega
  | afterLit _ _ ih => omega
  | noBody => omega
  | inside _ _ ih => exact ih
  | afterNt _ hd _ ih => exact Nat.le_trans hd.le ih

/-- One failing operation followed by anything: the following operations are not run. -/
theorem last_bounds {L R : Nat} (hL : 1 ≤ L) {Sure : Int → UInt8 → Prop} {rank : Int → UInt8 → Nat}
    {op : ParserOp} {ops : List ParserOp} {i j t c : Nat} (hij : i ≤ j) (hc : c ≤ R + 1)
    (h1 : j = i → t ≤ E L c) (h2 : i < j → t ≤ G L (E L (R + 1)) c + G L (E L (R + 1)) (R + 1) * (j - i - 1))
    (hr : ∀ r, RankBelow Sure rank (byteAt src i) r (op :: ops) → c ≤ r) :
    Bounds L R Sure rank src (op :: ops) i j t := by
  have hE := E_mono hL hc
  have hG := G_mono (L := L) (X := E L (R + 1)) hc
  have e1 : (op :: ops).length * E L (R + 1) = ops.length * E L (R + 1) + E L (R + 1) := by
    rw [List.length_cons, Nat.succ_mul]
  refine ⟨?_, ?_, ?_⟩
  · rw [e1]
    rcases Nat.lt_or_ge i j with hlt | hge
    · have := h2 hlt
      rw [mul_one_more _ hlt]
      omega
    · have hji : j = i := by omega
      have := h1 hji
      omega
  · intro r hrb hki
    have := E_mono hL (hr r hrb)
    have := h1 hki
    rw [List.length_cons, Nat.succ_mul]
    omega
  · intro r hrb hik
    have hGr := G_mono (L := L) (X := E L (R + 1)) (hr r hrb)
    have := h2 hik
    omega

/-- A stuck derivation. -/
theorem steps_fails {L R : Nat} (hL : 1 ≤ L) {Sure : Int → UInt8 → Prop} {rank : Int → UInt8 → Nat}
    (hR : Ranked tbl L R Sure rank) {ops : List ParserOp} {i k : Nat} {e : PErr}
    (h : FailsAt tbl names src ops i k e) :
    ∃ s, (∀ S P, runFuel tbl names src s ⟨i, ops ++ S, P⟩ = some (.err e)) ∧
      Bounds L R Sure rank src ops i k s := by
  induction h with
  | @lit s ops i k c h1 h2 h3 =>
    refine ⟨k + 2, fun S P => ?_, ?_⟩
    · rw [show k + 2 = (0 + k + 1) + 1 by omega, runFuel]
      simp only [List.cons_append, step, processTerminal]
      exact run_chars_fail s i k c h1 h2 h3 _ _ 0
    · obtain ⟨h1, h2⟩ := lit_cost (L := L) (X := E L (R + 1)) (R := R) (i := i) (l := k) (Nat.le_refl _)
      exact last_bounds hL (Nat.le_add_right _ _) (Nat.zero_le _) h1 h2 (fun _ _ => Nat.zero_le _)
  | @afterLit s ops i k e hl hf ih =>
    obtain ⟨m, hm, hb⟩ := ih
    refine ⟨(s.length + 2) + m, fun S P => ?_, ?_⟩
    · rw [Nat.add_comm, List.cons_append, run_literal s i hl, hm]
    · obtain ⟨h1, h2⟩ := lit_cost (L := L) (X := E L (R + 1)) (R := R) (i := i) (l := s.length) (Nat.le_refl _)
      refine cons_bounds hL (Nat.le_add_right _ _) (FailsAt.le' hf) (Nat.zero_le _) h1 h2
        (fun _ _ => Nat.zero_le _) ?_ hb
      intro hs
      have hs : s ≠ [] := hs.1
      have : s.length ≠ 0 := by simpa using hs
      omega
  | @noBody n ops i hb =>
    refine ⟨0 + 1, fun S P => ?_, ?_⟩
    · rw [runFuel, List.cons_append, step_nonTerminal, hb]
    · refine last_bounds (c := 0) hL (Nat.le_refl _) (Nat.zero_le _) (fun _ => ?_) (fun h => ?_)
        (fun _ _ => Nat.zero_le _)
      · simp [E]
      · exact absurd h (Nat.lt_irrefl _)
  | @inside n body ops i k e hb hf ih =>
    obtain ⟨m, hm, hbd⟩ := ih
    refine ⟨m + 1, fun S P => ?_, ?_⟩
    · rw [runFuel, List.cons_append, step_nonTerminal, hb]
      exact hm _ _
    · obtain ⟨h1, h2⟩ := node_bounds hR hb hbd
      refine last_bounds hL (FailsAt.le' hf) (c := rank n (byteAt src i) + 1) ?_ (fun h => ?_) (fun h => ?_)
        (fun r hr => hr.1)
      · have := hR.top _ _ _ hb; omega
      · have := h1 h; omega
      · have := h2 h; omega
  | @afterNt n body ops i j k cs e hb hd hf ih =>
    obtain ⟨m, hm, hbd⟩ := ih
    obtain ⟨k1, hk1, hb1⟩ := steps_derives (names := names) hL hR hd
    refine ⟨(k1 + 2) + m, fun S P => ?_, ?_⟩
    · rw [show k1 + 2 + m = ((m + 1) + k1) + 1 by omega, runFuel, List.cons_append, step_nonTerminal, hb]
      simp only
      rw [hk1, run_function n i j body cs hd.length (bodyFor_ne hb), hm]
      rintro rfl
      exact hd.nil_inv.1
    · obtain ⟨h1, h2⟩ := node_bounds hR hb hb1
      refine cons_bounds hL hd.le (FailsAt.le' hf) ?_ h1 h2 (fun r hr => hr.1) ?_ hbd
      · have := hR.top _ _ _ hb; omega
      · intro hs
        exact sure_consumes hR.sure hd (hR.sure _ _ _ hs hb)

/-! ## Finite tables have bounds -/

/-- All cells that `bodyFor` can find. -/
def cells (tbl : Table) : List (Int × UInt8 × List ParserOp) :=
  tbl.flatMap (fun e => e.2.map fun c => (e.1, c.1, c.2)) ++
    [(-2, 10, [.terminal [10]]), (-2, 13, [.terminal [13], .terminal [10]])]

theorem mem_of_get {α β : Type} [DecidableEq α] {m : GoMap α β} {a : α} {b : β} (h : GoMap.get m a = some b) :
    (a, b) ∈ m := by
  induction m with
  | nil => simp at h
  | cons e m ih =>
    rw [GoMap.get_cons] at h
    split at h
    · rename_i he
      cases h
      have : e.1 = a := by simpa using he
      subst this
      exact List.mem_cons_self
    · exact List.mem_cons_of_mem _ (ih h)

theorem mem_cells {n : Int} {b : UInt8} {body : List ParserOp} (h : bodyFor tbl n b = some body) :
    (n, b, body) ∈ cells tbl := by
  unfold cells
  rw [List.mem_append]
  unfold bodyFor at h
  split at h
  · left
    cases hr : tbl.get n with
    | none => simp [hr] at h
    | some row =>
      simp only [hr, Option.bind_some] at h
      rw [List.mem_flatMap]
      exact ⟨(n, row), mem_of_get hr, List.mem_map.2 ⟨(b, body), mem_of_get h, rfl⟩⟩
  · right
    split at h
    · rename_i hn
      subst hn
      split at h
      · rename_i hb
        cases h; subst hb; simp
      · split at h
        · rename_i hb
          cases h; subst hb; simp
        · cases h
    · cases h

theorem bounded (tbl : Table) (f : Int → UInt8 → List ParserOp → Nat) :
    ∃ B, ∀ n b body, bodyFor tbl n b = some body → f n b body ≤ B := by
  have : ∀ l : List (Int × UInt8 × List ParserOp), ∃ B, ∀ c ∈ l, f c.1 c.2.1 c.2.2 ≤ B := by
    intro l
    induction l with
    | nil => exact ⟨0, by simp⟩
    | cons c l ih =>
      obtain ⟨B, hB⟩ := ih
      refine ⟨B + f c.1 c.2.1 c.2.2, fun d hd => ?_⟩
      rcases List.mem_cons.1 hd with rfl | hd
      · omega
      · have := hB d hd; omega
  obtain ⟨B, hB⟩ := this (cells tbl)
  exact ⟨B, fun n b body h => hB _ (mem_cells h)⟩

/-- A ranked (finite) table has a linear bound. -/
theorem linear_of_rank (hnf : Table.NulStartFree tbl) (hpub : Table.Public tbl) (he : tbl.HasEntry)
    {Sure : Int → UInt8 → Prop} {rank : Int → UInt8 → Nat}
    (hsure : ∀ n b body, Sure n b → bodyFor tbl n b = some body → ∃ op ∈ body, SureOp Sure b op)
    (hrank : ∀ n b body, bodyFor tbl n b = some body → RankBelow Sure rank b (rank n b) body) :
    ∃ K, ∀ (names : Option Names) (src : Source), ∀ text, readSource src = .ok text →
      ∃ o, (Parser.mk tbl names).parseFuel (K * (text.length + 1)) src = some o := by
  obtain ⟨L, hL⟩ := bounded tbl (fun _ _ body => body.length)
  obtain ⟨R, hR⟩ := bounded tbl (fun n b _ => rank n b)
  have hRk : Ranked tbl (L + 1) R Sure rank :=
    ⟨fun n b body h => Nat.le_succ_of_le (hL n b body h), fun n b body h => hR n b body h, hsure, hrank⟩
  generalize hEe : E (L + 1) (R + 1) = Emax
  generalize hGe : G (L + 1) Emax (R + 1) = A
  -- the longest literal
  obtain ⟨B, hB'⟩ := bounded tbl (fun _ _ body => (body.map fun op => match op with | .terminal s => s.length | _ => 0).sum)
  have hB : ∀ n b body, bodyFor tbl n b = some body → ∀ s, ParserOp.terminal s ∈ body → s.length ≤ B := by
    intro n b body hb s hs
    refine Nat.le_trans ?_ (hB' n b body hb)
    clear hb
    induction body with
    | nil => simp at hs
    | cons op body ih =>
      simp only [List.map_cons, List.sum_cons]
      rcases List.mem_cons.1 hs with rfl | hs
      · exact Nat.le_add_right _ _
      · exact Nat.le_trans (ih hs) (Nat.le_add_left _ _)
  refine ⟨Emax + A * (B + 1) + 1, fun names src text hr => ?_⟩
  have hfin : ∀ j, j ≤ text.length + B → Emax + A * j + 1 ≤ (Emax + A * (B + 1) + 1) * (text.length + 1) := by
    intro j hj
    have h1 : A * j ≤ A * (text.length + B) := Nat.mul_le_mul_left _ hj
    have h1' : A * (text.length + B) ≤ A * ((B + 1) * (text.length + 1)) := by
      refine Nat.mul_le_mul_left _ ?_
      rw [Nat.add_mul, Nat.mul_add, Nat.mul_one, Nat.one_mul]
      omega
    have h2 : (Emax + A * (B + 1) + 1) * (text.length + 1) =
        Emax * (text.length + 1) + A * ((B + 1) * (text.length + 1)) + (text.length + 1) := by
      rw [Nat.add_mul, Nat.add_mul, Nat.mul_assoc]; simp
    have h3 : Emax * (text.length + 1) = Emax * text.length + Emax := by rw [Nat.mul_add]; simp
    omega
  have hterm := terminates_of_rank (tbl := tbl) (names := names) (src := text) hpub hsure hrank
    text.length (rank 0 (byteAt text 0) + 1) [.nonTerminal 0] 0 (by simp [ParserOp.Public])
    (by omega) ⟨by simp only []; omega, Or.inr trivial⟩
  rw [parseFuel_eq (p := Parser.mk tbl names) he hr]
  rcases hterm with ⟨j, cs, hd⟩ | ⟨k, e, hf⟩
  · obtain ⟨s, hs, hb⟩ := steps_derives (names := names) (L := L + 1) (by omega) hRk hd
    have hj := hd.bound_start hnf hB (by intro s hs; simp at hs) (by intro s hs; simp at hs) (Nat.zero_le _)
    have hany := hb.any
    rw [hEe, hGe] at hany
    have := hfin j hj
    obtain ⟨o, ho⟩ : ∃ o, runFuel tbl names text (1 + s) initState = some o := by
      have := hs 1 [.eos] []
      rw [List.singleton_append] at this
      rw [initState, this]
      exact ⟨_, rfl⟩
    refine ⟨o, runFuel_mono_le ho ?_⟩
    simp at hany
    omega
  · obtain ⟨s, hs, hb⟩ := steps_fails (L := L + 1) (by omega) hRk hf
    have hk := hf.bound_start hnf hB (by intro s hs; simp at hs) (by intro s hs; simp at hs) (Nat.zero_le _)
    have hany := hb.any
    rw [hEe, hGe] at hany
    have := hfin k hk
    refine ⟨_, runFuel_mono_le (hs [.eos] []) ?_⟩
    simp at hany
    omega

end LL1.Lin
