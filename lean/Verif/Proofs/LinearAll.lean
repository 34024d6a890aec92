import Verif.Proofs.LinearTime

/-!
# Linear time for every ranked table, also one that reads NUL bytes behind the end of the source

As `Proofs/LinearTime.lean`, but positions behind the end of the source count as the end: only reading a byte that is
there counts as progress.  `B` bounds the length of the literals.
-/

namespace LL1.LinAll

open Lin (Ranked mul_split mul_split' mul_one_more)

/-- Cost of an operation that makes no progress and has rank below `r`, for bodies of length ≤ `L`. -/
def E (L B : Nat) : Nat → Nat
  | 0 => B + 2
  | r + 1 => 2 + L * E L B r

/-- Cost, up to its first progress, of an operation of rank below `r` that makes progress. -/
def G (L B X : Nat) : Nat → Nat
  | 0 => B + 2
  | r + 1 => 2 + L * E L B r + G L B X r + L * X

theorem E_mono_succ {L B : Nat} (hL : 1 ≤ L) (r : Nat) : E L B r ≤ 2 + E L B (r + 1) ∧ E L B r ≤ E L B (r + 1) := by
  rw [E]
  have : 1 * E L B r ≤ L * E L B r := Nat.mul_le_mul_right _ hL
  omega

theorem E_mono {L B : Nat} (hL : 1 ≤ L) {r s : Nat} (h : r ≤ s) : E L B r ≤ E L B s := by
  induction h with
  | refl => exact Nat.le_refl _
  | step _ ih => exact Nat.le_trans ih (E_mono_succ hL _).2

theorem G_mono {L B X : Nat} {r s : Nat} (h : r ≤ s) : G L B X r ≤ G L B X s := by
  induction h with
  | refl => exact Nat.le_refl _
  | step _ ih => refine Nat.le_trans ih ?_; rw [G]; omega

variable {tbl : Table} {names : Option Names} {src : Str}

/-- Positions behind the end count as the end. -/
def clip (src : Str) (i : Nat) : Nat := min i src.length

theorem clip_mono {i j : Nat} (h : i ≤ j) : clip src i ≤ clip src j := by unfold clip; omega

theorem byteAt_clip {i j : Nat} (h : clip src j = clip src i) : byteAt src j = byteAt src i := by
  unfold clip at h
  rcases Nat.lt_or_ge i src.length with hi | hi
  · have : j = i := by omega
    rw [this]
  · rw [byteAt_ge hi, byteAt_ge (by omega)]

/-- The bounds for a list of operations running from `i` to `j` in `s` steps. -/
structure Bounds (L R B : Nat) (Sure : Int → UInt8 → Prop) (rank : Int → UInt8 → Nat) (src : Str)
    (ops : List ParserOp) (i j s : Nat) : Prop where
  any : s ≤ ops.length * E L B (R + 1) + G L B (E L B (R + 1)) (R + 1) * (clip src j - clip src i)
  stay : ∀ r, RankBelow Sure rank (byteAt src i) r ops → clip src j = clip src i → s ≤ ops.length * E L B r
  move : ∀ r, RankBelow Sure rank (byteAt src i) r ops → clip src i < clip src j →
    s ≤ ops.length * E L B r + G L B (E L B (R + 1)) r + ops.length * E L B (R + 1) +
      G L B (E L B (R + 1)) (R + 1) * (clip src j - clip src i - 1)

theorem node_bounds {L R B : Nat} {Sure : Int → UInt8 → Prop} {rank : Int → UInt8 → Nat}
    (hR : Ranked tbl L R Sure rank) {n : Int} {body : List ParserOp} {i j t : Nat}
    (hb : bodyFor tbl n (byteAt src i) = some body) (h : Bounds L R B Sure rank src body i j t) :
    (clip src j = clip src i → t + 2 ≤ E L B (rank n (byteAt src i) + 1)) ∧
    (clip src i < clip src j → t + 2 ≤ G L B (E L B (R + 1)) (rank n (byteAt src i) + 1) +
      G L B (E L B (R + 1)) (R + 1) * (clip src j - clip src i - 1)) := by
  have hl := hR.len _ _ _ hb
  have hrk := hR.rank _ _ _ hb
  constructor
  · intro hij
    have h1 := h.stay _ hrk hij
    have h2 : body.length * E L B (rank n (byteAt src i)) ≤ L * E L B (rank n (byteAt src i)) :=
      Nat.mul_le_mul_right _ hl
    rw [E]; omega
  · intro hij
    have h1 := h.move _ hrk hij
    have h2 : body.length * E L B (rank n (byteAt src i)) ≤ L * E L B (rank n (byteAt src i)) :=
      Nat.mul_le_mul_right _ hl
    have h3 : body.length * E L B (R + 1) ≤ L * E L B (R + 1) := Nat.mul_le_mul_right _ hl
    rw [show G L B (E L B (R + 1)) (rank n (byteAt src i) + 1) = 2 + L * E L B (rank n (byteAt src i)) +
      G L B (E L B (R + 1)) (rank n (byteAt src i)) + L * E L B (R + 1) from rfl]
    omega

/-- Combining the cost of one operation with that of the following ones. -/
theorem cons_bounds {L R B : Nat} (hL : 1 ≤ L) {Sure : Int → UInt8 → Prop} {rank : Int → UInt8 → Nat}
    {op : ParserOp} {ops : List ParserOp} {i j k t u c : Nat} (hij : i ≤ j) (hjk : j ≤ k)
    (hc : c ≤ R + 1)
    (h1 : clip src j = clip src i → t ≤ E L B c)
    (h2 : clip src i < clip src j → t ≤ G L B (E L B (R + 1)) c + G L B (E L B (R + 1)) (R + 1) * (clip src j - clip src i - 1))
    (hr : ∀ r, RankBelow Sure rank (byteAt src i) r (op :: ops) → c ≤ r)
    (hs : SureOp Sure (byteAt src i) op → clip src i < clip src j)
    (h : Bounds L R B Sure rank src ops j k u) :
    Bounds L R B Sure rank src (op :: ops) i k (t + u) := by
  have hE := E_mono (B := B) hL hc
  have hG := G_mono (L := L) (B := B) (X := E L B (R + 1)) hc
  have e1 : (op :: ops).length * E L B (R + 1) = ops.length * E L B (R + 1) + E L B (R + 1) := by
    rw [List.length_cons, Nat.succ_mul]
  have ha := h.any
  have hij' := clip_mono (src := src) hij
  have hjk' := clip_mono (src := src) hjk
  have hbyte : clip src j = clip src i → byteAt src j = byteAt src i := byteAt_clip
  refine ⟨?_, ?_, ?_⟩
  · rw [e1, mul_split _ hij' hjk']
    rcases Nat.lt_or_ge (clip src i) (clip src j) with hlt | hge
    · have := h2 hlt
      rw [mul_one_more _ hlt]
      omega
    · have hji : clip src j = clip src i := by omega
      have := h1 hji
      omega
  · intro r hrb hki
    have hji : clip src j = clip src i := by omega
    have hcr := hr r hrb
    have := E_mono (B := B) hL hcr
    rw [List.length_cons, Nat.succ_mul]
    have ht := h1 hji
    rcases hrb.2 with hsu | hrest
    · have := hs hsu; omega
    · have := h.stay r (by rw [hbyte hji]; exact hrest) (by omega)
      omega
  · intro r hrb hik
    have hcr := hr r hrb
    have hEr := E_mono (B := B) hL hcr
    have hGr := G_mono (L := L) (B := B) (X := E L B (R + 1)) hcr
    have e2 : (op :: ops).length * E L B r = ops.length * E L B r + E L B r := by
      rw [List.length_cons, Nat.succ_mul]
    rw [e1, e2]
    rcases Nat.lt_or_ge (clip src i) (clip src j) with hlt | hge
    · have := h2 hlt
      rw [mul_split' _ hlt hjk']
      omega
    · have hji : clip src j = clip src i := by omega
      have ht := h1 hji
      rcases hrb.2 with hsu | hrest
      · have := hs hsu; omega
      · have := h.move r (by rw [hbyte hji]; exact hrest) (by omega)
        rw [hji] at this
        omega

theorem nil_bounds {L R B : Nat} {Sure : Int → UInt8 → Prop} {rank : Int → UInt8 → Nat} {i j : Nat}
    (ops : List ParserOp) : Bounds L R B Sure rank src ops i j 0 :=
  ⟨Nat.zero_le _, fun _ _ _ => Nat.zero_le _, fun _ _ _ => Nat.zero_le _⟩

theorem lit_cost {L X R B : Nat} {s c d : Nat} (hs : s ≤ B + 2) :
    (d = c → s ≤ E L B 0) ∧ (c < d → s ≤ G L B X 0 + G L B X (R + 1) * (d - c - 1)) := by
  constructor
  · intro h
    simp [E]; omega
  · intro h
    rw [show G L B X 0 = B + 2 from rfl]
    omega

/-- A sure operation makes progress. -/
theorem sure_progress {Sure : Int → UInt8 → Prop}
    (hsure : ∀ n b body, Sure n b → bodyFor tbl n b = some body → ∃ op ∈ body, SureOp Sure b op)
    {ops : List ParserOp} {i j : Nat} {cs : List Node} (h : Derives tbl src ops i j cs)
    (hex : ∃ op ∈ ops, SureOp Sure (byteAt src i) op) : clip src i < clip src j := by
  have h1 := sure_consumes hsure h hex
  have h2 : i < src.length := by
    apply Classical.byContradiction
    intro hn
    rw [byteAt_ge (by omega)] at hex
    exact sure_not_past hsure h (by omega) hex
  unfold clip; omega

/-- The literals in `ops` have at most `B` bytes. -/
def Short (B : Nat) (ops : List ParserOp) : Prop := ∀ s, ParserOp.terminal s ∈ ops → s.length ≤ B

theorem Short.tail {B : Nat} {op : ParserOp} {ops : List ParserOp} (h : Short B (op :: ops)) : Short B ops :=
  fun s hs => h s (List.mem_cons_of_mem _ hs)

theorem Derives.single {s : Str} {i : Nat} (hl : LitAt src s i) :
    ∃ cs, Derives tbl src [.terminal s] i (i + s.length) cs := ⟨_, .lit hl (.nil _)⟩

/-- A finished derivation. -/
theorem steps_derives {L R B : Nat} (hL : 1 ≤ L) {Sure : Int → UInt8 → Prop} {rank : Int → UInt8 → Nat}
    (hR : Ranked tbl L R Sure rank) (hB : ∀ n b body, bodyFor tbl n b = some body → Short B body)
    {ops : List ParserOp} {i j : Nat} {cs : List Node} (h : Derives tbl src ops i j cs) (hsh : Short B ops) :
    ∃ s, (∀ fuel S P, runFuel tbl names src (fuel + s) ⟨i, ops ++ S, P⟩ =
      runFuel tbl names src fuel ⟨j, S, cs.reverse ++ P⟩) ∧ Bounds L R B Sure rank src ops i j s := by
  induction h with
  | nil i => exact ⟨0, by simp, nil_bounds _⟩
  | @lit s ops i j cs hl hd ih =>
    obtain ⟨k, hk, hb⟩ := ih hsh.tail
    refine ⟨(s.length + 2) + k, fun fuel S P => ?_, ?_⟩
    · rw [show fuel + (s.length + 2 + k) = (fuel + k) + (s.length + 2) by omega, List.cons_append,
        run_literal s i hl, hk]
      simp
    · have hs := hsh s (by simp)
      obtain ⟨h1, h2⟩ := lit_cost (L := L) (X := E L B (R + 1)) (R := R) (B := B) (c := clip src i)
        (d := clip src (i + s.length)) (s := s.length + 2) (by omega)
      refine cons_bounds hL (Nat.le_add_right _ _) hd.le (Nat.zero_le _) h1 h2 (fun _ _ => Nat.zero_le _) ?_ hb
      intro hso
      obtain ⟨cs, hd⟩ := Derives.single (tbl := tbl) hl
      exact sure_progress hR.sure hd ⟨_, by simp, hso⟩
  | @nt n body ops i j k cs ds hb hd1 hd2 ih1 ih2 =>
    obtain ⟨k1, hk1, hb1⟩ := ih1 (hB _ _ _ hb)
    obtain ⟨k2, hk2, hb2⟩ := ih2 hsh.tail
    refine ⟨(k1 + 2) + k2, fun fuel S P => ?_, ?_⟩
    · rw [show fuel + (k1 + 2 + k2) = (((fuel + k2) + 1) + k1) + 1 by omega, runFuel, List.cons_append,
        step_nonTerminal, hb]
      simp only
      rw [hk1, run_function n i j body cs hd1.length (bodyFor_ne hb), hk2]
      · simp
      · rintro rfl
        exact hd1.nil_inv.1
    · obtain ⟨h1, h2⟩ := node_bounds hR hb hb1
      refine cons_bounds hL hd1.le hd2.le ?_ h1 h2 (fun r hr => hr.1) ?_ hb2
      · have := hR.top _ _ _ hb; omega
      · intro hs
        exact sure_progress hR.sure hd1 (hR.sure _ _ _ hs hb)

/-- One failing operation followed by anything: the following operations are not run. -/
theorem last_bounds {L R B : Nat} (hL : 1 ≤ L) {Sure : Int → UInt8 → Prop} {rank : Int → UInt8 → Nat}
    {op : ParserOp} {ops : List ParserOp} {i j t c : Nat} (hij : i ≤ j) (hc : c ≤ R + 1)
    (h1 : clip src j = clip src i → t ≤ E L B c)
    (h2 : clip src i < clip src j → t ≤ G L B (E L B (R + 1)) c + G L B (E L B (R + 1)) (R + 1) * (clip src j - clip src i - 1))
    (hr : ∀ r, RankBelow Sure rank (byteAt src i) r (op :: ops) → c ≤ r) :
    Bounds L R B Sure rank src (op :: ops) i j t := by
  have hE := E_mono (B := B) hL hc
  have hG := G_mono (L := L) (B := B) (X := E L B (R + 1)) hc
  have hij' := clip_mono (src := src) hij
  have e1 : (op :: ops).length * E L B (R + 1) = ops.length * E L B (R + 1) + E L B (R + 1) := by
    rw [List.length_cons, Nat.succ_mul]
  refine ⟨?_, ?_, ?_⟩
  · rw [e1]
    rcases Nat.lt_or_ge (clip src i) (clip src j) with hlt | hge
    · have := h2 hlt
      rw [mul_one_more _ hlt]
      omega
    · have hji : clip src j = clip src i := by omega
      have := h1 hji
      omega
  · intro r hrb hki
    have := E_mono (B := B) hL (hr r hrb)
    have := h1 hki
    rw [List.length_cons, Nat.succ_mul]
    omega
  · intro r hrb hik
    have hGr := G_mono (L := L) (B := B) (X := E L B (R + 1)) (hr r hrb)
    have := h2 hik
    omega

/-- A stuck derivation. -/
theorem steps_fails {L R B : Nat} (hL : 1 ≤ L) {Sure : Int → UInt8 → Prop} {rank : Int → UInt8 → Nat}
    (hR : Ranked tbl L R Sure rank) (hB : ∀ n b body, bodyFor tbl n b = some body → Short B body)
    {ops : List ParserOp} {i k : Nat} {e : PErr} (h : FailsAt tbl names src ops i k e) (hsh : Short B ops) :
    ∃ s, (∀ S P, runFuel tbl names src s ⟨i, ops ++ S, P⟩ = some (.err e)) ∧
      Bounds L R B Sure rank src ops i k s := by
  induction h with
  | @lit s ops i k c h1 h2 h3 =>
    have hk : k < s.length := (List.getElem?_eq_some_iff.1 h2).1
    have hs := hsh s (by simp)
    refine ⟨k + 2, fun S P => ?_, ?_⟩
    · rw [show k + 2 = (0 + k + 1) + 1 by omega, runFuel]
      simp only [List.cons_append, step, processTerminal]
      exact run_chars_fail s i k c h1 h2 h3 _ _ 0
    · obtain ⟨h1, h2⟩ := lit_cost (L := L) (X := E L B (R + 1)) (R := R) (B := B) (c := clip src i)
        (d := clip src (i + k)) (s := k + 2) (by omega)
      exact last_bounds hL (Nat.le_add_right _ _) (Nat.zero_le _) h1 h2 (fun _ _ => Nat.zero_le _)
  | @afterLit s ops i k e hl hf ih =>
    obtain ⟨m, hm, hb⟩ := ih hsh.tail
    have hs := hsh s (by simp)
    refine ⟨(s.length + 2) + m, fun S P => ?_, ?_⟩
    · rw [Nat.add_comm, List.cons_append, run_literal s i hl, hm]
    · obtain ⟨h1, h2⟩ := lit_cost (L := L) (X := E L B (R + 1)) (R := R) (B := B) (c := clip src i)
        (d := clip src (i + s.length)) (s := s.length + 2) (by omega)
      refine cons_bounds hL (Nat.le_add_right _ _) (Lin.FailsAt.le' hf) (Nat.zero_le _) h1 h2
        (fun _ _ => Nat.zero_le _) ?_ hb
      intro hso
      obtain ⟨cs, hd⟩ := Derives.single (tbl := tbl) hl
      exact sure_progress hR.sure hd ⟨_, by simp, hso⟩
  | @noBody n ops i hb =>
    refine ⟨0 + 1, fun S P => ?_, ?_⟩
    · rw [runFuel, List.cons_append, step_nonTerminal, hb]
    · refine last_bounds (c := 0) hL (Nat.le_refl _) (Nat.zero_le _) (fun _ => ?_) (fun h => ?_)
        (fun _ _ => Nat.zero_le _)
      · simp [E]
      · exact absurd h (Nat.lt_irrefl _)
  | @inside n body ops i k e hb hf ih =>
    obtain ⟨m, hm, hbd⟩ := ih (hB _ _ _ hb)
    refine ⟨m + 1, fun S P => ?_, ?_⟩
    · rw [runFuel, List.cons_append, step_nonTerminal, hb]
      exact hm _ _
    · obtain ⟨h1, h2⟩ := node_bounds hR hb hbd
      refine last_bounds hL (Lin.FailsAt.le' hf) (c := rank n (byteAt src i) + 1) ?_ (fun h => ?_) (fun h => ?_)
        (fun r hr => hr.1)
      · have := hR.top _ _ _ hb; omega
      · have := h1 h; omega
      · have := h2 h; omega
  | @afterNt n body ops i j k cs e hb hd hf ih =>
    obtain ⟨m, hm, hbd⟩ := ih hsh.tail
    obtain ⟨k1, hk1, hb1⟩ := steps_derives (names := names) hL hR hB hd (hB _ _ _ hb)
    refine ⟨(k1 + 2) + m, fun S P => ?_, ?_⟩
    · rw [show k1 + 2 + m = ((m + 1) + k1) + 1 by omega, runFuel, List.cons_append, step_nonTerminal, hb]
      simp only
      rw [hk1, run_function n i j body cs hd.length (bodyFor_ne hb), hm]
      rintro rfl
      exact hd.nil_inv.1
    · obtain ⟨h1, h2⟩ := node_bounds hR hb hb1
      refine cons_bounds hL hd.le (Lin.FailsAt.le' hf) ?_ h1 h2 (fun r hr => hr.1) ?_ hbd
      · have := hR.top _ _ _ hb; omega
      · intro hs
        exact sure_progress hR.sure hd (hR.sure _ _ _ hs hb)

/-- A ranked (finite) table has a linear bound. -/
theorem linear_of_rank (hpub : Table.Public tbl) (he : tbl.HasEntry)
    {Sure : Int → UInt8 → Prop} {rank : Int → UInt8 → Nat}
    (hsure : ∀ n b body, Sure n b → bodyFor tbl n b = some body → ∃ op ∈ body, SureOp Sure b op)
    (hrank : ∀ n b body, bodyFor tbl n b = some body → RankBelow Sure rank b (rank n b) body) :
    ∃ K, ∀ (names : Option Names) (src : Source), ∀ text, readSource src = .ok text →
      ∃ o, (Parser.mk tbl names).parseFuel (K * (text.length + 1)) src = some o := by
  obtain ⟨L, hL⟩ := Lin.bounded tbl (fun _ _ body => body.length)
  obtain ⟨R, hR⟩ := Lin.bounded tbl (fun n b _ => rank n b)
  have hRk : Ranked tbl (L + 1) R Sure rank :=
    ⟨fun n b body h => Nat.le_succ_of_le (hL n b body h), fun n b body h => hR n b body h, hsure, hrank⟩
  -- the longest literal
  obtain ⟨B, hB'⟩ := Lin.bounded tbl (fun _ _ body => (body.map fun op => match op with | .terminal s => s.length | _ => 0).sum)
  have hB : ∀ n b body, bodyFor tbl n b = some body → Short B body := by
    intro n b body hb s hs
    refine Nat.le_trans ?_ (hB' n b body hb)
    clear hb
    induction body with
    | nil => simp at hs
    | cons op body ih =>
      simp only [List.map_cons, List.sum_cons]
      rcases List.mem_cons.1 hs with rfl | hs
      · exact Nat.le_add_right _ _
      · exact Nat.le_trans (ih hs) (Nat.le_add_left _ _)
  generalize hEe : E (L + 1) B (R + 1) = Emax
  generalize hGe : G (L + 1) B Emax (R + 1) = A
  refine ⟨Emax + A + 1, fun names src text hr => ?_⟩
  have hfin : ∀ s j, s ≤ 1 * Emax + A * (clip text j - clip text 0) → s + 1 ≤ (Emax + A + 1) * (text.length + 1) := by
    intro s j hs
    have h1 : A * (clip text j - clip text 0) ≤ A * text.length := Nat.mul_le_mul_left _ (by unfold clip; omega)
    have h2 : (Emax + A + 1) * (text.length + 1) = Emax * text.length + A * text.length + text.length + (Emax + A + 1) := by
      rw [Nat.mul_add, Nat.add_mul, Nat.add_mul]; omega
    omega
  have hterm := terminates_of_rank (tbl := tbl) (names := names) (src := text) hpub hsure hrank
    text.length (rank 0 (byteAt text 0) + 1) [.nonTerminal 0] 0 (by simp [ParserOp.Public])
    (by omega) ⟨by simp only []; omega, Or.inr trivial⟩
  have hsh : Short B [.nonTerminal 0] := by intro s hs; simp at hs
  rw [parseFuel_eq (p := Parser.mk tbl names) he hr]
  rcases hterm with ⟨j, cs, hd⟩ | ⟨k, e, hf⟩
  · obtain ⟨s, hs, hb⟩ := steps_derives (names := names) (L := L + 1) (by omega) hRk hB hd hsh
    have hany := hb.any
    rw [hEe, hGe] at hany
    obtain ⟨o, ho⟩ : ∃ o, runFuel tbl names text (1 + s) initState = some o := by
      have := hs 1 [.eos] []
      rw [List.singleton_append] at this
      rw [initState, this]
      exact ⟨_, rfl⟩
    refine ⟨o, runFuel_mono_le ho ?_⟩
    have := hfin s j (by simpa using hany)
    omega
  · obtain ⟨s, hs, hb⟩ := steps_fails (L := L + 1) (by omega) hRk hB hf hsh
    have hany := hb.any
    rw [hEe, hGe] at hany
    have := hfin s k (by simpa using hany)
    exact ⟨_, runFuel_mono_le (hs [.eos] []) (by omega)⟩

end LL1.LinAll
