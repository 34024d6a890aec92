import Verif.Spec.TableText
import Verif.Proofs.TestDriver

/-!
# The printed table is a code
-/

namespace LL1
namespace TestTools

theorem goList_code {α : Type} (f : α → Str) (P : α → Prop)
    (hf : ∀ a b, P a → P b → ∀ x y, f a ++ x = f b ++ y → a = b ∧ x = y)
    (h1 : ∀ a, P a → ∀ x y, f a ++ x ≠ 125 :: y) (L L' : List α) (hL : ∀ a ∈ L, P a) (hL' : ∀ a ∈ L', P a) (x y : Str)
    (h : goList f L ++ x = goList f L' ++ y) : L = L' ∧ x = y := by
  induction L generalizing L' with
  | nil =>
    cases L' with
    | nil => simpa [goList] using h
    | cons b L' =>
      rw [goList, goList, List.append_assoc] at h
      exact (h1 b (hL' b List.mem_cons_self) _ _ h.symm).elim
  | cons a L ih =>
    cases L' with
    | nil =>
      rw [goList, goList, List.append_assoc] at h
      exact (h1 a (hL a List.mem_cons_self) _ _ h).elim
    | cons b L' =>
      rw [goList, goList, List.append_assoc, List.append_assoc] at h
      obtain ⟨e, h⟩ := hf a b (hL a List.mem_cons_self) (hL' b List.mem_cons_self) _ _ h
      cases L with
      | nil =>
        cases L' with
        | nil => simp at h; exact ⟨by rw [e], h⟩
        | cons c L' => simp at h
      | cons d L =>
        cases L' with
        | nil => simp at h
        | cons c L' =>
          simp only [List.isEmpty_cons, Bool.false_eq_true, if_false, List.cons_append, List.cons.injEq, true_and] at h
          obtain ⟨e', h⟩ := ih (c :: L') (fun a ha => hL a (List.mem_cons_of_mem _ ha))
            (fun a ha => hL' a (List.mem_cons_of_mem _ ha)) h
          exact ⟨by rw [e, e'], h⟩

theorem code_of_prefix {a b x y : Str} (h : a ++ x = b ++ y) : a <+: b ∨ b <+: a := by
  have h1 : a <+: b ++ y := ⟨x, h⟩
  exact List.prefix_or_prefix_of_prefix h1 ⟨y, rfl⟩

theorem quoteByte_table : ∀ c, c < 128 → ∀ d, d < 128 → c ≠ d →
    (goQuoteByte (UInt8.ofNat c)).isPrefixOf (goQuoteByte (UInt8.ofNat d)) = false := by
  decide +kernel

theorem quoteByte_head : ∀ c, c < 128 → (goQuoteByte (UInt8.ofNat c)).head? ≠ some 34 ∧ goQuoteByte (UInt8.ofNat c) ≠ [] := by
  decide +kernel

theorem quoteByte_code {c d : UInt8} (hc : c.toNat < 128) (hd : d.toNat < 128) {x y : Str}
    (h : goQuoteByte c ++ x = goQuoteByte d ++ y) : c = d ∧ x = y := by
  by_cases e : c = d
  · subst e
    exact ⟨rfl, List.append_cancel_left h⟩
  · have e' : c.toNat ≠ d.toNat := fun h => e (UInt8.toNat_inj.1 h)
    have h1 := quoteByte_table c.toNat hc d.toNat hd e'
    have h2 := quoteByte_table d.toNat hd c.toNat hc (Ne.symm e')
    rw [UInt8.ofNat_toNat, UInt8.ofNat_toNat] at h1 h2
    rcases code_of_prefix h with g | g
    · rw [List.isPrefixOf_iff_prefix.2 g] at h1; cases h1
    · rw [List.isPrefixOf_iff_prefix.2 g] at h2; cases h2

theorem quoteByte_ne {c : UInt8} (hc : c.toNat < 128) (x y : Str) : goQuoteByte c ++ x ≠ 34 :: y := by
  intro h
  obtain ⟨h1, h2⟩ := quoteByte_head c.toNat hc
  rw [UInt8.ofNat_toNat] at h1 h2
  cases hq : goQuoteByte c with
  | nil => exact h2 hq
  | cons a l =>
    rw [hq] at h h1
    exact h1 (by rw [List.head?_cons, (List.cons.inj h).1])

theorem goQuote_code (s s' : Str) (hs : ∀ c ∈ s, c.toNat < 128) (hs' : ∀ c ∈ s', c.toNat < 128) (x y : Str)
    (h : goQuote s ++ x = goQuote s' ++ y) : s = s' ∧ x = y := by
  unfold goQuote at h
  simp only [List.cons_append, List.append_assoc, List.nil_append, List.cons.injEq, true_and] at h
  induction s generalizing s' with
  | nil =>
    cases s' with
    | nil => simpa using h
    | cons d s' =>
      rw [List.flatMap_cons, List.append_assoc] at h
      exact (quoteByte_ne (hs' d List.mem_cons_self) _ _ h.symm).elim
  | cons c s ih =>
    cases s' with
    | nil =>
      rw [List.flatMap_cons, List.append_assoc] at h
      exact (quoteByte_ne (hs c List.mem_cons_self) _ _ h).elim
    | cons d s' =>
      rw [List.flatMap_cons, List.flatMap_cons, List.append_assoc, List.append_assoc] at h
      obtain ⟨e, h⟩ := quoteByte_code (hs c List.mem_cons_self) (hs' d List.mem_cons_self) h
      obtain ⟨e', h⟩ := ih s' (fun c hc => hs c (List.mem_cons_of_mem _ hc)) (fun c hc => hs' c (List.mem_cons_of_mem _ hc)) h
      exact ⟨by rw [e, e'], h⟩

/-- Reads a hexadecimal byte. -/
def unGoByte (s : Str) : UInt8 :=
  (s.drop 2).foldl (fun a c => a * 16 + (if c < 58 then c - 48 else c - 87)) 0

theorem unGoByte_goByte : ∀ c : UInt8, unGoByte (goByte c) = c := forall_byte (by decide +kernel)

theorem goByte_bytes : ∀ c : UInt8, ∀ d ∈ goByte c, d ≠ 58 ∧ d ≠ 125 := forall_byte (by decide +kernel)

theorem goByte_inj {c d : UInt8} (h : goByte c = goByte d) : c = d := by
  rw [← unGoByte_goByte c, h, unGoByte_goByte]

theorem goByte_ne_nil (c : UInt8) : goByte c ≠ [] := by
  unfold goByte
  simp only
  split <;> simp

theorem not_num' {c : UInt8} (h : c = 44 ∨ c = 125) : ¬ NumByte c := by
  rcases h with rfl | rfl <;> (unfold NumByte; decide)

/-- Terminals are ASCII. -/
def AsciiOp (o : ParserOp) : Prop := ∀ s, o = .terminal s → ∀ c ∈ s, c.toNat < 128

theorem goOp_code (a b : ParserOp) (ha : AsciiOp a) (hb : AsciiOp b) (x y : Str) (h : goOp a ++ x = goOp b ++ y) :
    a = b ∧ x = y := by
  cases a <;> cases b <;> simp [goOp] at h <;> try (exact ⟨rfl, h⟩)
  · obtain ⟨e, -, h⟩ := split_at _ _ (fmtInt_num _) (fmtInt_num _) (not_num' (.inr rfl)) (not_num' (.inr rfl)) h
    exact ⟨by rw [fmtInt_inj e], h⟩
  · obtain ⟨e, h⟩ := goQuote_code _ _ (ha _ rfl) (hb _ rfl) _ _ h
    exact ⟨by rw [e], (List.cons.inj h).2⟩
  · obtain ⟨e1, -, h⟩ := split_at _ _ (fmtInt_num _) (fmtInt_num _) (not_num' (.inl rfl)) (not_num' (.inl rfl)) h
    simp at h
    obtain ⟨e2, -, h⟩ := split_at _ _ (fmtNat_num _) (fmtNat_num _) (not_num' (.inl rfl)) (not_num' (.inl rfl)) h
    simp at h
    obtain ⟨e3, -, h⟩ := split_at _ _ (fmtNat_num _) (fmtNat_num _) (not_num' (.inr rfl)) (not_num' (.inr rfl)) h
    exact ⟨by rw [fmtInt_inj e1, fmtNat_inj e2, fmtNat_inj e3], h⟩
  · obtain ⟨e, -, h⟩ := split_at (P := fun d => d ≠ 58 ∧ d ≠ 125) _ _ (goByte_bytes _) (goByte_bytes _) (by decide) (by decide) h
    exact ⟨by rw [goByte_inj e], h⟩

theorem goOp_head (a : ParserOp) (x y : Str) : goOp a ++ x ≠ 125 :: y := by
  cases a <;> simp [goOp]

theorem goOps_code (l l' : List ParserOp) (hl : ∀ o ∈ l, AsciiOp o) (hl' : ∀ o ∈ l', AsciiOp o) (x y : Str)
    (h : goOps l ++ x = goOps l' ++ y) : l = l' ∧ x = y := by
  unfold goOps at h
  rw [List.append_assoc, List.append_assoc] at h
  exact goList_code goOp AsciiOp (fun a b => fun ha hb x y => goOp_code a b ha hb x y) (fun a _ => goOp_head a) l l' hl hl' x y
    (List.append_cancel_left h)

/-! ## Sorting -/

section Sorting
variable {α : Type} (key : α → Int)

theorem insertBy_perm (e : α) (m : List α) : (insertBy key e m).Perm (e :: m) := by
  induction m with
  | nil => exact .refl _
  | cons f m ih =>
    unfold insertBy
    split
    · exact .refl _
    · exact (ih.cons f).trans (.swap e f m)

theorem sortBy_perm (m : List α) : (sortBy key m).Perm m := by
  induction m with
  | nil => exact .refl _
  | cons e m ih => exact (insertBy_perm key e _).trans (ih.cons e)

theorem insertBy_sorted (e : α) (m : List α) (h : m.Pairwise fun a b => key a ≤ key b) :
    (insertBy key e m).Pairwise fun a b => key a ≤ key b := by
  induction m with
  | nil => simp [insertBy]
  | cons f m ih =>
    rw [List.pairwise_cons] at h
    unfold insertBy
    split
    · next he =>
      refine List.pairwise_cons.2 ⟨?_, List.pairwise_cons.2 h⟩
      intro g hg
      rcases List.mem_cons.1 hg with rfl | hg
      · exact he
      · exact Int.le_trans he (h.1 g hg)
    · next he =>
      refine List.pairwise_cons.2 ⟨?_, ih h.2⟩
      intro g hg
      rcases List.mem_cons.1 ((insertBy_perm key e m).mem_iff.1 hg) with rfl | hg
      · omega
      · exact h.1 g hg

theorem sortBy_sorted (m : List α) : (sortBy key m).Pairwise fun a b => key a ≤ key b := by
  induction m with
  | nil => exact .nil
  | cons e m ih => exact insertBy_sorted key e _ ih

theorem sortBy_eq (m m' : List α) (hinj : ∀ a ∈ m, ∀ b ∈ m, key a = key b → a = b) (h : m.Perm m') :
    sortBy key m = sortBy key m' := by
  have hp : (sortBy key m).Perm (sortBy key m') := (sortBy_perm key m).trans (h.trans (sortBy_perm key m').symm)
  refine List.Perm.eq_of_pairwise ?_ (sortBy_sorted key m) (sortBy_sorted key m') hp
  intro a b ha hb h1 h2
  exact hinj a ((sortBy_perm key m).mem_iff.1 ha) b (h.mem_iff.2 ((sortBy_perm key m').mem_iff.1 hb)) (Int.le_antisymm h1 h2)

theorem sortBy_map {β : Type} (f : α → β) (kb : β → Int) (hk : ∀ a, kb (f a) = key a) (m : List α) :
    sortBy kb (m.map f) = (sortBy key m).map f := by
  have hi : ∀ e (l : List α), insertBy kb (f e) (l.map f) = (insertBy key e l).map f := by
    intro e l
    induction l with
    | nil => rfl
    | cons g l ih =>
      simp only [List.map_cons, insertBy, hk]
      split
      · rfl
      · rw [ih]; rfl
  induction m with
  | nil => rfl
  | cons e m ih =>
    show insertBy kb (f e) (sortBy kb (m.map f)) = (insertBy key e (sortBy key m)).map f
    rw [ih, hi]
end Sorting

section GoMaps
variable {K V : Type} [DecidableEq K]

theorem gm_get_iff_mem (m : GoMap K V) (hm : (m.map (·.1)).Nodup) (k : K) (v : V) : m.get k = some v ↔ (k, v) ∈ m := by
  induction m with
  | nil => simp [GoMap.get]
  | cons e m ih =>
    rw [List.map_cons, List.nodup_cons] at hm
    obtain ⟨a, b⟩ := e
    by_cases h : a = k
    · subst h
      simp only [GoMap.get, if_pos, Option.some.injEq, List.mem_cons, Prod.mk.injEq, true_and]
      constructor
      · intro h; exact .inl h.symm
      · rintro (h | h)
        · exact h.symm
        · exact (hm.1 (List.mem_map.2 ⟨_, h, rfl⟩)).elim
    · simp only [GoMap.get, if_neg h, List.mem_cons, Prod.mk.injEq]
      rw [ih hm.2]
      constructor
      · exact .inr
      · rintro (⟨h', -⟩ | h')
        · exact (h h'.symm).elim
        · exact h'

theorem gm_perm (m m' : GoMap K V) (hm : (m.map (·.1)).Nodup) (hm' : (m'.map (·.1)).Nodup)
    (h : ∀ k, m.get k = m'.get k) : m.Perm m' := by
  have nd : ∀ l : GoMap K V, (l.map (·.1)).Nodup → l.Nodup := fun l hl =>
    List.Pairwise.of_map (·.1) (fun a b hab e => hab (by rw [e])) hl
  refine (List.perm_ext_iff_of_nodup (nd m hm) (nd m' hm')).2 fun e => ?_
  rw [← gm_get_iff_mem m hm e.1 e.2, ← gm_get_iff_mem m' hm' e.1 e.2, h]

theorem gm_get_of_perm (m m' : GoMap K V) (hm : (m.map (·.1)).Nodup) (h : m.Perm m') (k : K) : m.get k = m'.get k := by
  have hm' : (m'.map (·.1)).Nodup := (h.map _).nodup_iff.1 hm
  refine Option.ext fun v => ?_
  rw [gm_get_iff_mem m hm, gm_get_iff_mem m' hm', h.mem_iff]

theorem gm_key_inj (m : GoMap K V) (hm : (m.map (·.1)).Nodup) (a b : K × V) (ha : a ∈ m) (hb : b ∈ m) (e : a.1 = b.1) :
    a = b := by
  have g1 := (gm_get_iff_mem m hm a.1 a.2).2 ha
  have g2 := (gm_get_iff_mem m hm b.1 b.2).2 hb
  rw [e, g2] at g1
  exact Prod.ext e (Option.some.inj g1).symm

theorem gm_get_map {W : Type} (f : V → W) (m : GoMap K V) (k : K) :
    GoMap.get (m.map fun e => (e.1, f e.2)) k = (m.get k).map f := by
  induction m with
  | nil => simp [GoMap.get]
  | cons e m ih =>
    obtain ⟨a, b⟩ := e
    by_cases h : a = k
    · simp [GoMap.get, h]
    · simp only [List.map_cons, GoMap.get, if_neg h]
      exact ih
end GoMaps

/-- A row in the order in which it is printed. -/
abbrev canonRow (r : Row) : Row := sortBy (fun e => (e.1.toNat : Int)) r

/-- A table in the order in which it is printed. -/
abbrev canonTable (t : Table) : Table := sortBy (fun e => e.1) (t.map fun e => (e.1, canonRow e.2))

theorem goTable_canon (t : Table) : goTable t = b!"map[int]map[uint8][]parser.ParserOp{" ++
    goList (fun e : Int × Row => fmtInt e.1 ++ (58 :: (b!"map[uint8][]parser.ParserOp{" ++
      goList (fun e : UInt8 × List ParserOp => goByte e.1 ++ (58 :: goOps e.2)) e.2))) (canonTable t) := by
  have gm : ∀ {α β : Type} (f : β → Str) (g : α → β) (l : List α), goList f (l.map g) = goList (fun a => f (g a)) l := by
    intro α β f g l
    induction l with
    | nil => rfl
    | cons a l ih => simp only [List.map_cons, goList, ih, List.isEmpty_map]
  unfold goTable canonTable
  rw [sortBy_map (fun e : Int × Row => e.1) (fun e => (e.1, canonRow e.2)) (fun e => e.1) (fun _ => rfl), gm]
  rfl

theorem canonRow_eq_iff (r r' : Row) (hr : (r.map (·.1)).Nodup) (hr' : (r'.map (·.1)).Nodup) :
    canonRow r = canonRow r' ↔ ∀ b, r.get b = r'.get b := by
  constructor
  · intro h
    have h2 : (canonRow r).Perm r' := by rw [h]; exact sortBy_perm _ r'
    exact gm_get_of_perm r r' hr ((sortBy_perm _ r).symm.trans h2)
  · intro h
    refine sortBy_eq _ r r' ?_ (gm_perm r r' hr hr' h)
    intro a ha b hb e
    exact gm_key_inj r hr a b ha hb (UInt8.toNat_inj.1 (by exact_mod_cast e))

theorem canonTable_eq_iff (t t' : Table) (ht : IsGoTable t) (ht' : IsGoTable t') :
    canonTable t = canonTable t' ↔ SameTable t t' := by
  have nd : ∀ t : Table, IsGoTable t → ((t.map fun e => (e.1, canonRow e.2)).map (·.1)).Nodup := by
    intro t ht
    rw [List.map_map]
    exact ht.1
  have hget : ∀ (t : Table) n, GoMap.get (t.map fun e => (e.1, canonRow e.2)) n = (t.get n).map canonRow :=
    fun t n => gm_get_map canonRow t n
  have hrow : ∀ (t : Table), IsGoTable t → ∀ n r, t.get n = some r → (r.map (·.1)).Nodup := by
    intro t ht n r h
    exact ht.2 _ ((gm_get_iff_mem t ht.1 n r).1 h)
  have step : (∀ n, (t.get n).map canonRow = (t'.get n).map canonRow) ↔ SameTable t t' := by
    refine forall_congr' fun n => ?_
    cases h : t.get n with
    | none =>
      cases h' : t'.get n with
      | none => simp
      | some r' => simp
    | some r =>
      cases h' : t'.get n with
      | none => simp
      | some r' =>
        simp only [Option.map_some, Option.some.injEq, Option.isSome_some, true_and, Option.bind_some]
        exact canonRow_eq_iff r r' (hrow t ht n r h) (hrow t' ht' n r' h')
  rw [← step]
  constructor
  · intro h n
    rw [← hget, ← hget]
    have h2 : (canonTable t).Perm (t'.map fun e => (e.1, canonRow e.2)) := by rw [h]; exact sortBy_perm _ _
    exact gm_get_of_perm _ _ (nd t ht) ((sortBy_perm _ _).symm.trans h2) n
  · intro h
    refine sortBy_eq _ _ _ ?_ (gm_perm _ _ (nd t ht) (nd t' ht') fun n => by rw [hget, hget, h n])
    intro a ha b hb e
    exact gm_key_inj _ (nd t ht) a b ha hb e

theorem goTable_code (t t' : Table) (ha : AsciiTable t) (ha' : AsciiTable t') (x y : Str)
    (h : goTable t ++ x = goTable t' ++ y) : canonTable t = canonTable t' ∧ x = y := by
  rw [goTable_canon, goTable_canon, List.append_assoc, List.append_assoc] at h
  have h := List.append_cancel_left h
  have numHead : ∀ (n : Int) (r z : Str), fmtInt n ++ r ≠ 125 :: z := by
    intro e r z h
    cases hf : fmtInt e with
    | nil => exact fmtInt_ne_nil e hf
    | cons c cs =>
      rw [hf] at h
      have hc := fmtInt_num e c (by rw [hf]; exact List.mem_cons_self)
      rw [(List.cons.inj h).1] at hc
      exact not_num' (.inr rfl) hc
  have byteHead : ∀ (n : UInt8) (r z : Str), goByte n ++ r ≠ 125 :: z := by
    intro e r z h
    cases hf : goByte e with
    | nil => exact goByte_ne_nil e hf
    | cons c cs =>
      rw [hf] at h
      exact (goByte_bytes e c (by rw [hf]; exact List.mem_cons_self)).2 (List.cons.inj h).1
  have ascii : ∀ t : Table, AsciiTable t → ∀ e ∈ canonTable t, ∀ cell ∈ e.2, ∀ o ∈ cell.2, AsciiOp o := by
    intro t ht e he cell hcell o ho s hs
    obtain ⟨e₀, he₀, rfl⟩ := List.mem_map.1 ((sortBy_perm _ _).mem_iff.1 he)
    exact ht e₀ he₀ cell ((sortBy_perm _ _).mem_iff.1 hcell) s (hs ▸ ho)
  refine goList_code _ (fun e => ∀ cell ∈ e.2, ∀ o ∈ cell.2, AsciiOp o) ?_ ?_ _ _ (ascii t ha) (ascii t' ha') x y h
  · intro a b pa pb x y h
    rw [List.append_assoc, List.append_assoc] at h
    have h : fmtInt a.1 ++ 58 :: (_ ++ x) = fmtInt b.1 ++ 58 :: (_ ++ y) := h
    obtain ⟨e1, -, h⟩ := split_at _ _ (fmtInt_num _) (fmtInt_num _) (not_num (.inr rfl)) (not_num (.inr rfl)) h
    rw [List.append_assoc, List.append_assoc] at h
    obtain ⟨e2, h⟩ := goList_code _ (fun cell => ∀ o ∈ cell.2, AsciiOp o) (by
      intro a b pa pb x y h
      rw [List.append_assoc, List.append_assoc] at h
      have h : goByte a.1 ++ 58 :: (_ ++ x) = goByte b.1 ++ 58 :: (_ ++ y) := h
      obtain ⟨e1, -, h⟩ := split_at (P := fun d => d ≠ 58 ∧ d ≠ 125) _ _ (goByte_bytes _) (goByte_bytes _) (by decide)
        (by decide) h
      obtain ⟨e2, h⟩ := goOps_code _ _ pa pb _ _ h
      exact ⟨Prod.ext (goByte_inj e1) e2, h⟩) (by
      intro a _ x y
      rw [List.append_assoc]
      exact byteHead _ _ _) _ _ pa pb _ _ (List.append_cancel_left h)
    exact ⟨Prod.ext (fmtInt_inj e1) e2, h⟩
  · intro a _ x y
    rw [List.append_assoc]
    exact numHead _ _ _

/-! ## Generated tables -/

/-- What is kept true of a row under construction. -/
def RowInv (A : Prop) (r : Row) : Prop :=
  (r.map (·.1)).Nodup ∧ (A → ∀ cell ∈ r, ∀ s, ParserOp.terminal s ∈ cell.2 → ∀ c ∈ s, c.toNat < 128)

theorem gm_set_nodup {K V : Type} [DecidableEq K] (m : GoMap K V) (hm : (m.map (·.1)).Nodup) (k : K) (v : V) :
    ((m.set k v).map (·.1)).Nodup := by
  unfold GoMap.set
  rw [List.map_cons, List.nodup_cons]
  constructor
  · intro h
    obtain ⟨e, he, h⟩ := List.mem_map.1 h
    exact of_decide_eq_true (List.mem_filter.1 he).2 h
  · exact hm.sublist (List.filter_sublist.map _)

theorem RowInv.set {A : Prop} {r : Row} (h : RowInv A r) (b : UInt8) (l : List ParserOp)
    (hl : A → ∀ s, ParserOp.terminal s ∈ l → ∀ c ∈ s, c.toNat < 128) : RowInv A (GoMap.set r b l) := by
  refine ⟨gm_set_nodup r h.1 b l, fun a cell hc => ?_⟩
  unfold GoMap.set at hc
  rcases List.mem_cons.1 hc with rfl | hc
  · exact hl a
  · exact h.2 a cell (List.mem_filter.1 hc).1

theorem RowInv.append {A : Prop} {r : Row} (h : RowInv A r) (b : UInt8) (op : ParserOp)
    (hl : A → ∀ s, op = .terminal s → ∀ c ∈ s, c.toNat < 128) : RowInv A (TG.appendOp r b op) := by
  refine h.set b _ fun a s hs => ?_
  rcases List.mem_append.1 hs with hs | hs
  · cases hg : GoMap.get r b with
    | none => rw [hg] at hs; simp at hs
    | some l =>
      rw [hg] at hs
      exact h.2 a (b, l) ((gm_get_iff_mem r h.1 b l).1 hg) s hs
  · exact hl a s (List.mem_singleton.1 hs).symm

theorem addEmptyCells_inv {A : Prop} (bs : List UInt8) (r r' : Row) (h : RowInv A r)
    (e : TG.addEmptyCells bs r = .ok r') : RowInv A r' := by
  induction bs generalizing r with
  | nil => simp only [TG.addEmptyCells, Res.ok.injEq] at e; exact e ▸ h
  | cons b bs ih =>
    unfold TG.addEmptyCells at e
    split at e
    · cases e
    · exact ih _ (h.set b [] (by simp)) e

theorem addSymbols_inv {A : Prop} (tg : TG.Gen) (b : UInt8) (l : List Symbol) (r r' : Row) (h : RowInv A r)
    (hl : A → ∀ s, Symbol.terminal s ∈ l → ∀ c ∈ s, c.toNat < 128) (e : TG.addSymbols tg b l r = .ok r') : RowInv A r' := by
  induction l generalizing r with
  | nil => simp only [TG.addSymbols, Res.ok.injEq] at e; exact e ▸ h
  | cons x l ih =>
    have hl' : A → ∀ s, Symbol.terminal s ∈ l → ∀ c ∈ s, c.toNat < 128 :=
      fun a s hs => hl a s (List.mem_cons_of_mem _ hs)
    cases x with
    | terminal s =>
      refine ih _ (h.append b _ fun a s' hs' => ?_) hl' e
      cases hs'
      exact hl a s List.mem_cons_self
    | nonTerminal n =>
      simp only [TG.addSymbols] at e
      split at e
      · cases e
      · exact ih _ (h.append b _ fun a s' hs' => by cases hs') hl' e
    | nothing => simp [TG.addSymbols] at e

theorem addFirstCells_inv {A : Prop} (tg : TG.Gen) (q : Sequence) (bs : List UInt8) (r r' : Row) (h : RowInv A r)
    (hl : A → ∀ s, Symbol.terminal s ∈ q.symbols → ∀ c ∈ s, c.toNat < 128) (e : TG.addFirstCells tg q bs r = .ok r') :
    RowInv A r' := by
  induction bs generalizing r with
  | nil => simp only [TG.addFirstCells, Res.ok.injEq] at e; exact e ▸ h
  | cons b bs ih =>
    simp only [TG.addFirstCells, Res.bind_eq_ok] at e
    obtain ⟨r₁, e1, e2⟩ := e
    exact ih _ (addSymbols_inv tg b _ _ _ h hl e1) e2

theorem addSequences_inv {A : Prop} (tg : TG.Gen) (firsts follows : List ByteSet) (i : Nat) (qs : List Sequence) (r r' : Row)
    (h : RowInv A r) (hl : A → ∀ q ∈ qs, ∀ s, Symbol.terminal s ∈ q.symbols → ∀ c ∈ s, c.toNat < 128)
    (e : TG.addSequences tg firsts follows i qs r = .ok r') : RowInv A r' := by
  induction qs generalizing r with
  | nil => simp only [TG.addSequences, Res.ok.injEq] at e; exact e ▸ h
  | cons q qs ih =>
    have hq : A → ∀ s, Symbol.terminal s ∈ q.symbols → ∀ c ∈ s, c.toNat < 128 := fun a => hl a q List.mem_cons_self
    simp only [TG.addSequences, Res.bind_eq_ok] at e
    obtain ⟨r₁, e1, e2⟩ := e
    refine ih r₁ ?_ (fun a q hq => hl a q (List.mem_cons_of_mem _ hq)) e2
    simp only [TG.addSequence, Res.bind_eq_ok] at e1
    obtain ⟨sf, -, e1⟩ := e1
    split at e1
    · simp only [Res.bind_eq_ok] at e1
      obtain ⟨_, -, _, -, r₂, e3, _, -, e4⟩ := e1
      exact addFirstCells_inv tg q _ _ _ (addEmptyCells_inv _ _ _ h e3) hq e4
    · simp only [Res.bind_eq_ok] at e1
      obtain ⟨_, -, e4⟩ := e1
      exact addFirstCells_inv tg q _ _ _ h hq e4

theorem fromGrammar_inv {A : Prop} (order : List (Str × Nat) → List (Str × Nat)) (g : Grammar) (t : Table) (names : Names)
    (hl : A → ∀ rule ∈ g.rules, ∀ q ∈ rule.tail.sequences, ∀ s, Symbol.terminal s ∈ q.symbols → ∀ c ∈ s, c.toNat < 128)
    (h : fromGrammar order g = .ok (t, names)) : IsGoTable t ∧ (A → AsciiTable t) := by
  have key : ∀ (tg : TG.Gen), tg.g = g → ∀ firsts follows (is : List Nat) (t₀ t : Table),
      ((t₀.map (·.1)).Nodup ∧ ∀ e ∈ t₀, RowInv A e.2) →
      TG.forEach (fun ruleIndex (table : Table) => do
        let row ← TG.makeTableRow tg firsts follows ruleIndex
        return table.set (ruleIndex : Int) row) is t₀ = .ok t →
      (t.map (·.1)).Nodup ∧ ∀ e ∈ t, RowInv A e.2 := by
    intro tg htg firsts follows is
    induction is with
    | nil => intro t₀ t h0 e; simp only [TG.forEach, Res.ok.injEq] at e; exact e ▸ h0
    | cons i is ih =>
      intro t₀ t h0 e
      simp only [TG.forEach, Res.bind_eq_ok] at e
      obtain ⟨t₁, ⟨row, e1, e2⟩, e3⟩ := e
      refine ih t₁ t ?_ (by simpa only [Res.bind_eq_ok] using e3)
      have hrow : RowInv A row := by
        simp only [TG.makeTableRow, Res.bind_eq_ok] at e1
        obtain ⟨rule, e4, e5⟩ := e1
        refine addSequences_inv tg firsts follows i _ _ _ ⟨by simp, by simp⟩ (fun a => hl a rule ?_) e5
        unfold TG.idx at e4
        split at e4
        · next h' =>
          simp only [Res.ok.injEq] at e4
          rw [← e4, ← htg]
          first | exact List.getElem_mem _ | exact List.mem_of_getElem? h'
        · cases e4
      have e2 : t₁ = t₀.set (i : Int) row := by
        have : (Res.ok (t₀.set (i : Int) row) : TG.R Table) = .ok t₁ := e2
        exact (Res.ok.inj this).symm
      subst e2
      refine ⟨gm_set_nodup t₀ h0.1 _ _, fun e he => ?_⟩
      unfold GoMap.set at he
      rcases List.mem_cons.1 he with rfl | he
      · exact hrow
      · exact h0.2 e (List.mem_filter.1 he).1
  simp only [fromGrammar, Res.bind_eq_ok] at h
  obtain ⟨t', h1, h2⟩ := h
  have h2 : t' = t := by
    have : (Res.ok (t', _) : TG.R (Table × Names)) = .ok (t, names) := h2
    exact congrArg Prod.fst (Res.ok.inj this)
  subst h2
  simp only [TG.run, Res.bind_eq_ok] at h1
  obtain ⟨firsts, -, follows, -, h3⟩ := h1
  have := key (TG.newGen g) rfl firsts follows _ [] t' ⟨by simp, by simp⟩ h3
  exact ⟨⟨this.1, fun e he => (this.2 e he).1⟩, fun a e he => (this.2 e he).2 a⟩

end TestTools
end LL1
