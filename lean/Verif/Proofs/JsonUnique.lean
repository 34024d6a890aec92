import Verif.Spec.Json
import Verif.Proofs.ByteSet

/-!
# A JSON text denotes one value
-/

namespace LL1
namespace JsonUnique

/-- `r` does not begin with a byte satisfying `p`. -/
def Stops (p : UInt8 → Prop) (r : Str) : Prop := ∀ c t, r = c :: t → ¬ p c

theorem span_unique {p : UInt8 → Prop} {a b r s : Str} (ha : ∀ c ∈ a, p c) (hb : ∀ c ∈ b, p c)
    (hr : Stops p r) (hs : Stops p s) (h : a ++ r = b ++ s) : a = b ∧ r = s := by
  induction a generalizing b with
  | nil =>
    cases b with
    | nil => exact ⟨rfl, h⟩
    | cons c b => exact (hr c _ h (hb c (by simp))).elim
  | cons d a ih =>
    cases b with
    | nil => exact (hs d _ h.symm (ha d (by simp))).elim
    | cons c b =>
      simp only [List.cons_append, List.cons.injEq] at h
      obtain ⟨rfl, h⟩ := h
      obtain ⟨rfl, h2⟩ := ih (fun e he => ha e (by simp [he])) (fun e he => hb e (by simp [he])) h
      exact ⟨rfl, h2⟩

def WsByte (c : UInt8) : Prop := c = 32 ∨ c = 10 ∨ c = 13

theorem ws_bytes {a : Str} (h : Ws a) : ∀ c ∈ a, WsByte c := by
  induction h with
  | nil => simp
  | blank _ ih => intro c hc; rcases List.mem_cons.1 hc with rfl | hc; exact .inl rfl; exact ih c hc
  | lf _ ih => intro c hc; rcases List.mem_cons.1 hc with rfl | hc; exact .inr (.inl rfl); exact ih c hc
  | crlf _ ih =>
    intro c hc
    simp only [List.mem_cons] at hc
    rcases hc with rfl | rfl | hc
    · exact .inr (.inr rfl)
    · exact .inr (.inl rfl)
    · exact ih c hc

theorem ws_unique {a b r s : Str} (ha : Ws a) (hb : Ws b) (hr : Stops WsByte r) (hs : Stops WsByte s)
    (h : a ++ r = b ++ s) : a = b ∧ r = s := span_unique (ws_bytes ha) (ws_bytes hb) hr hs h

theorem stops_cons {p : UInt8 → Prop} {c : UInt8} {t : Str} (h : ¬ p c) : Stops p (c :: t) := by
  intro d u he
  cases he
  exact h

/-- Bytes of numbers. -/
def NumByte (c : UInt8) : Prop := IsDigit c ∨ c = 45 ∨ c = 43 ∨ c = 46 ∨ c = 69 ∨ c = 101

theorem num_bytes {w : Str} (h : NumberText w) : ∀ c ∈ w, NumByte c := by
  obtain ⟨s, i, f, e, rfl, hs, hi, hf, he⟩ := h
  intro c hc
  simp only [List.mem_append] at hc
  rcases hc with hc | hc | hc | hc
  · rcases hs with rfl | rfl
    · cases hc
    · exact .inr (.inl (by simpa using hc))
  · rcases hi with rfl | ⟨d, ds, rfl, h1, _, h2⟩
    · simp only [List.mem_singleton] at hc; subst hc; exact .inl (by decide)
    · rcases List.mem_cons.1 hc with rfl | hc
      · exact .inl h1
      · exact .inl (h2 c hc)
  · rcases hf with rfl | ⟨ds, rfl, h2, _⟩
    · cases hc
    · rcases List.mem_cons.1 hc with rfl | hc
      · exact .inr (.inr (.inr (.inl rfl)))
      · exact .inl (h2 c hc)
  · rcases he with rfl | ⟨x, sg, ds, rfl, h1, h2, h3, _⟩
    · cases hc
    · simp only [List.mem_cons, List.mem_append] at hc
      rcases hc with rfl | hc | hc
      · exact .inr (.inr (.inr (.inr h1)))
      · rcases h2 with rfl | rfl | rfl
        · cases hc
        · exact .inr (.inr (.inl (by simpa using hc)))
        · exact .inr (.inl (by simpa using hc))
      · exact .inl (h3 c hc)

theorem num_head {w : Str} (h : NumberText w) : ∃ c t, w = c :: t ∧ (IsDigit c ∨ c = 45) := by
  obtain ⟨s, i, f, e, rfl, hs, hi, hf, he⟩ := h
  rcases hs with rfl | rfl
  · rcases hi with rfl | ⟨d, ds, rfl, h1, _, h2⟩
    · exact ⟨48, _, rfl, .inl (by decide)⟩
    · exact ⟨d, _, rfl, .inl h1⟩
  · exact ⟨45, _, rfl, .inr rfl⟩

theorem string_unique {s s' r r' : Str} (hs : StringBody s) (hs' : StringBody s')
    (h : s ++ 34 :: r = s' ++ 34 :: r') : s = s' ∧ r = r' := by
  induction hs generalizing s' with
  | nil =>
    cases hs' with
    | nil => simpa using h
    | plain h1 h2 h3 _ _ => simp only [List.nil_append, List.cons_append, List.cons.injEq] at h; exact (h3 h.1.symm).elim
    | escape _ _ => simp at h
    | unicode _ _ _ _ => simp at h
  | @plain c w h1 h2 h3 h4 _ ih =>
    cases hs' with
    | nil => simp only [List.nil_append, List.cons_append, List.cons.injEq] at h; exact (h3 h.1).elim
    | plain _ _ _ _ hw =>
      simp only [List.cons_append, List.cons.injEq] at h
      obtain ⟨rfl, h⟩ := h
      obtain ⟨rfl, rfl⟩ := ih hw h
      exact ⟨rfl, rfl⟩
    | escape _ _ => simp only [List.cons_append, List.cons.injEq] at h; exact (h4 h.1).elim
    | unicode _ _ _ _ => simp only [List.cons_append, List.cons.injEq] at h; exact (h4 h.1).elim
  | @escape c w hc _ ih =>
    cases hs' with
    | nil => simp at h
    | plain _ _ _ h4 hw => simp only [List.cons_append, List.cons.injEq] at h; exact (h4 h.1.symm).elim
    | escape _ hw =>
      simp only [List.cons_append, List.cons.injEq] at h
      obtain ⟨_, rfl, h⟩ := h
      obtain ⟨rfl, rfl⟩ := ih hw h
      exact ⟨rfl, rfl⟩
    | unicode _ _ _ _ =>
      simp only [List.cons_append, List.cons.injEq] at h
      obtain ⟨_, rfl, _⟩ := h
      simp at hc
  | @unicode a b c w _ _ _ _ ih =>
    cases hs' with
    | nil => simp at h
    | plain _ _ _ h4 hw => simp only [List.cons_append, List.cons.injEq] at h; exact (h4 h.1.symm).elim
    | escape hc hw =>
      simp only [List.cons_append, List.cons.injEq] at h
      obtain ⟨_, rfl, _⟩ := h
      simp at hc
    | unicode _ _ _ hw =>
      simp only [List.cons_append, List.cons.injEq] at h
      obtain ⟨_, _, rfl, rfl, rfl, h⟩ := h
      obtain ⟨rfl, rfl⟩ := ih hw h
      exact ⟨rfl, rfl⟩

/-- The byte a value can begin with. -/
def Begins : Json → UInt8 → Prop
  | .object _, c => c = 123
  | .array _, c => c = 91
  | .string _, c => c = 34
  | .number _, c => IsDigit c ∨ c = 45
  | .word s, c => (s = b!"true" ∧ c = 116) ∨ (s = b!"false" ∧ c = 102) ∨ (s = b!"null" ∧ c = 110)

theorem begins {v : Json} {w : Str} (h : JsonText (.value v) w) : ∃ c t, w = c :: t ∧ Begins v c := by
  cases h with
  | string _ => exact ⟨_, _, rfl, rfl⟩
  | number h => exact num_head h
  | word h =>
    rcases h with rfl | rfl | rfl
    · exact ⟨_, _, rfl, .inl ⟨rfl, rfl⟩⟩
    · exact ⟨_, _, rfl, .inr (.inl ⟨rfl, rfl⟩)⟩
    · exact ⟨_, _, rfl, .inr (.inr ⟨rfl, rfl⟩)⟩
  | emptyArray => exact ⟨_, _, rfl, rfl⟩
  | array _ => exact ⟨_, _, rfl, rfl⟩
  | emptyObject _ => exact ⟨_, _, rfl, rfl⟩
  | object _ _ => exact ⟨_, _, rfl, rfl⟩

/-- No value begins with white space, a comma or a closing bracket. -/
theorem begins_not {v : Json} {c : UInt8} (h : Begins v c) : ¬ WsByte c ∧ c ≠ 44 ∧ c ≠ 93 ∧ c ≠ 125 := by
  have key : ∀ c : UInt8, (c = 123 ∨ c = 91 ∨ c = 34 ∨ IsDigit c ∨ c = 45 ∨ c = 116 ∨ c = 102 ∨ c = 110) →
      ¬ (c = 32 ∨ c = 10 ∨ c = 13) ∧ c ≠ 44 ∧ c ≠ 93 ∧ c ≠ 125 :=
    forall_byte (p := fun c => (c = 123 ∨ c = 91 ∨ c = 34 ∨ IsDigit c ∨ c = 45 ∨ c = 116 ∨ c = 102 ∨ c = 110) →
      ¬ (c = 32 ∨ c = 10 ∨ c = 13) ∧ c ≠ 44 ∧ c ≠ 93 ∧ c ≠ 125) (by decide +kernel)
  apply key c
  cases v with
  | object _ => exact .inl h
  | array _ => exact .inr (.inl h)
  | string _ => exact .inr (.inr (.inl h))
  | number _ => rcases h with h | h; exact .inr (.inr (.inr (.inl h))); exact .inr (.inr (.inr (.inr (.inl h))))
  | word _ =>
    rcases h with h | h | h
    · exact .inr (.inr (.inr (.inr (.inr (.inl h.2)))))
    · exact .inr (.inr (.inr (.inr (.inr (.inr (.inl h.2))))))
    · exact .inr (.inr (.inr (.inr (.inr (.inr (.inr h.2))))))

theorem stops_value {v : Json} {w r : Str} (h : JsonText (.value v) w) : Stops WsByte (w ++ r) := by
  obtain ⟨c, t, rfl, hc⟩ := begins h
  exact stops_cons (begins_not hc).1

/-- Two values that begin with the same byte are of the same kind. -/
def SameKind : Json → Json → Prop
  | .object _, .object _ => True
  | .array _, .array _ => True
  | .string _, .string _ => True
  | .number _, .number _ => True
  | .word s, .word s' => s = s'
  | _, _ => False

instance (s : Str) (c : UInt8) : Decidable (Begins (.word s) c) :=
  inferInstanceAs (Decidable ((s = b!"true" ∧ c = 116) ∨ (s = b!"false" ∧ c = 102) ∨ (s = b!"null" ∧ c = 110)))

theorem sameKind {v v' : Json} {c : UInt8} (h : Begins v c) (h' : Begins v' c) : SameKind v v' := by
  have num : ∀ {c : UInt8}, (IsDigit c ∨ c = 45) → c ≠ 123 ∧ c ≠ 91 ∧ c ≠ 34 ∧ c ≠ 116 ∧ c ≠ 102 ∧ c ≠ 110 :=
    fun {c} hc => forall_byte (p := fun c => (IsDigit c ∨ c = 45) →
      c ≠ 123 ∧ c ≠ 91 ∧ c ≠ 34 ∧ c ≠ 116 ∧ c ≠ 102 ∧ c ≠ 110) (by decide +kernel) c hc
  cases v <;> cases v' <;> simp only [Begins, SameKind] at h h' ⊢
  all_goals first
    | trivial
    | (subst h; simp at h'; done)
    | (subst h'; simp at h; done)
    | (have := num h; simp_all; done)
    | (have := num h'; simp_all; done)
    | (subst h; revert h'; decide)
    | (subst h'; revert h; decide)
    | skip
  · rcases h with ⟨rfl, rfl⟩ | ⟨rfl, rfl⟩ | ⟨rfl, rfl⟩ <;> simp_all

/-- What may come after a value: nothing that continues a number. -/
abbrev After (r : Str) : Prop := Stops NumByte r

theorem after_ws {a r : Str} (h : Ws a) (hr : After r) : After (a ++ r) := by
  cases a with
  | nil => exact hr
  | cons c a =>
    have := ws_bytes h c (by simp)
    refine stops_cons ?_
    rcases this with rfl | rfl | rfl <;> (simp only [NumByte]; decide)

theorem after_44 (r : Str) : After (44 :: r) := stops_cons (by simp only [NumByte]; decide)
theorem after_93 (r : Str) : After (93 :: r) := stops_cons (by simp only [NumByte]; decide)
theorem after_125 (r : Str) : After (125 :: r) := stops_cons (by simp only [NumByte]; decide)

theorem ws_44 (r : Str) : Stops WsByte (44 :: r) := stops_cons (by simp only [WsByte]; decide)
theorem ws_93 (r : Str) : Stops WsByte (93 :: r) := stops_cons (by simp only [WsByte]; decide)
theorem ws_125 (r : Str) : Stops WsByte (125 :: r) := stops_cons (by simp only [WsByte]; decide)
theorem ws_34 (r : Str) : Stops WsByte (34 :: r) := stops_cons (by simp only [WsByte]; decide)
theorem ws_58 (r : Str) : Stops WsByte (58 :: r) := stops_cons (by simp only [WsByte]; decide)

/-- Reading a part from the front of a text is unambiguous. -/
def Unique : JsonPart → Str → Prop
  | .value v, w => ∀ v' w' r r', JsonText (.value v') w' → After r → After r' → w ++ r = w' ++ r' →
      v = v' ∧ w = w' ∧ r = r'
  | .elements vs, w => ∀ vs' w' r r', JsonText (.elements vs') w' → w ++ 93 :: r = w' ++ 93 :: r' →
      vs = vs' ∧ w = w' ∧ r = r'
  | .members ms, w => ∀ ms' w' r r', JsonText (.members ms') w' → w ++ 125 :: r = w' ++ 125 :: r' →
      ms = ms' ∧ w = w' ∧ r = r'

theorem elements_head {vs : List Json} {w : Str} (h : JsonText (.elements vs) w) :
    ∃ a c t, w = a ++ c :: t ∧ Ws a ∧ ¬ WsByte c ∧ c ≠ 93 := by
  cases h with
  | element ha hx _ =>
    obtain ⟨c, t, rfl, hc⟩ := begins hx
    exact ⟨_, c, _, rfl, ha, (begins_not hc).1, (begins_not hc).2.2.1⟩
  | elements ha hx _ _ =>
    obtain ⟨c, t, rfl, hc⟩ := begins hx
    exact ⟨_, c, _, rfl, ha, (begins_not hc).1, (begins_not hc).2.2.1⟩

theorem members_head {ms : List (Str × Json)} {w : Str} (h : JsonText (.members ms) w) :
    ∃ t, w = 34 :: t := by
  cases h with
  | member => exact ⟨_, rfl⟩
  | members => exact ⟨_, rfl⟩

theorem elements_not_close {vs : List Json} {w r r' : Str} (h : JsonText (.elements vs) w)
    (he : w ++ 93 :: r = 93 :: r') : False := by
  obtain ⟨a, c, t, rfl, ha, hc, hc'⟩ := elements_head h
  have := ws_unique (a := a) (b := []) (r := c :: t ++ 93 :: r) (s := 93 :: r') ha .nil (stops_cons hc) (ws_93 _)
    (by simpa using he)
  simp only [List.cons_append, List.cons.injEq] at this
  exact hc' this.2.1

theorem unique {p : JsonPart} {w : Str} (h : JsonText p w) : Unique p w := by
  have kind : ∀ {v v' : Json} {w w' r r' : Str}, JsonText (.value v) w → JsonText (.value v') w' →
      w ++ r = w' ++ r' → SameKind v v' := by
    intro v v' w w' r r' h h' he
    obtain ⟨c, t, rfl, hc⟩ := begins h
    obtain ⟨c', t', rfl, hc'⟩ := begins h'
    simp only [List.cons_append, List.cons.injEq] at he
    obtain ⟨rfl, _⟩ := he
    exact sameKind hc hc'
  induction h with
  | @string s hs =>
    intro v' w' r r' h' hr hr' he
    have hk := kind (.string hs) h' he
    cases h' with
    | string hs' =>
      have := string_unique (r := r) (r' := r') hs hs' (by simpa using he)
      obtain ⟨rfl, rfl⟩ := this
      exact ⟨rfl, rfl, rfl⟩
    | _ => exact hk.elim
  | @number s hs =>
    intro v' w' r r' h' hr hr' he
    have hk := kind (.number hs) h' he
    cases h' with
    | number hs' =>
      obtain ⟨rfl, rfl⟩ := span_unique (num_bytes hs) (num_bytes hs') hr hr' he
      exact ⟨rfl, rfl, rfl⟩
    | _ => exact hk.elim
  | @word s hs =>
    intro v' w' r r' h' hr hr' he
    have hk := kind (.word hs) h' he
    cases h' with
    | word hs' =>
      have hk : _ = _ := hk
      subst hk
      exact ⟨rfl, rfl, by simpa using he⟩
    | _ => exact hk.elim
  | emptyArray =>
    intro v' w' r r' h' hr hr' he
    have hk := kind .emptyArray h' he
    cases h' with
    | emptyArray => exact ⟨rfl, rfl, by simpa using he⟩
    | array hx => exact (elements_not_close (r := r') (r' := r) hx (by simpa using he.symm)).elim
    | _ => exact hk.elim
  | @array vs x hx ih =>
    intro v' w' r r' h' hr hr' he
    have hk := kind (.array hx) h' he
    cases h' with
    | emptyArray => exact (elements_not_close (r := r) (r' := r') hx (by simpa using he)).elim
    | array hx' =>
      obtain ⟨rfl, rfl, rfl⟩ := ih _ _ r r' hx' (by simpa using he)
      exact ⟨rfl, rfl, rfl⟩
    | _ => exact hk.elim
  | @emptyObject a ha =>
    intro v' w' r r' h' hr hr' he
    have hk := kind (.emptyObject ha) h' he
    cases h' with
    | @emptyObject a' ha' =>
      obtain ⟨rfl, h3⟩ := ws_unique (r := 125 :: r) (s := 125 :: r') ha ha' (ws_125 _) (ws_125 _)
        (by simpa using he)
      exact ⟨rfl, rfl, by simpa using h3⟩
    | @object ms' a' x' ha' hx' =>
      obtain ⟨t, rfl⟩ := members_head hx'
      obtain ⟨rfl, h3⟩ := ws_unique (r := 125 :: r) (s := 34 :: t ++ 125 :: r') ha ha' (ws_125 _) (ws_34 _)
        (by simpa using he)
      simp at h3
    | _ => exact hk.elim
  | @object ms a x ha hx ih =>
    intro v' w' r r' h' hr hr' he
    have hk := kind (.object ha hx) h' he
    cases h' with
    | @emptyObject a' ha' =>
      obtain ⟨t, rfl⟩ := members_head hx
      obtain ⟨rfl, h3⟩ := ws_unique (r := 34 :: t ++ 125 :: r) (s := 125 :: r') ha ha' (ws_34 _) (ws_125 _)
        (by simpa using he)
      simp at h3
    | @object ms' a' x' ha' hx' =>
      have h2 : a ++ (x ++ 125 :: r) = a' ++ (x' ++ 125 :: r') := by simpa using he
      obtain ⟨rfl, h3⟩ := ws_unique ha ha'
        (by obtain ⟨t, rfl⟩ := members_head hx; exact ws_34 _)
        (by obtain ⟨t, rfl⟩ := members_head hx'; exact ws_34 _) h2
      obtain ⟨rfl, rfl, rfl⟩ := ih _ _ r r' hx' h3
      exact ⟨rfl, rfl, rfl⟩
    | _ => exact hk.elim
  | @element v a x b ha hx hb ih =>
    intro vs' w' r r' h' he
    cases h' with
    | @element v' a' x' b' ha' hx' hb' =>
      have h2 : a ++ (x ++ (b ++ 93 :: r)) = a' ++ (x' ++ (b' ++ 93 :: r')) := by simpa using he
      obtain ⟨rfl, h3⟩ := ws_unique ha ha' (stops_value hx) (stops_value hx') h2
      obtain ⟨rfl, rfl, h4⟩ := ih _ _ _ _ hx' (after_ws hb (after_93 _)) (after_ws hb' (after_93 _)) h3
      obtain ⟨rfl, h5⟩ := ws_unique hb hb' (ws_93 _) (ws_93 _) h4
      exact ⟨rfl, rfl, by simpa using h5⟩
    | @elements v' vs' a' x' b' y' ha' hx' hb' hy' =>
      have h2 : a ++ (x ++ (b ++ 93 :: r)) = a' ++ (x' ++ (b' ++ 44 :: (y' ++ 93 :: r'))) := by simpa using he
      obtain ⟨rfl, h3⟩ := ws_unique ha ha' (stops_value hx) (stops_value hx') h2
      obtain ⟨rfl, rfl, h4⟩ := ih _ _ _ _ hx' (after_ws hb (after_93 _)) (after_ws hb' (after_44 _)) h3
      obtain ⟨rfl, h5⟩ := ws_unique hb hb' (ws_93 _) (ws_44 _) h4
      simp at h5
  | @elements v vs a x b y ha hx hb hy ih1 ih2 =>
    intro vs' w' r r' h' he
    cases h' with
    | @element v' a' x' b' ha' hx' hb' =>
      have h2 : a ++ (x ++ (b ++ 44 :: (y ++ 93 :: r))) = a' ++ (x' ++ (b' ++ 93 :: r')) := by simpa using he
      obtain ⟨rfl, h3⟩ := ws_unique ha ha' (stops_value hx) (stops_value hx') h2
      obtain ⟨rfl, rfl, h4⟩ := ih1 _ _ _ _ hx' (after_ws hb (after_44 _)) (after_ws hb' (after_93 _)) h3
      obtain ⟨rfl, h5⟩ := ws_unique hb hb' (ws_44 _) (ws_93 _) h4
      simp at h5
    | @elements v' vs' a' x' b' y' ha' hx' hb' hy' =>
      have h2 : a ++ (x ++ (b ++ 44 :: (y ++ 93 :: r))) = a' ++ (x' ++ (b' ++ 44 :: (y' ++ 93 :: r'))) := by
        simpa using he
      obtain ⟨rfl, h3⟩ := ws_unique ha ha' (stops_value hx) (stops_value hx') h2
      obtain ⟨rfl, rfl, h4⟩ := ih1 _ _ _ _ hx' (after_ws hb (after_44 _)) (after_ws hb' (after_44 _)) h3
      obtain ⟨rfl, h5⟩ := ws_unique hb hb' (ws_44 _) (ws_44 _) h4
      obtain ⟨rfl, rfl, rfl⟩ := ih2 _ _ r r' hy' (by simpa using h5)
      exact ⟨rfl, rfl, rfl⟩
  | @member k v a b x c hk ha hb hx hc ih =>
    intro ms' w' r r' h' he
    cases h' with
    | @member k' v' a' b' x' c' hk' ha' hb' hx' hc' =>
      have h2 : k ++ 34 :: (a ++ 58 :: (b ++ (x ++ (c ++ 125 :: r)))) =
        k' ++ 34 :: (a' ++ 58 :: (b' ++ (x' ++ (c' ++ 125 :: r')))) := by simpa using he
      obtain ⟨rfl, h3⟩ := string_unique hk hk' h2
      obtain ⟨rfl, h4⟩ := ws_unique ha ha' (ws_58 _) (ws_58 _) h3
      simp only [List.cons.injEq, true_and] at h4
      obtain ⟨rfl, h5⟩ := ws_unique hb hb' (stops_value hx) (stops_value hx') h4
      obtain ⟨rfl, rfl, h6⟩ := ih _ _ _ _ hx' (after_ws hc (after_125 _)) (after_ws hc' (after_125 _)) h5
      obtain ⟨rfl, h7⟩ := ws_unique hc hc' (ws_125 _) (ws_125 _) h6
      exact ⟨rfl, rfl, by simpa using h7⟩
    | @members k' v' ms' a' b' x' c' d' y' hk' ha' hb' hx' hc' hd' hy' =>
      have h2 : k ++ 34 :: (a ++ 58 :: (b ++ (x ++ (c ++ 125 :: r)))) =
        k' ++ 34 :: (a' ++ 58 :: (b' ++ (x' ++ (c' ++ 44 :: (d' ++ (y' ++ 125 :: r')))))) := by simpa using he
      obtain ⟨rfl, h3⟩ := string_unique hk hk' h2
      obtain ⟨rfl, h4⟩ := ws_unique ha ha' (ws_58 _) (ws_58 _) h3
      simp only [List.cons.injEq, true_and] at h4
      obtain ⟨rfl, h5⟩ := ws_unique hb hb' (stops_value hx) (stops_value hx') h4
      obtain ⟨rfl, rfl, h6⟩ := ih _ _ _ _ hx' (after_ws hc (after_125 _)) (after_ws hc' (after_44 _)) h5
      obtain ⟨rfl, h7⟩ := ws_unique hc hc' (ws_125 _) (ws_44 _) h6
      simp at h7
  | @members k v ms a b x c d y hk ha hb hx hc hd hy ih1 ih2 =>
    intro ms' w' r r' h' he
    cases h' with
    | @member k' v' a' b' x' c' hk' ha' hb' hx' hc' =>
      have h2 : k ++ 34 :: (a ++ 58 :: (b ++ (x ++ (c ++ 44 :: (d ++ (y ++ 125 :: r)))))) =
        k' ++ 34 :: (a' ++ 58 :: (b' ++ (x' ++ (c' ++ 125 :: r')))) := by simpa using he
      obtain ⟨rfl, h3⟩ := string_unique hk hk' h2
      obtain ⟨rfl, h4⟩ := ws_unique ha ha' (ws_58 _) (ws_58 _) h3
      simp only [List.cons.injEq, true_and] at h4
      obtain ⟨rfl, h5⟩ := ws_unique hb hb' (stops_value hx) (stops_value hx') h4
      obtain ⟨rfl, rfl, h6⟩ := ih1 _ _ _ _ hx' (after_ws hc (after_44 _)) (after_ws hc' (after_125 _)) h5
      obtain ⟨rfl, h7⟩ := ws_unique hc hc' (ws_44 _) (ws_125 _) h6
      simp at h7
    | @members k' v' ms' a' b' x' c' d' y' hk' ha' hb' hx' hc' hd' hy' =>
      have h2 : k ++ 34 :: (a ++ 58 :: (b ++ (x ++ (c ++ 44 :: (d ++ (y ++ 125 :: r)))))) =
        k' ++ 34 :: (a' ++ 58 :: (b' ++ (x' ++ (c' ++ 44 :: (d' ++ (y' ++ 125 :: r')))))) := by simpa using he
      obtain ⟨rfl, h3⟩ := string_unique hk hk' h2
      obtain ⟨rfl, h4⟩ := ws_unique ha ha' (ws_58 _) (ws_58 _) h3
      simp only [List.cons.injEq, true_and] at h4
      obtain ⟨rfl, h5⟩ := ws_unique hb hb' (stops_value hx) (stops_value hx') h4
      obtain ⟨rfl, rfl, h6⟩ := ih1 _ _ _ _ hx' (after_ws hc (after_44 _)) (after_ws hc' (after_44 _)) h5
      obtain ⟨rfl, h7⟩ := ws_unique hc hc' (ws_44 _) (ws_44 _) h6
      simp only [List.cons.injEq, true_and] at h7
      obtain ⟨rfl, h8⟩ := ws_unique hd hd'
        (by obtain ⟨t, rfl⟩ := members_head hy; exact ws_34 _)
        (by obtain ⟨t, rfl⟩ := members_head hy'; exact ws_34 _) h7
      obtain ⟨rfl, rfl, rfl⟩ := ih2 _ _ r r' hy' h8
      exact ⟨rfl, rfl, rfl⟩

/-- A text is a document for at most one value. -/
theorem document_unique {v v' : Json} {w : Str} (h : JsonDocument v w) (h' : JsonDocument v' w) : v = v' := by
  obtain ⟨a, x, b, rfl, ha, hx, hb⟩ := h
  obtain ⟨a', x', b', he, ha', hx', hb'⟩ := h'
  obtain ⟨rfl, he3⟩ := ws_unique ha ha' (stops_value hx) (stops_value hx') he
  have nil : After [] := fun c t h => by cases h
  have h1 := after_ws hb nil
  have h2 := after_ws hb' nil
  rw [List.append_nil] at h1 h2
  exact (unique hx _ _ _ _ hx' h1 h2 he3).1

end JsonUnique
end LL1
