import Verif.Spec.BindingsHistory
import Verif.Proofs.GrammarHistory
import Verif.Props.Slices

/-!
# Bindings in memory behave as values
-/

namespace LL1
namespace FC
open Mem

/-- The arrays that bindings own. -/
def HBindings.arrays (b : HBindings) : List Nat := own b.ignore ++ own b.terminals

/-- Bindings in memory with a value. -/
structure BindAt (m : BindMem) (b : HBindings) (v : Bindings) : Prop where
  ignore : m.ints.Fits 0 b.ignore
  terminals : m.ints.Fits 0 b.terminals
  apart : ∀ n ∈ own b.ignore, n ∉ own b.terminals
  escapes : b.escapes < m.nextMap
  value : b.value m = v

theorem BindAt.alloc {m : BindMem} {b : HBindings} {v : Bindings} (h : BindAt m b v) : ∀ n ∈ b.arrays, n < m.ints.next := by
  intro n hn
  rcases List.mem_append.1 hn with hn | hn
  · exact (fits_own h.ignore hn).2
  · exact (fits_own h.terminals hn).2

/-- All bindings of a program. -/
structure BindInv (m : BindMem) (bs : List HBindings) (vs : List Bindings) : Prop where
  length : bs.length = vs.length
  each : ∀ (k : Nat) (b : HBindings) (v : Bindings), bs[k]? = some b → vs[k]? = some v → BindAt m b v
  arrays : ∀ (k k' : Nat) (b b' : HBindings), k ≠ k' → bs[k]? = some b → bs[k']? = some b' → ∀ n ∈ b.arrays, n ∉ b'.arrays
  escapes : ∀ (k k' : Nat) (b b' : HBindings), k ≠ k' → bs[k]? = some b → bs[k']? = some b' → b.escapes ≠ b'.escapes

/-- Bindings that a write does not concern. -/
theorem BindAt.frame {m m' : BindMem} {b : HBindings} {v : Bindings} (h : BindAt m b v) (h1 : ∀ a, a < m.ints.next → a < m'.ints.next)
    (h2 : ∀ n ∈ b.arrays, m'.ints.arrays n = m.ints.arrays n) (h3 : m.nextMap ≤ m'.nextMap) (h4 : m'.maps b.escapes = m.maps b.escapes) :
    BindAt m' b v := by
  obtain ⟨k1, k2⟩ := fits_frame h.ignore h1 fun n hn => h2 n (List.mem_append_left _ hn)
  obtain ⟨k3, k4⟩ := fits_frame h.terminals h1 fun n hn => h2 n (List.mem_append_right _ hn)
  refine ⟨k1, k3, h.apart, Nat.lt_of_lt_of_le h.escapes h3, ?_⟩
  rw [← h.value]
  simp only [HBindings.value, k2, k4, h4]

/-- One of the bindings is changed by its owner. -/
theorem BindInv.update {m m' : BindMem} {bs : List HBindings} {vs : List Bindings} (h : BindInv m bs vs) {k : Nat} {b b' : HBindings}
    {v' : Bindings} (hk : bs[k]? = some b) (hb : BindAt m' b' v') (h1 : ∀ a, a < m.ints.next → a < m'.ints.next)
    (h2 : ∀ a, a < m.ints.next → a ∉ b.arrays → m'.ints.arrays a = m.ints.arrays a) (h3 : m'.nextMap = m.nextMap)
    (h4 : ∀ j, j ≠ b.escapes → m'.maps j = m.maps j) (h5 : ∀ n ∈ b'.arrays, n ∈ b.arrays ∨ ¬ n < m.ints.next)
    (h6 : b'.escapes = b.escapes) : BindInv m' (bs.set k b') (vs.set k v') := by
  have hval : ∀ {j : Nat} {c : HBindings}, bs[j]? = some c → ∃ u, vs[j]? = some u := by
    intro j c hj
    have := (List.getElem?_eq_some_iff.1 hj).1
    rw [h.length] at this
    exact ⟨_, List.getElem?_eq_getElem this⟩
  have halloc : ∀ {j : Nat} {c : HBindings}, bs[j]? = some c → ∀ n ∈ c.arrays, n < m.ints.next := by
    intro j c hj
    obtain ⟨u, hu⟩ := hval hj
    exact (h.each j c u hj hu).alloc
  have hlt := (List.getElem?_eq_some_iff.1 hk).1
  refine ⟨by simp [h.length], fun j c u hj hu => ?_, fun j j' c c' hjj hj hj' n hn hn' => ?_, fun j j' c c' hjj hj hj' => ?_⟩
  · by_cases hjk : k = j
    · subst hjk
      rw [List.getElem?_set_self hlt] at hj
      rw [List.getElem?_set_self (by rw [← h.length]; exact hlt)] at hu
      cases hj; cases hu
      exact hb
    · rw [List.getElem?_set_ne hjk] at hj hu
      refine (h.each j c u hj hu).frame h1 (fun n hn => h2 n (halloc hj n hn) fun hn' => h.arrays j k c b (Ne.symm hjk) hj hk n hn hn')
        (by omega) (h4 _ (h.escapes j k c b (Ne.symm hjk) hj hk))
  · by_cases hjk : k = j
    · subst hjk
      rw [List.getElem?_set_self hlt] at hj
      rw [List.getElem?_set_ne hjj] at hj'
      cases hj
      rcases h5 n hn with h7 | h7
      · exact h.arrays k j' b c' hjj hk hj' n h7 hn'
      · exact h7 (halloc hj' n hn')
    · rw [List.getElem?_set_ne hjk] at hj
      by_cases hjk' : k = j'
      · subst hjk'
        rw [List.getElem?_set_self hlt] at hj'
        cases hj'
        rcases h5 n hn' with h7 | h7
        · exact h.arrays j k c b hjj hj hk n hn h7
        · exact h7 (halloc hj n hn)
      · rw [List.getElem?_set_ne hjk'] at hj'
        exact h.arrays j j' c c' hjj hj hj' n hn hn'
  · by_cases hjk : k = j
    · subst hjk
      rw [List.getElem?_set_self hlt] at hj
      rw [List.getElem?_set_ne hjj] at hj'
      cases hj
      rw [h6]; exact h.escapes k j' b c' hjj hk hj'
    · rw [List.getElem?_set_ne hjk] at hj
      by_cases hjk' : k = j'
      · subst hjk'
        rw [List.getElem?_set_self hlt] at hj'
        cases hj'
        rw [h6]; exact h.escapes j k c b hjj hj hk
      · rw [List.getElem?_set_ne hjk'] at hj'
        exact h.escapes j j' c c' hjj hj hj'

theorem sortInts_length (l : List Int) : (sortInts l).length = l.length := (sortInts_perm l).length_eq

theorem sortSlice_spec {m : Mem Int} {s : SliceRef} (hf : m.Fits 0 s) :
    (sortSlice m s).Fits 0 s ∧ (sortSlice m s).read s = sortInts (m.read s) ∧
    (∀ a, a ∉ own s → (sortSlice m s).arrays a = m.arrays a) ∧ (sortSlice m s).next = m.next := by
  have hl := read_length hf
  unfold sortSlice
  split
  · next h0 =>
    have hn : m.read s = [] := List.length_eq_zero_iff.1 (by omega)
    exact ⟨hf, by rw [hn]; rfl, fun _ _ => rfl, rfl⟩
  · next h0 =>
    have hc : 0 < s.cap := by have := hf.len_le; omega
    obtain ⟨a1, a2, a3⟩ := hf.alloc hc
    have hsl := sortInts_length (m.read s)
    refine ⟨⟨hf.len_le, fun _ => ⟨a1, a2, ?_⟩⟩, ?_, fun a ha => ?_, rfl⟩
    · simp only [Mem.write, if_true, List.length_append, List.length_drop, hsl, hl, a3]
      have := hf.len_le; omega
    · have h0' : s.cap ≠ 0 := by omega
      show Mem.read { m with arrays := m.write s.arr _ } s = _
      simp only [Mem.read, if_neg h0', Mem.write, if_true] at hsl hl ⊢
      rw [List.take_append_of_le_length (by omega), List.take_of_length_le (by omega)]
    · have : a ≠ s.arr := fun e => ha (mem_own.2 ⟨hc, e⟩)
      simp [Mem.write, this]

/-- An edit that concerns only `IgnoreNodeTypes`. -/
theorem BindAt.editIgnore {m : BindMem} {b : HBindings} {v : Bindings} (h : BindAt m b v) {i' : Mem Int} {s' : SliceRef} {l : List Int}
    (h1 : ∀ a, a < m.ints.next → a < i'.next) (h2 : i'.Fits 0 s') (h3 : i'.read s' = l)
    (h4 : ∀ a, a < m.ints.next → a ∉ own b.ignore → i'.arrays a = m.ints.arrays a)
    (h5 : ∀ n ∈ own s', n ∈ own b.ignore ∨ ¬ n < m.ints.next) :
    BindAt { m with ints := i' } { b with ignore := s' } { v with ignoreNodeTypes := l } ∧
    (∀ a, a < m.ints.next → a ∉ b.arrays → i'.arrays a = m.ints.arrays a) ∧
    ∀ n ∈ ({ b with ignore := s' } : HBindings).arrays, n ∈ b.arrays ∨ ¬ n < m.ints.next := by
  obtain ⟨k1, k2⟩ := fits_frame (m' := i') h.terminals h1 fun n hn => h4 n (fits_own h.terminals hn).2 fun hn' => h.apart n hn' hn
  refine ⟨⟨h2, k1, fun n hn hn' => ?_, h.escapes, ?_⟩, fun a ha hn => h4 a ha fun h => hn (List.mem_append_left _ h), fun n hn => ?_⟩
  · rcases h5 n hn with h6 | h6
    · exact h.apart n h6 hn'
    · exact h6 (fits_own h.terminals hn').2
  · rw [← h.value]; simp only [HBindings.value, k2, h3]
  · rcases List.mem_append.1 hn with hn | hn
    · exact (h5 n hn).imp (List.mem_append_left _) id
    · exact .inl (List.mem_append_right _ hn)

/-- An edit that concerns only `SymbolTerminalTypes`. -/
theorem BindAt.editTerminals {m : BindMem} {b : HBindings} {v : Bindings} (h : BindAt m b v) {i' : Mem Int} {s' : SliceRef} {l : List Int}
    (h1 : ∀ a, a < m.ints.next → a < i'.next) (h2 : i'.Fits 0 s') (h3 : i'.read s' = l)
    (h4 : ∀ a, a < m.ints.next → a ∉ own b.terminals → i'.arrays a = m.ints.arrays a)
    (h5 : ∀ n ∈ own s', n ∈ own b.terminals ∨ ¬ n < m.ints.next) :
    BindAt { m with ints := i' } { b with terminals := s' } { v with symbolTerminalTypes := l } ∧
    (∀ a, a < m.ints.next → a ∉ b.arrays → i'.arrays a = m.ints.arrays a) ∧
    ∀ n ∈ ({ b with terminals := s' } : HBindings).arrays, n ∈ b.arrays ∨ ¬ n < m.ints.next := by
  obtain ⟨k1, k2⟩ := fits_frame (m' := i') h.ignore h1 fun n hn => h4 n (fits_own h.ignore hn).2 fun hn' => h.apart n hn hn'
  refine ⟨⟨k1, h2, fun n hn hn' => ?_, h.escapes, ?_⟩, fun a ha hn => h4 a ha fun h => hn (List.mem_append_right _ h), fun n hn => ?_⟩
  · rcases h5 n hn' with h6 | h6
    · exact h.apart n hn h6
    · exact h6 (fits_own h.ignore hn).2
  · rw [← h.value]; simp only [HBindings.value, k2, h3]
  · rcases List.mem_append.1 hn with hn | hn
    · exact .inl (List.mem_append_left _ hn)
    · exact (h5 n hn).imp (List.mem_append_right _) id

theorem BindEdit.sound {grow : Nat → Nat → Nat} (hg : Roomy grow) (e : BindEdit) {m : BindMem} {bs : List HBindings} {vs : List Bindings}
    (h : BindInv m bs vs) {k : Nat} {b : HBindings} {v : Bindings} (hk : bs[k]? = some b) (hv : vs[k]? = some v) :
    BindInv (e.onMemory grow m b).1 (bs.set k (e.onMemory grow m b).2) (vs.set k (e.onValue v)) := by
  have hb := h.each k b v hk hv
  have hsame : BindInv m (bs.set k b) (vs.set k v) := by
    have hset : ∀ {α : Type} {l : List α} {x : α}, l[k]? = some x → l.set k x = l := by
      intro α l x hx
      rw [← modify_of_get (fun y => y) hx]
      exact List.modify_id _ _
    rw [hset hk, hset hv]; exact h
  have e1 : v.ignoreNodeTypes = m.ints.read b.ignore := by rw [← hb.value]; rfl
  have e2 : v.symbolTerminalTypes = m.ints.read b.terminals := by rw [← hb.value]; rfl
  have e3 : v.escapeMapping = m.maps b.escapes := by rw [← hb.value]; rfl
  have n1 := read_length hb.ignore
  have n2 := read_length hb.terminals
  cases e with
  | setIgnore i x =>
    unfold BindEdit.onMemory BindEdit.onValue
    dsimp only
    by_cases hi : i < b.ignore.len
    · rw [if_pos hi]
      obtain ⟨s1, s2, s3⟩ := store_spec hb.ignore i x (by omega)
      obtain ⟨k1, k2, k3⟩ := hb.editIgnore (i' := m.ints.store b.ignore i x) (fun _ h => h) s1 s2 (fun a _ h => s3 a h) fun n hn => .inl hn
      exact h.update hk (by rw [e1]; exact k1) (fun _ h => h) k2 rfl (fun _ _ => rfl) k3 rfl
    · rw [if_neg hi, show v.ignoreNodeTypes.set i x = v.ignoreNodeTypes from List.set_eq_of_length_le (by rw [e1]; omega)]
      exact hsame
  | appendIgnore x =>
    unfold BindEdit.onMemory BindEdit.onValue
    dsimp only
    obtain ⟨s1, s2, s3, s4, s5⟩ := app_spec hg 0 hb.ignore x
    obtain ⟨k1, k2, k3⟩ := hb.editIgnore s1 s2 s3 s4 s5
    exact h.update hk (by rw [e1]; exact k1) s1 k2 rfl (fun _ _ => rfl) k3 rfl
  | setTerminal i x =>
    unfold BindEdit.onMemory BindEdit.onValue
    dsimp only
    by_cases hi : i < b.terminals.len
    · rw [if_pos hi]
      obtain ⟨s1, s2, s3⟩ := store_spec hb.terminals i x (by omega)
      obtain ⟨k1, k2, k3⟩ := hb.editTerminals (i' := m.ints.store b.terminals i x) (fun _ h => h) s1 s2 (fun a _ h => s3 a h) fun n hn => .inl hn
      exact h.update hk (by rw [e2]; exact k1) (fun _ h => h) k2 rfl (fun _ _ => rfl) k3 rfl
    · rw [if_neg hi, show v.symbolTerminalTypes.set i x = v.symbolTerminalTypes from List.set_eq_of_length_le (by rw [e2]; omega)]
      exact hsame
  | appendTerminal x =>
    unfold BindEdit.onMemory BindEdit.onValue
    dsimp only
    obtain ⟨s1, s2, s3, s4, s5⟩ := app_spec hg 0 hb.terminals x
    obtain ⟨k1, k2, k3⟩ := hb.editTerminals s1 s2 s3 s4 s5
    exact h.update hk (by rw [e2]; exact k1) s1 k2 rfl (fun _ _ => rfl) k3 rfl
  | setEscape key val =>
    refine h.update hk ⟨hb.ignore, hb.terminals, hb.apart, hb.escapes, ?_⟩ (fun _ h => h) (fun _ _ _ => rfl) rfl (fun j hj => if_neg hj)
      (fun n hn => .inl hn) rfl
    simp only [BindEdit.onMemory, BindEdit.onValue, e3]
    rw [← hb.value]
    simp [HBindings.value]
  | deleteEscape key =>
    refine h.update hk ⟨hb.ignore, hb.terminals, hb.apart, hb.escapes, ?_⟩ (fun _ h => h) (fun _ _ _ => rfl) rfl (fun j hj => if_neg hj)
      (fun n hn => .inl hn) rfl
    simp only [BindEdit.onMemory, BindEdit.onValue, e3]
    rw [← hb.value]
    simp [HBindings.value]
  | numbers r =>
    refine h.update hk ⟨hb.ignore, hb.terminals, hb.apart, hb.escapes, ?_⟩ (fun _ h => h) (fun _ _ _ => rfl) rfl (fun j hj => rfl)
      (fun n hn => .inl hn) rfl
    simp only [BindEdit.onMemory, BindEdit.onValue]
    rw [← hb.value]
    simp [HBindings.value]
  | toAST =>
    unfold BindEdit.onMemory BindEdit.onValue
    dsimp only
    obtain ⟨s1, s2, s3, s4⟩ := sortSlice_spec hb.ignore
    obtain ⟨k1, k2, k3⟩ := hb.editIgnore (i' := sortSlice m.ints b.ignore) (fun a h => by rw [s4]; exact h) s1 s2 (fun a _ h => s3 a h) fun n hn => .inl hn
    exact h.update hk (by rw [e1]; exact k1) (fun a h => by rw [s4]; exact h) k2 rfl (fun _ _ => rfl) k3 rfl

theorem selfBindings_spec {m : BindMem} {bs : List HBindings} {vs : List Bindings} (h : BindInv m bs vs) :
    BindInv (selfBindingsH m).1 (bs ++ [(selfBindingsH m).2]) (vs ++ [selfBindings]) := by
  obtain ⟨a1, a2, a3, a4, a5⟩ := literal_spec m.ints [25]
  obtain ⟨b1, b2, b3, b4, b5⟩ := literal_spec (m.ints.literal [25]).1 [11, 12]
  have hb : BindAt (selfBindingsH m).1 (selfBindingsH m).2 selfBindings := by
    obtain ⟨k1, k2⟩ := fits_frame a3 b1 fun n hn => b2 n (fits_own a3 hn).2
    refine ⟨k1, b3, fun n hn hn' => b5 n hn' (fits_own a3 hn).2, Nat.lt_succ_self _, ?_⟩
    have e1 : (selfBindingsH m).1.ints.read (selfBindingsH m).2.ignore = [25] := k2.trans a4
    have e2 : (selfBindingsH m).1.ints.read (selfBindingsH m).2.terminals = [11, 12] := b4
    have e3 : (selfBindingsH m).1.maps (selfBindingsH m).2.escapes = selfBindings.escapeMapping := if_pos rfl
    unfold HBindings.value
    rw [e1, e2, e3]
    rfl
  have hnew : ∀ n ∈ (selfBindingsH m).2.arrays, ¬ n < m.ints.next := by
    intro n hn
    rcases List.mem_append.1 hn with hn | hn
    · exact a5 n hn
    · exact fun hlt => b5 n hn (a1 n hlt)
  have hold : ∀ (k : Nat) (b : HBindings), bs[k]? = some b → (∀ n ∈ b.arrays, n < m.ints.next) ∧ b.escapes < m.nextMap := by
    intro k b hk
    have := (List.getElem?_eq_some_iff.1 hk).1
    rw [h.length] at this
    have := h.each k b _ hk (List.getElem?_eq_getElem this)
    exact ⟨this.alloc, this.escapes⟩
  have hget : ∀ {α : Type} {l : List α} {x y : α} {k : Nat}, (l ++ [x])[k]? = some y → l[k]? = some y ∨ k = l.length ∧ y = x := by
    intro α l x y k hk
    rcases Nat.lt_or_ge k l.length with hlt | hge
    · rw [List.getElem?_append_left hlt] at hk; exact .inl hk
    · rw [List.getElem?_append_right hge] at hk
      cases hd : k - l.length with
      | zero => rw [hd] at hk; simp at hk; exact .inr ⟨by omega, hk.symm⟩
      | succ j => rw [hd] at hk; simp at hk
  have hidx : ∀ {α : Type} {l : List α} {k : Nat} {y : α}, l[k]? = some y → k < l.length := fun hk => (List.getElem?_eq_some_iff.1 hk).1
  have hlen := h.length
  refine ⟨by simp [h.length], fun k b v hk hv => ?_, fun k k' b b' hne hk hk' n hn hn' => ?_, fun k k' b b' hne hk hk' => ?_⟩
  · rcases hget hk with hk | ⟨hk, rfl⟩
    · rcases hget hv with hv | ⟨hv, rfl⟩
      · refine (h.each k b v hk hv).frame (fun a ha => b1 a (a1 a ha)) (fun n hn => ?_) (Nat.le_succ _) (if_neg ?_)
        · have := (hold k b hk).1 n hn
          exact (b2 n (a1 n this)).trans (a2 n this)
        · have := (hold k b hk).2; omega
      · have := hidx hk; omega
    · rcases hget hv with hv | ⟨hv, rfl⟩
      · have := hidx hv; omega
      · exact hb
  · rcases hget hk with hk | ⟨hk, rfl⟩ <;> rcases hget hk' with hk' | ⟨hk', rfl⟩
    · exact h.arrays k k' b b' hne hk hk' n hn hn'
    · exact hnew n hn' ((hold k b hk).1 n hn)
    · exact hnew n hn ((hold k' b' hk').1 n hn')
    · omega
  · rcases hget hk with hk | ⟨hk, rfl⟩ <;> rcases hget hk' with hk' | ⟨hk', rfl⟩
    · exact h.escapes k k' b b' hne hk hk'
    · have := (hold k b hk).2
      exact fun e => absurd (e ▸ this) (Nat.lt_irrefl _)
    · have := (hold k' b' hk').2
      exact fun e => absurd (e ▸ this) (Nat.lt_irrefl _)
    · omega

end FC
end LL1
