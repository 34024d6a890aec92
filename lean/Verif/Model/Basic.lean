/-!
# Basic vocabulary of the model

* `Str`     – Go `string` and `[]byte` values: finite byte sequences.
* `GoMap`   – Go maps, as association lists read through `GoMap.get`
              (the first entry for a key counts) and written through `GoMap.set`.
* `Res`     – the possible ends of a Go call returning `(T, error)`:
              a value, an error, a panic, or no return at all (loop fuel exhausted).
-/

namespace LL1

/-- Go `string` / `[]byte`: a finite sequence of bytes. -/
abbrev Str := List UInt8

/-- `b!"abc"` is the byte sequence of an ASCII string literal, expanded when the file is elaborated. -/
syntax:max (name := bytesLit) "b!" str : term

open Lean in
macro_rules
  | `(b! $s:str) => do
    let bytes := s.getString.toUTF8.toList
    let elems ← bytes.mapM fun (b : UInt8) =>
      let n := Syntax.mkNumLit (toString b.toNat)
      `(($n : UInt8))
    `(([$(elems.toArray),*] : List UInt8))

/-- A Go `map[K]V`.  Entries are found by `GoMap.get`; iteration order is not fixed by the
representation (where the code iterates over a map, the model takes the order as a parameter). -/
abbrev GoMap (K V : Type) := List (K × V)

namespace GoMap
variable {K V : Type} [DecidableEq K]

/-- `v, ok := m[k]` -/
def get : GoMap K V → K → Option V
  | [], _ => none
  | (k', v) :: m, k => if k' = k then some v else get m k

/-- `m[k] = v` -/
def set (m : GoMap K V) (k : K) (v : V) : GoMap K V :=
  (k, v) :: m.filter (fun e => decide (e.1 ≠ k))

@[simp] theorem get_nil (k : K) : get ([] : GoMap K V) k = none := rfl

@[simp] theorem get_cons (k k' : K) (v : V) (m : GoMap K V) :
    get ((k', v) :: m) k = if k' = k then some v else get m k := rfl

theorem get_filter_ne (m : GoMap K V) (k k' : K) :
    get (m.filter (fun e => decide (e.1 ≠ k))) k' = if k' = k then none else get m k' := by
  induction m with
  | nil => simp
  | cons e m ih =>
    obtain ⟨k₀, v₀⟩ := e
    by_cases h : k₀ = k
    · subst h
      simp only [ne_eq, not_true_eq_false, decide_false, Bool.false_eq_true, not_false_eq_true,
        List.filter_cons_of_neg, get_cons]
      rw [ih]
      by_cases h' : k' = k₀
      · simp [h']
      · simp [h', Ne.symm h']
    · rw [List.filter_cons_of_pos (by simpa using h)]
      simp only [get_cons, ih]
      by_cases h' : k₀ = k'
      · subst h'; simp [h]
      · simp [h']

theorem get_set (m : GoMap K V) (k k' : K) (v : V) :
    get (set m k v) k' = if k' = k then some v else get m k' := by
  unfold set
  rw [get_cons, get_filter_ne]
  by_cases h : k = k'
  · simp [h]
  · simp [h, Ne.symm h]

theorem get_eq_none_iff (m : GoMap K V) (k : K) : get m k = none ↔ ∀ v, (k, v) ∉ m := by
  induction m with
  | nil => simp
  | cons e m ih =>
    obtain ⟨k₀, v₀⟩ := e
    by_cases h : k₀ = k
    · subst h
      simp only [get_cons, if_true, reduceCtorEq, false_iff]
      intro h; exact h v₀ List.mem_cons_self
    · simp only [get_cons, h, if_false, ih, List.mem_cons, Prod.mk.injEq, not_or, not_and]
      constructor
      · intro h' v; exact ⟨fun hk => absurd hk.symm h, h' v⟩
      · intro h' v; exact (h' v).2

theorem mem_of_get_eq_some {m : GoMap K V} {k : K} {v : V} (h : get m k = some v) : (k, v) ∈ m := by
  induction m with
  | nil => simp at h
  | cons e m ih =>
    obtain ⟨k₀, v₀⟩ := e
    rw [get_cons] at h
    split at h
    · simp_all
    · exact List.mem_cons_of_mem _ (ih h)

theorem get_mapVal {V' : Type} (m : GoMap K V) (f : V → V') (k : K) :
    get (m.map fun e => (e.1, f e.2)) k = (get m k).map f := by
  induction m with
  | nil => rfl
  | cons e m ih =>
    obtain ⟨k₀, v₀⟩ := e
    rw [List.map_cons, get_cons, get_cons, ih]
    split <;> rfl

end GoMap

/-- How a Go call ends.  `diverge` is the model's "still looping when the fuel ran out". -/
inductive Res (E P α : Type) where
  | ok (a : α)
  | err (e : E)
  | panic (p : P)
  | diverge
  deriving Repr, DecidableEq

namespace Res
variable {E P α β : Type}

def bind (x : Res E P α) (f : α → Res E P β) : Res E P β :=
  match x with
  | .ok a => f a
  | .err e => .err e
  | .panic p => .panic p
  | .diverge => .diverge

instance : Monad (Res E P) where
  pure := .ok
  bind := bind

@[simp] theorem pure_eq (a : α) : (pure a : Res E P α) = .ok a := rfl
@[simp] theorem ok_bind (a : α) (f : α → Res E P β) : ((Res.ok a : Res E P α) >>= f) = f a := rfl
@[simp] theorem err_bind (e : E) (f : α → Res E P β) : ((Res.err e : Res E P α) >>= f) = .err e := rfl
@[simp] theorem panic_bind (p : P) (f : α → Res E P β) :
    ((Res.panic p : Res E P α) >>= f) = .panic p := rfl
@[simp] theorem diverge_bind (f : α → Res E P β) :
    ((Res.diverge : Res E P α) >>= f) = .diverge := rfl

theorem bind_eq_ok {x : Res E P α} {f : α → Res E P β} {b : β} :
    (x >>= f) = .ok b ↔ ∃ a, x = .ok a ∧ f a = .ok b := by
  cases x <;> simp

theorem bind_eq_diverge {x : Res E P α} {f : α → Res E P β} :
    (x >>= f) = .diverge ↔ x = .diverge ∨ ∃ a, x = .ok a ∧ f a = .diverge := by
  cases x <;> simp

theorem bind_eq_panic {x : Res E P α} {f : α → Res E P β} {p : P} :
    (x >>= f) = .panic p ↔ x = .panic p ∨ ∃ a, x = .ok a ∧ f a = .panic p := by
  cases x <;> simp

theorem bind_eq_err {x : Res E P α} {f : α → Res E P β} {e : E} :
    (x >>= f) = .err e ↔ x = .err e ∨ ∃ a, x = .ok a ∧ f a = .err e := by
  cases x <;> simp

end Res

end LL1
