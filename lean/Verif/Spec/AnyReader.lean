import Verif.Model.AnyReader
import Verif.Props.Reader

/-!
# What a reader makes of the text

No buffer here: a reader appends bytes to the text, or takes bytes back.
-/

namespace LL1.AnyReader

variable {σ : Type}

/-- The text after a call of `Read` that left `mem` in memory, where `p` began at `off`, and returned `n`: the first `n`
bytes of `p` are added; or, if `n` is negative, the last `-n` bytes of the text are gone. -/
def after (t mem : Str) (off : Nat) (n : Int) : Str :=
  if 0 ≤ n then t ++ (mem.drop off).take n.toNat else t.take (t.length + n).toNat

/-- `Makes maps r q s t u fin`: with `t` read so far, the reader in state `s` goes on to make the text `u`, ends with `fin`
(`none`: EOF), and then the parser's maps are those of `q`.  Whatever (non-empty) slice each call is handed, and whatever it
holds: the call returns, writes only to its slice (all of it if it likes), and its count lies between minus the length of the
text so far and the length of the slice.  (Inductive: it ends after finitely many calls.) -/
inductive Makes (maps : σ → Parser) (r : AnyReader σ) (q : Parser) : σ → Str → Str → Option Str → Prop where
  | intro (s : σ) (t u : Str) (fin : Option Str)
      (ret : ∀ reach off, off < reach.length → ∃ mem n e s', r s reach off = .returns mem n e s' ∧
        mem.length = reach.length ∧ mem.take off = reach.take off ∧
        0 ≤ t.length + n ∧ n ≤ ((reach.length - off : Nat) : Int))
      (stop : ∀ reach off mem n e s', off < reach.length → r s reach off = .returns mem n (some e) s' →
        u = after t mem off n ∧ fin = e.msg ∧ maps s' = q)
      (more : ∀ reach off mem n s', off < reach.length → r s reach off = .returns mem n none s' →
        Makes maps r q s' (after t mem off n) u fin) :
      Makes maps r q s t u fin

/-- The buffer and the reader's state at the calls of `Read` that `io.ReadAll` makes. -/
inductive Called (r : AnyReader σ) (grow : Nat → Nat) (s : σ) : Buf → σ → Prop
  | first : Called r grow s Buf.init s
  | next {b : Buf} {s1 s2 : σ} {mem : Str} {n : Int} :
      Called r grow s b s1 → r s1 b.reach (b.len - b.low) = .returns mem n none s2 →
      0 ≤ (b.len : Int) + n → (b.len : Int) + n < b.arr.length →
      Called r grow s ⟨b.put mem, ((b.len : Int) + n).toNat, min b.low ((b.len : Int) + n).toNat⟩ s2
  | full {b : Buf} {s1 s2 : σ} {mem : Str} {n : Int} :
      Called r grow s b s1 → r s1 b.reach (b.len - b.low) = .returns mem n none s2 →
      (b.len : Int) + n = b.arr.length →
      Called r grow s (Buf.grown ⟨b.put mem, b.arr.length, b.low⟩ grow) s2

/-- The reader keeps to `0 ≤ n ≤ len(p)` and does not panic.  Nothing is said about what it writes where. -/
def CountsRight (r : AnyReader σ) : Prop :=
  ∀ s reach off, off < reach.length →
    ∃ mem n e s', r s reach off = .returns mem n e s' ∧ 0 ≤ n ∧ n ≤ ((reach.length - off : Nat) : Int)

end LL1.AnyReader
