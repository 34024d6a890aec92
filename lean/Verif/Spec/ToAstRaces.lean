import Verif.Model.ToAstRaces

/-!
# What a data race is, and what is assumed of `sort.Sort`
-/

namespace LL1
namespace FC

/-- The next step of the program reads element `i`. -/
def Prog.AboutToRead {α : Type} (p : Prog α) (i : Nat) : Prop := ∃ k, p = .read i k

/-- The next step of the program writes element `i`. -/
def Prog.AboutToWrite {α : Type} (p : Prog α) (i : Nat) : Prop := ∃ x k, p = .write i x k

/-- Two goroutines are about to access the same element, one of them to write it. -/
def PSystem.Races (sys : PSystem) : Prop :=
  ∃ (i j : Nat) (p q : Prog (R Grammar)) (a : Nat), i ≠ j ∧ sys.threads[i]? = some p ∧ sys.threads[j]? = some q ∧
    p.AboutToWrite a ∧ (q.AboutToRead a ∨ q.AboutToWrite a)

/-- Run alone on this memory the program writes nothing. -/
def Prog.Quiet {α : Type} (mem : Mem) : Prog α → Prop
  | .ret _ => True
  | .read i k => (k (mem i)).Quiet mem
  | .write _ _ _ => False

/-- The first `n` elements are in ascending order. -/
def Mem.Ascending (mem : Mem) (n : Nat) : Prop := (mem.list n).Pairwise (· ≤ ·)

/-- What is assumed of `sort.Sort` on `n` integers: run alone it puts the elements into ascending order, touches nothing
else, and writes nothing if they were already in order.  (`insertionSort`, which is what Go runs for up to 12 elements, is
proved to be like that.) -/
structure Sorts (sort : Nat → Prog Unit) : Prop where
  ascending : ∀ n mem, ((sort n).run mem).1.Ascending n
  perm : ∀ n mem, (((sort n).run mem).1.list n).Perm (mem.list n)
  outside : ∀ n mem i, n ≤ i → ((sort n).run mem).1 i = mem i
  quiet : ∀ n mem, mem.Ascending n → (sort n).Quiet mem

/-- The bindings of a call with the present contents of the shared slice. -/
def PCall.value (c : PCall) (n : Nat) (mem : Mem) : Bindings := { c.bindings with ignoreNodeTypes := mem.list n }

end FC
end LL1
