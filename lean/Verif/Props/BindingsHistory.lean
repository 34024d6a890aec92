import Verif.Proofs.BindingsHistory
import Verif.Props.GrammarHistory

/-!
# C105: `SelfCSTtoASTBindings` gives new bindings with every call; bindings of a program behave as values
-/

namespace LL1
open FC Mem

/-- **C105.** Bindings behave as values: a program that gets bindings from `SelfCSTtoASTBindings`, assigns to and appends to
their slices, changes their escape mappings and integers and calls `ToAST` with them (which sorts `IgnoreNodeTypes` in place), in
any order, sees exactly what it would see if every one of them were a value of its own. -/
theorem C105_bindings (grow : Nat → Nat → Nat) (hg : Roomy grow) (m : BindMem) (deeds : List BindDeed) :
    (deeds.foldl (BindDeed.onMemory grow) (m, [])).2.map (fun b => b.value (deeds.foldl (BindDeed.onMemory grow) (m, [])).1) =
      deeds.foldl BindDeed.onValues [] := by
  suffices H : ∀ (w : BindMem × List HBindings) (vs : List Bindings), BindInv w.1 w.2 vs →
      BindInv (deeds.foldl (BindDeed.onMemory grow) w).1 (deeds.foldl (BindDeed.onMemory grow) w).2 (deeds.foldl BindDeed.onValues vs) by
    have h := H (m, []) [] ⟨rfl, by simp, by simp, by simp⟩
    refine List.ext_getElem? fun k => ?_
    rw [List.getElem?_map]
    generalize deeds.foldl (BindDeed.onMemory grow) (m, []) = w at h ⊢
    generalize deeds.foldl BindDeed.onValues [] = vs at h ⊢
    cases hk : w.2[k]? with
    | none =>
      rw [List.getElem?_eq_none_iff] at hk
      rw [List.getElem?_eq_none (by rw [← h.length]; exact hk)]
      rfl
    | some b =>
      have hlt := (List.getElem?_eq_some_iff.1 hk).1
      rw [h.length] at hlt
      have := List.getElem?_eq_getElem hlt
      rw [this, Option.map_some, (h.each k b _ hk this).value]
  induction deeds with
  | nil => exact fun w vs h => h
  | cons d deeds ih =>
    refine fun w vs h => ih _ _ ?_
    cases d with
    | self => exact selfBindings_spec h
    | edit k e =>
      unfold BindDeed.onValues
      cases hk : w.2[k]? with
      | none =>
        have he : BindDeed.onMemory grow w (.edit k e) = w := by simp only [BindDeed.onMemory, hk]
        rw [he]
        dsimp only
        rw [List.getElem?_eq_none_iff] at hk
        rw [List.modify_eq_self (by rw [← h.length]; exact hk)]
        exact h
      | some b =>
        have he : BindDeed.onMemory grow w (.edit k e) = ((e.onMemory grow w.1 b).1, w.2.set k (e.onMemory grow w.1 b).2) := by
          simp only [BindDeed.onMemory, hk]
        have hlt := (List.getElem?_eq_some_iff.1 hk).1
        rw [h.length] at hlt
        have hv := List.getElem?_eq_getElem hlt
        rw [he]
        dsimp only
        rw [modify_of_get _ hv]
        exact e.sound hg h hk hv

/-- **C105.** In particular: after any such program another call of `SelfCSTtoASTBindings()` gives `selfBindings`, and leaves all
bindings the program has as they are. -/
theorem C105_bindings_again (grow : Nat → Nat → Nat) (hg : Roomy grow) (m : BindMem) (deeds : List BindDeed) :
    ((deeds ++ [BindDeed.self]).foldl (BindDeed.onMemory grow) (m, [])).2.map
        (fun b => b.value ((deeds ++ [BindDeed.self]).foldl (BindDeed.onMemory grow) (m, [])).1) =
      (deeds.foldl (BindDeed.onMemory grow) (m, [])).2.map (fun b => b.value (deeds.foldl (BindDeed.onMemory grow) (m, [])).1) ++
        [selfBindings] := by
  rw [C105_bindings grow hg, C105_bindings grow hg, List.foldl_append]
  rfl

/-! ## Examples -/

/-- Twice the grammar; in the first one a symbol is overwritten, an alternative and a rule are appended, in the second one the
last rules are cut off; then it is called again. -/
def Ex.grammarDeeds : List Deed :=
  [.self, .self, .edit 0 (.at 1 (.tail (.at 0 (.set 0 (.terminal b!"!"))))), .edit 0 (.at 2 (.tail (.append ⟨[.nothing]⟩))),
   .edit 0 (.append ⟨b!"new", ⟨[]⟩⟩), .edit 1 (.truncate 3), .edit 7 (.truncate 0), .self]

/-- Three different grammars result, the last one the original. -/
example : (Ex.grammarDeeds.foldl Deed.onValues []).map (fun g => g.rules.length) = [27, 3, 26] ∧
    (Ex.grammarDeeds.foldl Deed.onValues [])[2]? = some selfGrammar ∧
    ((Ex.grammarDeeds.foldl Deed.onValues [])[0]?.bind fun g => g.rules[1]?.bind fun r => r.tail.sequences[0]?.bind
      fun q => q.symbols[0]?) = some (.terminal b!"!") ∧
    (selfGrammar.rules[1]?.bind fun r => r.tail.sequences[0]?.bind fun q => q.symbols[0]?) ≠ some (.terminal b!"!") := by decide +kernel

/-- With assignments of whole grammars (`h := g`) grammars would not behave as values: the copy shares the arrays, and an edit of
the one shows in the other. -/
example : let w := (Mem.mk 0 (fun _ => ([] : List Symbol)), Mem.mk 0 (fun _ => ([] : List SliceRef)), Mem.mk 0 (fun _ => ([] : List HRule)))
    let r := AstMem.grammarLit ⟨w.1, w.2.1, w.2.2⟩ ⟨[⟨b!"a", ⟨[⟨[.terminal b!"x"]⟩]⟩⟩]⟩
    let e := (GrammarEdit.at 0 (.head b!"b")).onMemory (fun _ n => n) r.1 r.2
    e.1.grammar r.2 = ⟨[⟨b!"b", ⟨[⟨[.terminal b!"x"]⟩]⟩⟩]⟩ := by decide +kernel

/-- Bindings: in the first ones an escape is added and the ignored types are changed and sorted. -/
def Ex.bindDeeds : List BindDeed :=
  [.self, .self, .edit 0 (.setEscape b!"e" b!"x"), .edit 0 (.appendIgnore 3), .edit 0 .toAST, .edit 1 (.deleteEscape b!"t"), .self]

example : (Ex.bindDeeds.foldl BindDeed.onValues []).map (fun b => (b.ignoreNodeTypes, b.escapeMapping.length)) =
    [([3, 25], 6), ([25], 4), ([25], 5)] := by decide +kernel

end LL1
