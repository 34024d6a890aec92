import Verif.Golden.Refs
import Verif.Golden.TestGrammars
import Verif.Golden.Tables
import Verif.Model.TableGen
import Verif.Props.TableGen
import Verif.Props.Parser
import Verif.Proofs.Messages
import Verif.Spec.Bnf

/-!
# The test helpers (C56, C57) and the repository's parser and tree reference files
-/

namespace LL1
open TestTools

/-! ## C56: printing a tree -/

/-- All nodes with their depth, parent before children, children left to right. -/
def withDepth (d : Nat) : Node → List (Nat × Node)
  | .mk t s e cs => (d, .mk t s e cs) :: (cs.map (withDepth (d + 1))).flatten

/-- The line for a node: two blanks per level, the name of its type, the text it spans. -/
def treeLine (names : Names) (str : Str) (x : Nat × Node) : Str :=
  blanks (2 * x.1) ++ called (some names) x.2.type ++ b!": string(" ++
    (str.drop x.2.pos).take (x.2.stop - x.2.pos) ++ b!")\n"

theorem repeatStr_eq (n : Nat) : repeatStr b!"  " n = blanks (2 * n) := by
  induction n with
  | zero => rfl
  | succ n ih =>
    rw [repeatStr, ih, show 2 * (n + 1) = 2 * n + 1 + 1 by omega]
    simp [blanks, List.replicate_succ]

/-- The node lies in the text. -/
def Inside (str : Str) (n : Node) : Prop := n.pos ≤ n.stop ∧ n.stop ≤ str.length

instance (str : Str) (n : Node) : Decidable (Inside str n) := inferInstanceAs (Decidable (_ ∧ _))

theorem node_ind {P : Node → Prop} (h : ∀ n : Node, (∀ c ∈ n.childs, P c) → P n) : ∀ n, P n
  | .mk t s e cs => h _ fun c hc => by
    simp only [Node.childs_mk] at hc
    have := List.sizeOf_lt_of_mem hc
    exact node_ind h c
termination_by n => sizeOf n
decreasing_by simp; omega

theorem nodeTypeName_render (names : Option Names) (n : Int) : (nodeTypeName names n).render = called names n := by
  unfold nodeTypeName called
  cases names with
  | none => simp [NameRef.render, fmtInt_eq]
  | some m =>
    simp only [Option.getD_some, Option.bind_some]
    cases GoMap.get m n <;> simp [NameRef.render, fmtInt_eq]

theorem named_visit (names : Names) (str : Str) (d : Nat) (n : Node) (s : Str) :
    (namedVisitor names str).visit d n s =
      if Inside str n then .ok (s ++ treeLine names str (d, n), some (d + 1)) else .error .sliceBounds := by
  simp only [namedVisitor, nodeText]
  by_cases h : Inside str n
  · have h' : n.pos ≤ n.stop ∧ n.stop ≤ str.length := h
    rw [if_pos h', if_pos h]
    simp [treeLine, repeatStr_eq, nodeTypeName_render]
  · have h' : ¬ (n.pos ≤ n.stop ∧ n.stop ≤ str.length) := h
    rw [if_neg h', if_neg h]

mutual
theorem named_walk (names : Names) (str : Str) (d : Nat) : ∀ (n : Node) (s : Str),
    walk (namedVisitor names str) d n s =
      if ∀ x ∈ withDepth d n, Inside str x.2 then .ok (s ++ ((withDepth d n).map (treeLine names str)).flatten)
      else .error .sliceBounds
  | .mk t p e cs, s => by
    rw [walk, named_visit]
    by_cases h : Inside str (.mk t p e cs)
    · rw [if_pos h]
      simp only []
      rw [named_walkList names str (d + 1) cs]
      by_cases h' : ∀ x ∈ (cs.map (withDepth (d + 1))).flatten, Inside str x.2
      · rw [if_pos h', if_pos]
        · simp only [withDepth, List.map_cons, List.flatten_cons, List.append_assoc]
        · intro x hx
          rw [withDepth, List.mem_cons] at hx
          rcases hx with rfl | hx
          · exact h
          · exact h' x hx
      · rw [if_neg h', if_neg]
        exact fun hh => h' fun x hx => hh x (by rw [withDepth]; exact List.mem_cons_of_mem _ hx)
    · rw [if_neg h, if_neg]
      intro h'
      exact h (h' (d, .mk t p e cs) (by simp [withDepth]))
theorem named_walkList (names : Names) (str : Str) (d : Nat) : ∀ (cs : List Node) (s : Str),
    walkList (namedVisitor names str) d cs s =
      if ∀ x ∈ (cs.map (withDepth d)).flatten, Inside str x.2 then
        .ok (s ++ (((cs.map (withDepth d)).flatten).map (treeLine names str)).flatten)
      else .error .sliceBounds
  | [], s => by simp [walkList]
  | c :: cs, s => by
    rw [walkList, named_walk names str d c]
    by_cases h : ∀ x ∈ withDepth d c, Inside str x.2
    · rw [if_pos h]
      simp only []
      rw [named_walkList names str d cs]
      by_cases h' : ∀ x ∈ (cs.map (withDepth d)).flatten, Inside str x.2
      · rw [if_pos h', if_pos]
        · simp only [List.map_cons, List.flatten_cons, List.map_append, List.flatten_append, List.append_assoc]
        · intro x hx
          rw [List.map_cons, List.flatten_cons, List.mem_append] at hx
          exact hx.elim (h x) (h' x)
      · rw [if_neg h', if_neg]
        exact fun hh => h' fun x hx => hh x (by simp only [List.map_cons, List.flatten_cons, List.mem_append]; exact .inr hx)
    · rw [if_neg h, if_neg]
      intro h'
      exact h fun x hx => h' x (by simp only [List.map_cons, List.flatten_cons, List.mem_append]; exact .inl hx)
end

mutual
theorem withDepth_nodes (d : Nat) : ∀ n : Node, (withDepth d n).map (·.2) = preorder n
  | .mk t p e cs => by rw [withDepth, preorder, List.map_cons, withDepths_nodes (d + 1) cs]
theorem withDepths_nodes (d : Nat) : ∀ cs : List Node,
    ((cs.map (withDepth d)).flatten).map (·.2) = (cs.map preorder).flatten
  | [] => rfl
  | c :: cs => by
    simp only [List.map_cons, List.flatten_cons, List.map_append]
    rw [withDepth_nodes d c, withDepths_nodes d cs]
end

/-- **C56.** `FprintTreeNamed` writes one line per node of the tree, in pre-order, indented by depth; it
panics exactly if some node does not lie in the text. -/
theorem C56_prints (root : Node) (names : Names) (str : Str) :
    ((∀ n ∈ preorder root, Inside str n) →
      fprintTreeNamed root names str = .ok ((withDepth 0 root).map (treeLine names str)).flatten) ∧
    ((¬ ∀ n ∈ preorder root, Inside str n) → fprintTreeNamed root names str = .error .sliceBounds) := by
  have e : (∀ n ∈ preorder root, Inside str n) ↔ ∀ x ∈ withDepth 0 root, Inside str x.2 := by
    rw [← withDepth_nodes 0 root]
    simp only [List.mem_map, forall_exists_index, and_imp, forall_apply_eq_imp_iff₂]
  rw [e]
  unfold fprintTreeNamed
  rw [named_walk]
  constructor <;> intro h
  · rw [if_pos h, List.nil_append]
  · rw [if_neg h]

/-- **C56.** The lines are those of the nodes in pre-order, and a node at address `π` has depth `|π|`. -/
theorem C56_order (root : Node) :
    (withDepth 0 root).map (·.2) = preorder root ∧
    ∀ d n, (d, n) ∈ withDepth 0 root ↔ ∃ π, π.length = d ∧ nodeAt root π = some n := by
  refine ⟨withDepth_nodes 0 root, ?_⟩
  have gen : ∀ (n : Node) (k d : Nat) (m : Node), (d, m) ∈ withDepth k n ↔
      ∃ π, k + π.length = d ∧ nodeAt n π = some m := by
    intro n
    induction n using node_ind with
    | h n ih =>
    obtain ⟨t, p, e, cs⟩ := n
    intro k d m
    simp only [withDepth, List.mem_cons, Prod.mk.injEq, List.mem_flatten, List.mem_map]
    constructor
    · rintro (⟨rfl, rfl⟩ | ⟨l, ⟨c, hc, rfl⟩, hm⟩)
      · exact ⟨[], rfl, rfl⟩
      · obtain ⟨π, h1, h2⟩ := (ih c hc (k + 1) d m).1 hm
        obtain ⟨i, hi, rfl⟩ := List.mem_iff_getElem.1 hc
        refine ⟨i :: π, by simp; omega, ?_⟩
        simp only [nodeAt, Node.childs_mk]
        rw [List.getElem?_eq_getElem (by simpa using hi)]
        exact h2
    · rintro ⟨π, h1, h2⟩
      cases π with
      | nil =>
        simp only [nodeAt, Option.some.injEq] at h2
        exact .inl ⟨by simpa using h1.symm, h2.symm⟩
      | cons i π =>
        simp only [nodeAt, Node.childs_mk] at h2
        cases hi : cs[i]? with
        | none => simp [hi] at h2
        | some c =>
          simp only [hi] at h2
          have hc : c ∈ cs := List.mem_of_getElem? hi
          refine .inr ⟨_, ⟨c, hc, rfl⟩, (ih c hc (k + 1) d m).2 ⟨π, ?_, h2⟩⟩
          simp at h1
          omega
  intro d n
  simpa using gen root 0 d n

/-- **C56.** A tree returned by a parser with a NUL-free table is printed without panic for the text that
was parsed. -/
theorem C56_parsed (p : Parser) (he : p.table.HasEntry) (hpub : p.table.Public) (hnf : p.table.NulFree)
    (src : Source) (text : Str) (hr : readSource src = .ok text) (t : Node) (m : Names)
    (h : p.Returns src (.ok t m)) (names : Names) :
    fprintTreeNamed t names text = .ok ((withDepth 0 t).map (treeLine names text)).flatten :=
  (C56_prints t names text).1 fun n hn => ⟨(C10_tiling p he hpub src text hr t m h n hn).1,
    C10_in_bounds p he hpub hnf src text hr t m h n hn⟩

/-! ## C57: comparing maps -/

theorem get_copyLoop (a : Names) (ks : List Int) : ∀ (d : Names) (k : Int),
    (copyLoop a ks d).get k = if k ∈ ks then some ((a.get k).getD []) else d.get k := by
  induction ks with
  | nil => intro d k; simp [copyLoop]
  | cons k₀ ks ih =>
    intro d k
    rw [copyLoop, ih, GoMap.get_set]
    by_cases h : k ∈ ks
    · simp [h]
    · by_cases h' : k = k₀
      · subst h'; simp [h]
      · simp [h, h']

theorem get_delete {V : Type} (m : GoMap Int V) (k k' : Int) :
    GoMap.get (delete m k) k' = if k' = k then none else GoMap.get m k' := GoMap.get_filter_ne m k k'

theorem compareLoop_spec (ks : List Int) : ∀ (a b : Names) (ms : GoMap Int (Str × Str)), ks.Nodup →
    (∀ k ∈ ks, ms.get k = none) →
    ∀ k, (compareLoop ks a b ms).1.get k = (if k ∈ ks ∧ (b.get k).isSome then none else a.get k) ∧
      (compareLoop ks a b ms).2.1.get k = (if k ∈ ks ∧ (a.get k).isSome then none else b.get k) ∧
      (compareLoop ks a b ms).2.2.get k = (if k ∈ ks then
        match a.get k, b.get k with
        | some x, some y => if x ≠ y then some (x, y) else none
        | _, _ => none else ms.get k) := by
  induction ks with
  | nil => intro a b ms _ _ k; simp [compareLoop]
  | cons k₀ ks ih =>
    intro a b ms hn hms k
    rw [List.nodup_cons] at hn
    have hms' : ∀ k ∈ ks, ms.get k = none := fun k hk => hms k (by simp [hk])
    have h0 := hms k₀ (by simp)
    have same : (GoMap.get a k₀ = none ∨ GoMap.get b k₀ = none) →
        (compareLoop ks a b ms).1.get k = (if k ∈ k₀ :: ks ∧ (b.get k).isSome then none else a.get k) ∧
        (compareLoop ks a b ms).2.1.get k = (if k ∈ k₀ :: ks ∧ (a.get k).isSome then none else b.get k) ∧
        (compareLoop ks a b ms).2.2.get k = (if k ∈ k₀ :: ks then
          match a.get k, b.get k with
          | some x, some y => if x ≠ y then some (x, y) else none
          | _, _ => none else ms.get k) := by
      intro hab
      obtain ⟨h1, h2, h3⟩ := ih a b ms hn.2 hms' k
      rw [h1, h2, h3]
      by_cases hk : k = k₀
      · subst hk
        rcases hab with hab | hab
        · cases hb : GoMap.get b k <;> simp [hab, hn.1, h0]
        · cases ha : GoMap.get a k <;> simp [hab, hn.1, h0]
      · simp [hk]
    cases ha : GoMap.get a k₀ with
    | none => rw [compareLoop]; simp only [ha]; exact same (.inl ha)
    | some x =>
      cases hb : GoMap.get b k₀ with
      | none => rw [compareLoop]; simp only [ha, hb]; exact same (.inr hb)
      | some y =>
        rw [compareLoop]
        simp only [ha, hb]
        have hms2 : ∀ k ∈ ks, GoMap.get (if x ≠ y then ms.set k₀ (x, y) else ms) k = none := by
          intro k hk
          have : k ≠ k₀ := fun h => hn.1 (h ▸ hk)
          split
          · rw [GoMap.get_set, if_neg this]; exact hms' k hk
          · exact hms' k hk
        obtain ⟨h1, h2, h3⟩ := ih (delete a k₀) (delete b k₀) _ hn.2 hms2 k
        rw [h1, h2, h3]
        simp only [get_delete]
        by_cases hk : k = k₀
        · subst hk
          simp only [hn.1, false_and, if_false, if_true, List.mem_cons, true_or, hb, Option.isSome_some, and_self,
            ha, true_and]
          by_cases hxy : x = y
          · simp [hxy, h0]
          · simp [hxy, GoMap.get_set]
        · simp only [hk, if_false, List.mem_cons, false_or, true_and]
          split
          · rfl
          · split
            · rw [GoMap.get_set, if_neg hk]
            · rfl

theorem length_zero_iff {V : Type} (m : GoMap Int V) : m.length = 0 ↔ ∀ k, GoMap.get m k = none := by
  rw [List.length_eq_zero_iff]
  constructor
  · rintro rfl k; rfl
  · intro h
    cases m with
    | nil => rfl
    | cons e m =>
      have := h e.1
      simp [GoMap.get] at this

/-- `keys` lists the keys of the map, each once. -/
def KeysOf (m : Names) (keys : List Int) : Prop := keys.Nodup ∧ ∀ k, k ∈ keys ↔ (m.get k).isSome

/-- **C57.** `IsMapsIntStringEqual` says whether two maps hold the same entries, whatever the iteration
orders; the three result maps are the entries only in `a`, the entries only in `b`, and the keys in both with
different values. -/
theorem C57_map_equality (a b : Names) (ka kb kd : List Int) (ha : KeysOf a ka) (hb : KeysOf b kb)
    (hd : KeysOf a kd) :
    ((isMapsIntStringEqual ka kb kd a b).2.2.2 = true ↔ ∀ k, a.get k = b.get k) ∧
    (∀ k, (isMapsIntStringEqual ka kb kd a b).1.get k = if (b.get k).isSome then none else a.get k) ∧
    (∀ k, (isMapsIntStringEqual ka kb kd a b).2.1.get k = if (a.get k).isSome then none else b.get k) ∧
    (∀ k x y, (isMapsIntStringEqual ka kb kd a b).2.2.1.get k = some (x, y) ↔
      a.get k = some x ∧ b.get k = some y ∧ x ≠ y) := by
  have copy : ∀ (m : Names) (ks : List Int), KeysOf m ks → ∀ k, (copyLoop m ks []).get k = m.get k := by
    intro m ks h k
    rw [get_copyLoop]
    by_cases hk : k ∈ ks
    · obtain ⟨v, hv⟩ := Option.isSome_iff_exists.1 ((h.2 k).1 hk)
      simp [hk, hv]
    · have : m.get k = none := by
        cases hm : m.get k with
        | none => rfl
        | some v => exact (hk ((h.2 k).2 (by simp [hm]))).elim
      simp [hk, this]
  have spec := compareLoop_spec kd (copyLoop a ka []) (copyLoop b kb []) [] hd.1 (by simp)
  simp only [copy a ka ha, copy b kb hb, hd.2] at spec
  have h1 : ∀ k, (isMapsIntStringEqual ka kb kd a b).1.get k = if (b.get k).isSome then none else a.get k := by
    intro k
    refine (spec k).1.trans ?_
    cases a.get k <;> simp
  have h2 : ∀ k, (isMapsIntStringEqual ka kb kd a b).2.1.get k = if (a.get k).isSome then none else b.get k := by
    intro k
    refine (spec k).2.1.trans ?_
    simp
  have h3 : ∀ k x y, (isMapsIntStringEqual ka kb kd a b).2.2.1.get k = some (x, y) ↔
      a.get k = some x ∧ b.get k = some y ∧ x ≠ y := by
    intro k x y
    have := (spec k).2.2
    rw [show (isMapsIntStringEqual ka kb kd a b).2.2.1.get k = _ from this]
    cases hka : a.get k with
    | none => simp
    | some u =>
      cases hkb : b.get k with
      | none => simp
      | some v =>
        by_cases huv : u = v
        · subst huv
          simp only [Option.isSome_some, if_true, ne_eq, not_true, if_false, reduceCtorEq, Option.some.injEq, false_iff]
          rintro ⟨rfl, rfl, h⟩
          exact h rfl
        · simp only [Option.isSome_some, if_true, ne_eq, huv, not_false_eq_true, Option.some.injEq, Prod.mk.injEq]
          constructor
          · rintro ⟨rfl, rfl⟩; exact ⟨rfl, rfl, huv⟩
          · rintro ⟨rfl, rfl, _⟩; exact ⟨rfl, rfl⟩
  refine ⟨?_, h1, h2, h3⟩
  show decide _ = true ↔ _
  rw [decide_eq_true_eq, length_zero_iff, length_zero_iff, length_zero_iff]
  constructor
  · rintro ⟨e1, e2, e3⟩ k
    have e1 := (h1 k).symm.trans (e1 k)
    have e2 := (h2 k).symm.trans (e2 k)
    cases hka : a.get k with
    | none => simp [hka] at e2; exact e2.symm
    | some u =>
      cases hkb : b.get k with
      | none => simp [hka, hkb] at e1
      | some v =>
        by_cases huv : u = v
        · rw [huv]
        · have h4 := (h3 k u v).2 ⟨hka, hkb, huv⟩
          have h5 := e3 k
          rw [show (isMapsIntStringEqual ka kb kd a b).2.2.1.get k = _ from h5] at h4
          cases h4
  · intro h
    refine ⟨fun k => ?_, fun k => ?_, fun k => ?_⟩
    · refine (h1 k).trans ?_
      rw [h k]
      cases b.get k <;> simp
    · refine (h2 k).trans ?_
      rw [h k]
      cases b.get k <;> simp
    · cases hm : (compareLoop kd (copyLoop a ka []) (copyLoop b kb []) []).2.2.get k with
      | none => rfl
      | some xy =>
        obtain ⟨x, y⟩ := xy
        obtain ⟨e1, e2, e3⟩ := (h3 k x y).1 hm
        rw [h k, e2] at e1
        cases e1
        exact (e3 rfl).elim

/-- Two maps with one common entry, one clash, and one entry of their own each. -/
example : KeysOf [(1, b!"a"), (2, b!"b"), (3, b!"c")] [3, 1, 2] ∧
    isMapsIntStringEqual [1, 2, 3] [4, 2, 1] [3, 1, 2] [(1, b!"a"), (2, b!"b"), (3, b!"c")]
      [(1, b!"a"), (2, b!"x"), (4, b!"d")] = ([(3, b!"c")], [(4, b!"d")], [(2, (b!"b", b!"x"))], false) := by
  refine ⟨⟨by decide, fun k => ?_⟩, rfl⟩
  by_cases h1 : k = 1
  · subst h1; simp
  by_cases h2 : k = 2
  · subst h2; simp
  by_cases h3 : k = 3
  · subst h3; simp
  simp [Ne.symm h1, Ne.symm h2, Ne.symm h3, h1, h2, h3]

/-! ## Reference files -/

/-- The model reproduces `refTestFprintTreeNamed.bin` (test/cst). -/
example : fprintTreeNamed Golden.testTree Golden.testTreeNames Golden.testTreeText = .ok Golden.testTreePrinted := by
  decide +kernel

/-- The test grammars by name. -/
def refGrammar : String → Grammar
  | "or" => Golden.or
  | "resolvedLRecursive" => Golden.resolvedLRecursive
  | _ => Golden.linearMultiRule

/-- The model run of a test case: the printed tree and names map, or the message. -/
def refRun (g : Grammar) (input : Str) : Option (Except Str (Str × Str)) :=
  match fromGrammar id g with
  | .ok (tbl, names) =>
    match (Parser.mk tbl (some names)).parseFuel 200 (.string input) with
    | some (.ok t m) => some (.ok (fmtNode t, fmtNames m))
    | some (.err e) => some (.error e.render)
    | _ => none
  | _ => none

/-- The model reproduces all reference trees, names maps and messages in test/parser. -/
example : (Golden.parserRefs.all fun r => decide (refRun (refGrammar r.1) r.2.1 = some (.ok (r.2.2.1, r.2.2.2)))) = true ∧
    (Golden.parserErrors.all fun r => decide (refRun Golden.linearMultiRule r.1 = some (.error r.2))) = true :=
  ⟨by decide +kernel, by decide +kernel⟩

end LL1
