import Verif.Proofs.FromCst
import Verif.Props.Parser
import Verif.Spec.Bnf
import Verif.Proofs.ByteSet

/-!
# From trees to grammars (C43, C44, C47, C48)
-/

namespace LL1
namespace FC

open Read (each)

/-! ## `topmost`, by addresses -/

mutual
theorem mem_topmost_aux (skip hit : Int → Bool) (t n : Node) :
    n ∈ topmost skip hit t ↔
      ∃ path, nodeAt t path = some n ∧ hit n.type = true ∧
        (∀ k ≤ path.length, ∀ m, nodeAt t (path.take k) = some m → skip m.type = false) ∧
        (∀ k < path.length, ∀ m, nodeAt t (path.take k) = some m → hit m.type = false) := by
  cases t with
  | mk ty p q cs =>
    rw [topmost_mk]
    by_cases h1 : skip ty = true
    · simp only [h1, if_true, List.not_mem_nil, false_iff]
      rintro ⟨path, -, -, h, -⟩
      have := h 0 (Nat.zero_le _) (.mk ty p q cs) (by simp [nodeAt])
      simp [h1] at this
    · simp only [h1, Bool.false_eq_true, if_false]
      have h1' : skip ty = false := by simpa using h1
      by_cases h2 : hit ty = true
      · simp only [h2, if_true, List.mem_singleton]
        constructor
        · rintro rfl
          refine ⟨[], by simp [nodeAt], h2, ?_, by simp⟩
          intro k hk m hm
          simp [nodeAt] at hm
          subst hm; exact h1'
        · rintro ⟨path, hn, -, -, hh⟩
          cases path with
          | nil => simp [nodeAt] at hn; exact hn.symm
          | cons k path =>
            have := hh 0 (by simp) (.mk ty p q cs) (by simp [nodeAt])
            simp [h2] at this
      · simp only [h2, Bool.false_eq_true, if_false]
        have h2' : hit ty = false := by simpa using h2
        rw [mem_topmostList_aux skip hit cs n]
        constructor
        · rintro ⟨i, c, hc, path, hn, hh, hs, hp⟩
          refine ⟨i :: path, by simpa [nodeAt, Node.childs, hc] using hn, hh, ?_, ?_⟩
          · intro k hk m hm
            cases k with
            | zero => simp [nodeAt] at hm; subst hm; exact h1'
            | succ k =>
              simp only [List.take_succ_cons, nodeAt, Node.childs, hc] at hm
              exact hs k (by simpa using hk) m hm
          · intro k hk m hm
            cases k with
            | zero => simp [nodeAt] at hm; subst hm; exact h2'
            | succ k =>
              simp only [List.take_succ_cons, nodeAt, Node.childs, hc] at hm
              exact hp k (by simpa using hk) m hm
        · rintro ⟨path, hn, hh, hs, hp⟩
          cases path with
          | nil =>
            simp [nodeAt] at hn
            subst hn
            simp [h2'] at hh
          | cons i path =>
            simp only [nodeAt, Node.childs] at hn
            cases hc : cs[i]? with
            | none => simp [hc] at hn
            | some c =>
              simp only [hc] at hn
              refine ⟨i, c, hc, path, hn, hh, ?_, ?_⟩
              · intro k hk m hm
                exact hs (k + 1) (by simpa using hk) m (by simpa [nodeAt, Node.childs, hc] using hm)
              · intro k hk m hm
                exact hp (k + 1) (by simpa using hk) m (by simpa [nodeAt, Node.childs, hc] using hm)
theorem mem_topmostList_aux (skip hit : Int → Bool) (cs : List Node) (n : Node) :
    n ∈ (cs.map (topmost skip hit)).flatten ↔
      ∃ (i : Nat) (c : Node), cs[i]? = some c ∧ ∃ path, nodeAt c path = some n ∧ hit n.type = true ∧
        (∀ k ≤ path.length, ∀ m, nodeAt c (path.take k) = some m → skip m.type = false) ∧
        (∀ k < path.length, ∀ m, nodeAt c (path.take k) = some m → hit m.type = false) := by
  cases cs with
  | nil => simp
  | cons c cs =>
    rw [List.map_cons, List.flatten_cons, List.mem_append, mem_topmost_aux skip hit c n,
      mem_topmostList_aux skip hit cs n]
    constructor
    · rintro (h | ⟨i, c', hc, h⟩)
      · exact ⟨0, c, rfl, h⟩
      · exact ⟨i + 1, c', by simpa using hc, h⟩
    · rintro ⟨i, c', hc, h⟩
      cases i with
      | zero => simp at hc; subst hc; exact .inl h
      | succ i => exact .inr ⟨i, c', by simpa using hc, h⟩
end

/-- **C43 / C44.** What "topmost" means: a node is collected iff it is of the type looked for, neither it
nor any node above it is of a skipped type, and no node above it is of the type looked for. -/
theorem C43_topmost (skip hit : Int → Bool) (t n : Node) :
    n ∈ topmost skip hit t ↔
      ∃ path, nodeAt t path = some n ∧ hit n.type = true ∧
        (∀ k ≤ path.length, ∀ m, nodeAt t (path.take k) = some m → skip m.type = false) ∧
        (∀ k < path.length, ∀ m, nodeAt t (path.take k) = some m → hit m.type = false) :=
  mem_topmost_aux skip hit t n

mutual
theorem topmost_sublist_aux (skip hit : Int → Bool) (t : Node) :
    List.Sublist (topmost skip hit t) (preorder t) := by
  cases t with
  | mk ty p q cs =>
    rw [topmost_mk, preorder]
    split
    · exact List.nil_sublist _
    · split
      · exact (List.nil_sublist _).cons_cons _
      · exact (topmostList_sublist_aux skip hit cs).cons _
theorem topmostList_sublist_aux (skip hit : Int → Bool) (cs : List Node) :
    List.Sublist ((cs.map (topmost skip hit)).flatten) ((cs.map preorder).flatten) := by
  cases cs with
  | nil => exact List.Sublist.refl _
  | cons c cs =>
    rw [List.map_cons, List.map_cons, List.flatten_cons, List.flatten_cons]
    exact (topmost_sublist_aux skip hit c).append (topmostList_sublist_aux skip hit cs)
end

/-- **C44.** Collected nodes are in the order of the tree. -/
theorem C44_topmost_order (skip hit : Int → Bool) (t : Node) :
    List.Sublist (topmost skip hit t) (preorder t) := topmost_sublist_aux skip hit t

/-! ## C44 -/

/-- **C44.** `ToAST` is the direct reading of the tree (`Read.grammar`), where the skipped types are the
members of `IgnoreNodeTypes`. -/
theorem C44_reads (b : Bindings) (root : Node) (str : Str) :
    b.toAST root str = Read.grammar (fun t => decide (t ∈ b.ignoreNodeTypes)) b str root :=
  toAST_eq b root str

theorem each_eq_ok {α : Type} {f : Node → R α} {ns : List Node} {as : List α} :
    each f ns = .ok as ↔ AllPairs (fun n a => f n = .ok a) ns as := by
  induction ns generalizing as with
  | nil =>
    constructor
    · intro h; simp [each] at h; subst h; exact .nil
    · intro h; cases h; rfl
  | cons n ns ih =>
    rw [each, Res.bind_eq_ok]
    constructor
    · rintro ⟨a, ha, h⟩
      rw [Res.bind_eq_ok] at h
      obtain ⟨as', has, h⟩ := h
      simp at h
      subst h
      exact .cons ha (ih.1 has)
    · intro h
      cases h with
      | cons ha has => exact ⟨_, ha, Res.bind_eq_ok.2 ⟨_, ih.2 has, rfl⟩⟩

theorem each_eq_err {α : Type} {f : Node → R α} {ns : List Node} {e : Err} :
    each f ns = .err e ↔
      ∃ pre n post, ns = pre ++ n :: post ∧ (∀ m ∈ pre, ∃ a, f m = .ok a) ∧ f n = .err e := by
  induction ns with
  | nil => simp [each]
  | cons n ns ih =>
    rw [each, Res.bind_eq_err]
    constructor
    · rintro (h | ⟨a, ha, h⟩)
      · exact ⟨[], n, ns, rfl, by simp, h⟩
      · rw [Res.bind_eq_err] at h
        rcases h with h | ⟨_, _, h⟩
        · obtain ⟨pre, m, post, rfl, hp, hm⟩ := ih.1 h
          exact ⟨n :: pre, m, post, rfl, fun y hy => by
            rcases List.mem_cons.1 hy with rfl | hy
            · exact ⟨a, ha⟩
            · exact hp y hy, hm⟩
        · simp at h
    · rintro ⟨pre, m, post, h, hp, hm⟩
      cases pre with
      | nil =>
        simp at h
        obtain ⟨rfl, rfl⟩ := h
        exact .inl hm
      | cons x pre =>
        simp at h
        obtain ⟨rfl, rfl⟩ := h
        obtain ⟨a, ha⟩ := hp n (by simp)
        refine .inr ⟨a, ha, ?_⟩
        rw [Res.bind_eq_err]
        exact .inl (ih.2 ⟨pre, m, post, rfl, fun y hy => hp y (by simp [hy]), hm⟩)

theorem each_eq_panic {α : Type} {f : Node → R α} {ns : List Node} {p : Panic} :
    each f ns = .panic p → ∃ n ∈ ns, f n = .panic p := by
  induction ns with
  | nil => simp [each]
  | cons n ns ih =>
    rw [each, Res.bind_eq_panic]
    rintro (h | ⟨a, ha, h⟩)
    · exact ⟨n, by simp, h⟩
    · rw [Res.bind_eq_panic] at h
      rcases h with h | ⟨_, _, h⟩
      · obtain ⟨m, hm, h⟩ := ih h
        exact ⟨m, by simp [hm], h⟩
      · simp at h

theorem each_length {α : Type} {R : Node → α → Prop} {ns : List Node} {as : List α} (h : AllPairs R ns as) :
    ns.length = as.length := by
  induction h with
  | nil => rfl
  | cons _ _ ih => simp [ih]

section
variable (skip : Int → Bool) (b : Bindings) (str : Str)

/-- What it means that a node was read as an alternative, part by part. -/
theorem sequence_ok_iff (n : Node) (s : Sequence) : Read.sequence skip b str n = .ok s ↔
    AllPairs (fun m y => Read.symbol skip b str m = .ok y) (Read.allOf skip b.sequencesSymbolType n) s.symbols := by
  unfold Read.sequence
  rw [Res.bind_eq_ok]
  constructor
  · rintro ⟨as, h, h'⟩
    simp at h'; subst h'
    exact each_eq_ok.1 h
  · intro h
    exact ⟨s.symbols, each_eq_ok.2 h, rfl⟩

theorem substitution_ok_iff (n : Node) (s : Substitution) : Read.substitution skip b str n = .ok s ↔
    AllPairs (fun m y => Read.sequence skip b str m = .ok y) (Read.allOf skip b.expressionSequencesType n)
      s.sequences := by
  unfold Read.substitution
  rw [Res.bind_eq_ok]
  constructor
  · rintro ⟨as, h, h'⟩
    simp at h'; subst h'
    exact each_eq_ok.1 h
  · intro h
    exact ⟨s.sequences, each_eq_ok.2 h, rfl⟩

theorem rule_ok_iff (n : Node) (r : Rule) : Read.rule skip b str n = .ok r ↔
    ∃ h e, Read.firstOf skip b.ruleHeadType n = some h ∧ Read.text h str = .ok r.head ∧
      Read.firstOf skip b.ruleTailType n = some e ∧ Read.substitution skip b str e = .ok r.tail := by
  unfold Read.rule
  cases Read.firstOf skip b.ruleHeadType n with
  | none => simp [Res.bind_eq_ok]
  | some h =>
    simp only [Option.some.injEq]
    rw [Res.bind_eq_ok]
    cases Read.firstOf skip b.ruleTailType n with
    | none => simp [Res.bind_eq_ok]
    | some e =>
      simp only [Option.some.injEq, Res.bind_eq_ok, Res.pure_eq, Res.ok.injEq]
      constructor
      · rintro ⟨hd, h1, tl, h2, rfl⟩
        exact ⟨h, e, rfl, h1, rfl, h2⟩
      · rintro ⟨h', e', rfl, h1, rfl, h2⟩
        exact ⟨_, h1, _, h2, rfl⟩

theorem grammar_ok_iff (n : Node) (g : Grammar) : Read.grammar skip b str n = .ok g ↔
    AllPairs (fun m y => Read.rule skip b str m = .ok y) (Read.allOf skip b.ruleType n) g.rules := by
  unfold Read.grammar
  rw [Res.bind_eq_ok]
  constructor
  · rintro ⟨as, h, h'⟩
    simp at h'; subst h'
    exact each_eq_ok.1 h
  · intro h
    exact ⟨g.rules, each_eq_ok.2 h, rfl⟩
end

/-- **C44.** `ToAST` returns the grammar `g` iff its rules correspond, one by one and in order, to the
topmost rule nodes; the head of each is the text of its first head node, and the alternatives correspond one
by one to the topmost alternative nodes of its first tail node, and their symbols to the topmost symbol
nodes of those. -/
theorem C44_order_and_count (b : Bindings) (root : Node) (str : Str) (g : Grammar) :
    let skip : Int → Bool := fun t => decide (t ∈ b.ignoreNodeTypes)
    b.toAST root str = .ok g ↔
    AllPairs (fun n r =>
        ∃ h e, Read.firstOf skip b.ruleHeadType n = some h ∧ Read.text h str = .ok r.head ∧
          Read.firstOf skip b.ruleTailType n = some e ∧
          AllPairs (fun m s =>
              AllPairs (fun k y => Read.symbol skip b str k = .ok y)
                (Read.allOf skip b.sequencesSymbolType m) s.symbols)
            (Read.allOf skip b.expressionSequencesType e) r.tail.sequences)
      (Read.allOf skip b.ruleType root) g.rules := by
  intro skip
  rw [C44_reads, grammar_ok_iff]
  have h1 : ∀ n r, (Read.rule skip b str n = .ok r) = (∃ h e, Read.firstOf skip b.ruleHeadType n = some h ∧
      Read.text h str = .ok r.head ∧ Read.firstOf skip b.ruleTailType n = some e ∧
          AllPairs (fun m s =>
              AllPairs (fun k y => Read.symbol skip b str k = .ok y)
                (Read.allOf skip b.sequencesSymbolType m) s.symbols)
            (Read.allOf skip b.expressionSequencesType e) r.tail.sequences) := by
    intro n r
    simp only [rule_ok_iff, substitution_ok_iff, sequence_ok_iff]
  have h2 : (fun n r => Read.rule skip b str n = .ok r) = _ := funext fun n => funext fun r => h1 n r
  show AllPairs (fun n r => Read.rule skip b str n = .ok r) _ _ ↔ _
  rw [h2]

/-- **C44.** An error is the error of the first rule node that cannot be read. -/
theorem C44_first_error (b : Bindings) (root : Node) (str : Str) (e : Err) :
    let skip : Int → Bool := fun t => decide (t ∈ b.ignoreNodeTypes)
    b.toAST root str = .err e ↔
      ∃ pre n post, Read.allOf skip b.ruleType root = pre ++ n :: post ∧
        (∀ m ∈ pre, ∃ r, Read.rule skip b str m = .ok r) ∧ Read.rule skip b str n = .err e := by
  intro skip
  rw [C44_reads]
  unfold Read.grammar
  rw [Res.bind_eq_err, ← each_eq_err]
  constructor
  · rintro (h | ⟨_, _, h⟩)
    · exact h
    · simp at h
  · exact .inl

/-- **C44.** `ToAST` always returns (or panics), and its internal "search complete" never gets out. -/
theorem C44_returns (b : Bindings) (root : Node) (str : Str) :
    b.toAST root str ≠ .diverge ∧ b.toAST root str ≠ .err .searchComplete := by
  rw [C44_reads]
  exact clean_bind (clean_each (clean_rule _ b str) _) fun _ => clean_ok _

/-! ## C43 -/

/-- **C43.** Only which types are listed in `IgnoreNodeTypes` matters, not their order or multiplicity. -/
theorem C43_set (b : Bindings) (l : List Int) (h : ∀ t, t ∈ l ↔ t ∈ b.ignoreNodeTypes) (root : Node) (str : Str) :
    ({ b with ignoreNodeTypes := l } : Bindings).toAST root str = b.toAST root str := by
  rw [C44_reads, C44_reads]
  have : (fun t => decide (t ∈ ({ b with ignoreNodeTypes := l } : Bindings).ignoreNodeTypes)) =
      fun t => decide (t ∈ b.ignoreNodeTypes) := by
    funext t
    exact decide_eq_decide.2 (h t)
  rw [this]
  unfold Read.grammar
  rw [rule_ig]

/-- Unordered and duplicated lists qualify (the code sorts before its binary search). -/
example (root : Node) (str : Str) :
    ({ selfBindings with ignoreNodeTypes := [25, 3, 24, 3] } : Bindings).toAST root str =
    ({ selfBindings with ignoreNodeTypes := [3, 24, 25] } : Bindings).toAST root str :=
  C43_set { selfBindings with ignoreNodeTypes := [3, 24, 25] } [25, 3, 24, 3] (by intro t; simp; omega) root str

/-- The in-place sort has an effect: a binary search in the unsorted list would miss listed types. -/
example : ({ selfBindings with ignoreNodeTypes := [25, 3] } : Bindings).isNodeIgnored 3 = false := by decide

/-! ## C47 -/

/-- **C47.** The text of a terminal is collected from the topmost nodes of type −1 (copied) and 16 (decoded),
without regard to `IgnoreNodeTypes`; any other bindings with the same escape lookup give the same text. -/
theorem C47_terminal_text (b : Bindings) (n : Node) (str : Str) :
    b.parseTerminalName n str =
      (each (fun c => if c.type = -1 then Read.text c str else b.parseEscape c str)
        (topmost (fun _ => false) (fun t => decide (t = 16 ∨ t = -1)) n) >>= fun parts => .ok parts.flatten) := by
  rw [parseTerminalName_eq]
  unfold Read.terminalName
  have h1 : (fun c => if c.type = -1 then Read.text c str else Read.escape b.isNodeIgnored b str c) =
      (fun c => if c.type = -1 then Read.text c str else b.parseEscape c str) := by
    funext c; rw [parseEscape_eq]
  have h2 : (fun t : Int => decide (t = 16) || decide (t = -1)) = (fun t : Int => decide (t = 16 ∨ t = -1)) := by
    funext t; simp
  rw [h1, h2]
  rfl

/-- **C47.** With `SelfCSTtoASTBindings` an escape letter decodes to the byte it stands for, and there are no
other escapes. -/
theorem C47_escapes (s : Str) :
    selfBindings.escapeMapping.get s =
      match s with
      | [c] => (escaped c).map (fun d => [d])
      | _ => none := by
  have : selfBindings.escapeMapping.get s =
      if [116] = s then some [9] else if [110] = s then some [10] else if [114] = s then some [13]
      else if [34] = s then some [34] else if [92] = s then some [92] else none := rfl
  rw [this]
  match s with
  | [] => simp
  | c :: d :: s => simp
  | [c] =>
    simp only [List.cons.injEq, and_true]
    revert c
    exact forall_byte (by decide +kernel)

/-- Changing the number of the escape-sequence node (as a differently numbered BNF grammar would) breaks
decoding: the node is then just walked through and its letters are copied. -/
example : let n : Node := .mk 11 0 2 [.mk 40 0 2 [.mk (-1) 0 1 [], .mk 17 1 2 [.mk (-1) 1 2 []]]]
    let n' : Node := .mk 11 0 2 [.mk 16 0 2 [.mk (-1) 0 1 [], .mk 17 1 2 [.mk (-1) 1 2 []]]]
    selfBindings.parseTerminalName n b!"\\n" = .ok b!"\\n" ∧
    selfBindings.parseTerminalName n' b!"\\n" = .ok b!"\n" := by decide

/-! ## C48 -/

/-- The only panic is a slice outside the text; it cannot happen if all nodes lie in the text. -/
theorem text_ne_panic {n : Node} {str : Str} (h : n.pos ≤ n.stop ∧ n.stop ≤ str.length) (p : Panic) :
    Read.text n str ≠ .panic p := by
  unfold Read.text
  rw [if_pos h]
  simp

section
variable {skip : Int → Bool} {b : Bindings} {str : Str}

def InText (str : Str) (n : Node) : Prop := ∀ m ∈ preorder n, m.pos ≤ m.stop ∧ m.stop ≤ str.length

theorem self_mem_preorder (n : Node) : n ∈ preorder n := by cases n; rw [preorder]; simp

theorem InText.here {n : Node} (h : InText str n) : n.pos ≤ n.stop ∧ n.stop ≤ str.length :=
  h n (self_mem_preorder n)

mutual
theorem preorder_trans_aux (t n m : Node) (h : n ∈ preorder t) (h' : m ∈ preorder n) : m ∈ preorder t := by
  cases t with
  | mk ty p q cs =>
    rw [preorder] at h ⊢
    rw [List.mem_cons] at h ⊢
    rcases h with rfl | h
    · rw [preorder, List.mem_cons] at h'
      exact h'
    · exact .inr (preorderList_trans_aux cs n m h h')
theorem preorderList_trans_aux (cs : List Node) (n m : Node) (h : n ∈ (cs.map preorder).flatten)
    (h' : m ∈ preorder n) : m ∈ (cs.map preorder).flatten := by
  cases cs with
  | nil => simp at h
  | cons c cs =>
    rw [List.map_cons, List.flatten_cons, List.mem_append] at h ⊢
    rcases h with h | h
    · exact .inl (preorder_trans_aux c n m h h')
    · exact .inr (preorderList_trans_aux cs n m h h')
end

theorem InText.topmost {n : Node} (h : InText str n) {sk hit : Int → Bool} {m : Node}
    (hm : m ∈ topmost sk hit n) : InText str m := by
  intro k hk
  exact h k (preorder_trans_aux n m k ((C44_topmost_order sk hit n).subset hm) hk)

theorem InText.first {n : Node} (h : InText str n) {ty : Int} {m : Node}
    (hm : Read.firstOf skip ty n = some m) : InText str m :=
  h.topmost (List.mem_of_mem_head? (by rw [Read.firstOf, Read.allOf] at hm; exact hm))

theorem escape_noPanic {n : Node} (h : InText str n) (p : Panic) : Read.escape skip b str n ≠ .panic p := by
  unfold Read.escape
  split
  · simp
  · rename_i c hc
    intro hp
    rcases Res.bind_eq_panic.1 hp with hp | ⟨s, _, hp⟩
    · exact text_ne_panic (h.first hc).here p hp
    · split at hp <;> simp at hp

theorem terminalName_noPanic {n : Node} (h : InText str n) (p : Panic) :
    Read.terminalName skip b str n ≠ .panic p := by
  unfold Read.terminalName
  intro hp
  rcases Res.bind_eq_panic.1 hp with hp | ⟨s, _, hp⟩
  · obtain ⟨m, hm, hp⟩ := each_eq_panic hp
    split at hp
    · exact text_ne_panic (h.topmost hm).here p hp
    · exact escape_noPanic (h.topmost hm) p hp
  · simp at hp

theorem symbol_noPanic {n : Node} (h : InText str n) (p : Panic) : Read.symbol skip b str n ≠ .panic p := by
  unfold Read.symbol
  split
  · rename_i c hc
    intro hp
    obtain ⟨ty, _, hc⟩ := List.exists_of_findSome?_eq_some hc
    rcases Res.bind_eq_panic.1 hp with hp | ⟨s, _, hp⟩
    · exact terminalName_noPanic (h.first hc) p hp
    · simp at hp
  · split
    · rename_i c hc
      intro hp
      rcases Res.bind_eq_panic.1 hp with hp | ⟨s, _, hp⟩
      · exact text_ne_panic (h.first hc).here p hp
      · simp at hp
    · intro hp
      rcases Res.bind_eq_panic.1 hp with hp | ⟨s, _, hp⟩
      · exact text_ne_panic h.here p hp
      · simp at hp

theorem sequence_noPanic {n : Node} (h : InText str n) (p : Panic) :
    Read.sequence skip b str n ≠ .panic p := by
  intro hp
  rcases Res.bind_eq_panic.1 hp with hp | ⟨s, _, hp⟩
  · obtain ⟨m, hm, hp⟩ := each_eq_panic hp
    exact symbol_noPanic (h.topmost hm) p hp
  · simp at hp

theorem substitution_noPanic {n : Node} (h : InText str n) (p : Panic) :
    Read.substitution skip b str n ≠ .panic p := by
  intro hp
  rcases Res.bind_eq_panic.1 hp with hp | ⟨s, _, hp⟩
  · obtain ⟨m, hm, hp⟩ := each_eq_panic hp
    exact sequence_noPanic (h.topmost hm) p hp
  · simp at hp

theorem rule_noPanic {n : Node} (h : InText str n) (p : Panic) : Read.rule skip b str n ≠ .panic p := by
  unfold Read.rule
  split
  · intro hp
    rcases Res.bind_eq_panic.1 hp with hp | ⟨s, _, hp⟩
    · exact text_ne_panic h.here p hp
    · simp at hp
  · rename_i c hc
    intro hp
    rcases Res.bind_eq_panic.1 hp with hp | ⟨s, _, hp⟩
    · exact text_ne_panic (h.first hc).here p hp
    · split at hp
      · rcases Res.bind_eq_panic.1 hp with hp | ⟨s, _, hp⟩
        · exact text_ne_panic h.here p hp
        · simp at hp
      · rename_i e he
        rcases Res.bind_eq_panic.1 hp with hp | ⟨s, _, hp⟩
        · exact substitution_noPanic (h.first he) p hp
        · simp at hp
end

/-- **C48.** If every node of the tree lies in the text, `ToAST` does not panic, whatever the bindings. -/
theorem C48_no_panic (b : Bindings) (root : Node) (str : Str)
    (h : ∀ n ∈ preorder root, n.pos ≤ n.stop ∧ n.stop ≤ str.length) (p : Panic) :
    b.toAST root str ≠ .panic p := by
  rw [C44_reads]
  intro hp
  rcases Res.bind_eq_panic.1 hp with hp | ⟨s, _, hp⟩
  · obtain ⟨m, hm, hp⟩ := each_eq_panic hp
    exact rule_noPanic (InText.topmost h hm) p hp
  · simp at hp

/-- **C48.** In particular for every tree returned by any NUL-free parser, with the text it was parsed from:
`ToAST` returns a grammar or an error. -/
theorem C48_no_panic_parsed (p : Parser) (he : p.table.HasEntry) (hpub : p.table.Public)
    (hnf : p.table.NulFree) (src : Source) (text : Str) (hr : readSource src = .ok text)
    (t : Node) (m : Names) (h : p.Returns src (.ok t m)) (b : Bindings) :
    (∃ g, b.toAST t text = .ok g) ∨ (∃ e, b.toAST t text = .err e) := by
  cases hx : b.toAST t text with
  | ok g => exact .inl ⟨g, rfl⟩
  | err e => exact .inr ⟨e, rfl⟩
  | panic q =>
    exact (C48_no_panic b t text (fun n hn =>
      ⟨(C10_tiling p he hpub src text hr t m h n hn).1, C10_in_bounds p he hpub hnf src text hr t m h n hn⟩) q hx).elim
  | diverge => exact ((C44_returns b t text).1 hx).elim

/-- With a text that is too short it does panic. -/
example : selfBindings.toAST (.mk 0 0 9 [.mk 4 0 9 [.mk 18 1 2 [], .mk 5 6 9 []]]) b!"<" = .panic .sliceBounds := by
  decide

/-- A tree with two rules, the second in an ignored subtree. -/
example : selfBindings.toAST (.mk 0 0 9 [.mk 4 0 9 [.mk 18 1 2 [], .mk 5 6 9 [.mk 7 6 9 [.mk 9 6 9
      [.mk 11 7 8 [.mk (-1) 7 8 []]]]]], .mk 25 9 9 [.mk 4 0 9 []]]) b!"<a>::=\"b\"" =
    .ok ⟨[⟨b!"a", ⟨[⟨[.terminal b!"b"]⟩]⟩⟩]⟩ := by decide

end FC
end LL1
