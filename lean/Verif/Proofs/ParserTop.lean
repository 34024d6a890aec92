import Verif.Proofs.ParserMore

/-!
# `Parse` in terms of `IsParse` / `StuckAt`; shape of derived trees
-/

namespace LL1

theorem hasEntry_length {tbl : Table} (h : tbl.HasEntry) : tbl.length ≠ 0 := by
  obtain ⟨row, hr⟩ := h
  intro h0
  have : tbl = [] := by simpa using h0
  subst this
  simp at hr

theorem parseFuel_eq {p : Parser} (he : p.table.HasEntry) {src : Source} {text : Str}
    (hr : readSource src = .ok text) (fuel : Nat) :
    p.parseFuel fuel src = runFuel p.table p.names text fuel initState := by
  obtain ⟨row, hrow⟩ := he
  unfold Parser.parseFuel
  rw [if_neg (hasEntry_length ⟨row, hrow⟩), hrow, hr]

theorem returns_det {p : Parser} {src : Source} {o o' : Outcome} (h : p.Returns src o)
    (h' : p.Returns src o') : o = o' := by
  obtain ⟨f, hf⟩ := h
  obtain ⟨g, hg⟩ := h'
  unfold Parser.parseFuel at hf hg
  split at hf
  · simp_all
  · rename_i hl
    rw [if_neg hl] at hg
    cases ht : p.table.get 0 with
    | none => simp_all
    | some r =>
      simp only [ht] at hf hg
      cases hr : readSource src with
      | error e => simp_all
      | ok text =>
        simp only [hr] at hf hg
        exact runFuel_det hf hg

theorem returns_parse {p : Parser} (he : p.table.HasEntry) {src : Source} {text : Str}
    (hr : readSource src = .ok text) {t : Node} (h : IsParse p.table text t) :
    p.Returns src (finish p.names t) := by
  obtain ⟨f, hf⟩ := run_of_isParse (names := p.names) h
  exact ⟨f, by rw [parseFuel_eq he hr]; exact hf⟩

theorem returns_stuck {p : Parser} (he : p.table.HasEntry) {src : Source} {text : Str}
    (hr : readSource src = .ok text) {k : Nat} {e : PErr} (h : StuckAt p.table p.names text k e) :
    p.Returns src (.err e) := by
  obtain ⟨f, hf⟩ := run_of_stuckAt h
  exact ⟨f, by rw [parseFuel_eq he hr]; exact hf⟩

theorem returns_cases {p : Parser} (he : p.table.HasEntry) (hpub : p.table.Public) {src : Source}
    {text : Str} (hr : readSource src = .ok text) {o : Outcome} (h : p.Returns src o) :
    (∃ t, IsParse p.table text t ∧ o = finish p.names t) ∨
    (∃ k e, StuckAt p.table p.names text k e ∧ o = .err e) := by
  obtain ⟨f, hf⟩ := h
  rw [parseFuel_eq he hr] at hf
  exact run_init hpub hf

theorem finish_not_err {names : Option Names} {t : Node} {e : PErr} : finish names t ≠ .err e := by
  cases names <;> simp [finish]

theorem returns_err_iff {p : Parser} (he : p.table.HasEntry) (hpub : p.table.Public) {src : Source}
    {text : Str} (hr : readSource src = .ok text) {e : PErr} :
    p.Returns src (.err e) ↔ ∃ k, StuckAt p.table p.names text k e := by
  constructor
  · intro h
    rcases returns_cases he hpub hr h with ⟨t, _, ho⟩ | ⟨k, e', hs, ho⟩
    · exact absurd ho.symm finish_not_err
    · cases ho; exact ⟨k, hs⟩
  · rintro ⟨k, hs⟩; exact returns_stuck he hr hs

theorem returns_ok_iff {p : Parser} (he : p.table.HasEntry) (hpub : p.table.Public) {src : Source}
    {text : Str} (hr : readSource src = .ok text) {t : Node} {m' : Names} :
    p.Returns src (.ok t m') ↔
      IsParse p.table text t ∧ ∃ m, p.names = some m ∧ m' = addBuiltinNames m := by
  constructor
  · intro h
    rcases returns_cases he hpub hr h with ⟨t', ht, ho⟩ | ⟨k, e', hs, ho⟩
    · cases hn : p.names with
      | none => rw [hn] at ho; simp [finish] at ho
      | some m =>
        rw [hn] at ho
        simp only [finish, Outcome.ok.injEq] at ho
        obtain ⟨rfl, rfl⟩ := ho
        exact ⟨ht, m, rfl, rfl⟩
    · cases ho
  · rintro ⟨ht, m, hn, rfl⟩
    have := returns_parse he hr ht
    rw [hn] at this
    exact this

theorem diverges_iff {p : Parser} {src : Source} : p.Diverges src ↔ ∀ o, ¬ p.Returns src o := by
  constructor
  · rintro h o ⟨f, hf⟩
    rw [h f] at hf
    cases hf
  · intro h f
    cases ho : p.parseFuel f src with
    | none => rfl
    | some o => exact absurd ⟨f, ho⟩ (h o)

theorem diverges_iff' {p : Parser} (he : p.table.HasEntry) (hpub : p.table.Public) {src : Source}
    {text : Str} (hr : readSource src = .ok text) :
    p.Diverges src ↔ (∀ t, ¬ IsParse p.table text t) ∧ (∀ k e, ¬ StuckAt p.table p.names text k e) := by
  rw [diverges_iff]
  constructor
  · intro h
    exact ⟨fun t ht => h _ (returns_parse he hr ht), fun k e hs => h _ (returns_stuck he hr hs)⟩
  · rintro ⟨h1, h2⟩ o ho
    rcases returns_cases he hpub hr ho with ⟨t, ht, _⟩ | ⟨k, e, hs, _⟩
    · exact h1 t ht
    · exact h2 k e hs

/-! ## Shape of trees -/

@[simp] theorem preorder_mk (t : Int) (s e : Nat) (cs : List Node) :
    preorder (.mk t s e cs) = .mk t s e cs :: (cs.map preorder).flatten := by rw [preorder]

theorem mem_preorder_nothing {i : Nat} {n : Node} (h : n ∈ preorder (nothingNode i)) : n = nothingNode i := by
  simpa [nothingNode] using h

variable {tbl : Table} {names : Option Names} {src : Str}

theorem Derives.tiles {ops : List ParserOp} {i j : Nat} {cs : List Node}
    (h : Derives tbl src ops i j cs) : Tiles i cs j := by
  induction h with
  | nil => rfl
  | lit hl hd ih => exact ⟨rfl, ih⟩
  | nt hb hd1 hd2 ih1 ih2 => exact ⟨rfl, ih2⟩

/-- A property of nodes that holds of the marker nodes, the literal nodes and the non-terminal nodes
of all sub-derivations holds of all nodes. -/
theorem Derives.forall_nodes {Q : Node → Prop}
    (hnothing : ∀ i, Q (nothingNode i))
    (hlit : ∀ s i, LitAt src s i → Q (literalNode s i))
    (hnt : ∀ n i j body cs, bodyFor tbl n (byteAt src i) = some body → Derives tbl src body i j cs →
      Q (ntNode n i j body cs))
    {ops : List ParserOp} {i j : Nat} {cs : List Node} (h : Derives tbl src ops i j cs) :
    ∀ n ∈ (cs.map preorder).flatten, Q n := by
  induction h with
  | nil => simp
  | @lit s ops i j cs hl hd ih =>
    intro n hn
    simp only [List.map_cons, List.flatten_cons, List.mem_append] at hn
    rcases hn with hn | hn
    · simp only [literalNode, preorder_mk, List.mem_cons] at hn
      rcases hn with rfl | hn
      · exact hlit s i hl
      · by_cases hs : s = []
        · simp only [hs, if_true, List.map_cons, List.map_nil, List.flatten_cons, List.flatten_nil,
            List.append_nil] at hn
          rw [mem_preorder_nothing hn]
          exact hnothing i
        · simp [hs] at hn
    · exact ih n hn
  | @nt n body ops i j k cs ds hb hd1 hd2 ih1 ih2 =>
    intro m hm
    simp only [List.map_cons, List.flatten_cons, List.mem_append] at hm
    rcases hm with hm | hm
    · simp only [ntNode, preorder_mk, List.mem_cons] at hm
      rcases hm with rfl | hm
      · exact hnt n i j body cs hb hd1
      · by_cases hs : body = []
        · simp only [hs, if_true, List.map_cons, List.map_nil, List.flatten_cons, List.flatten_nil,
            List.append_nil] at hm
          rw [mem_preorder_nothing hm]
          exact hnothing i
        · simp only [hs, if_false] at hm
          exact ih1 m hm
    · exact ih2 m hm

/-- The same with the end bound of NUL-free tables available. -/
theorem Derives.forall_nodes_bound (hnf : Table.NulFree tbl) {Q : Node → Prop}
    (hnothing : ∀ i, i ≤ src.length → Q (nothingNode i))
    (hlit : ∀ s i, i + s.length ≤ src.length → LitAt src s i → Q (literalNode s i))
    (hnt : ∀ n i j body cs, j ≤ src.length → bodyFor tbl n (byteAt src i) = some body →
      Derives tbl src body i j cs → Q (ntNode n i j body cs))
    {ops : List ParserOp} {i j : Nat} {cs : List Node} (h : Derives tbl src ops i j cs)
    (ho : OpsNulFree ops) (hi : i ≤ src.length) :
    ∀ n ∈ (cs.map preorder).flatten, Q n := by
  induction h with
  | nil => simp
  | @lit s ops i j cs hl hd ih =>
    have hb := litAt_bound hl (ho s List.mem_cons_self) hi
    intro n hn
    simp only [List.map_cons, List.flatten_cons, List.mem_append] at hn
    rcases hn with hn | hn
    · simp only [literalNode, preorder_mk, List.mem_cons] at hn
      rcases hn with rfl | hn
      · exact hlit s i hb hl
      · by_cases hs : s = []
        · simp only [hs, if_true, List.map_cons, List.map_nil, List.flatten_cons, List.flatten_nil,
            List.append_nil] at hn
          rw [mem_preorder_nothing hn]
          exact hnothing i hi
        · simp [hs] at hn
    · exact ih (fun s hs => ho s (List.mem_cons_of_mem _ hs)) hb n hn
  | @nt n body ops i j k cs ds hb hd1 hd2 ih1 ih2 =>
    have hbn := bodyFor_nulFree hnf hb
    have hj := hd1.bound hnf hbn hi
    intro m hm
    simp only [List.map_cons, List.flatten_cons, List.mem_append] at hm
    rcases hm with hm | hm
    · simp only [ntNode, preorder_mk, List.mem_cons] at hm
      rcases hm with rfl | hm
      · exact hnt n i j body cs hj hb hd1
      · by_cases hs : body = []
        · simp only [hs, if_true, List.map_cons, List.map_nil, List.flatten_cons, List.flatten_nil,
            List.append_nil] at hm
          rw [mem_preorder_nothing hm]
          exact hnothing i hi
        · simp only [hs, if_false] at hm
          exact ih1 hbn hi m hm
    · exact ih2 (fun s hs => ho s (List.mem_cons_of_mem _ hs)) hj m hm

theorem slice_append (src : Str) {i j k : Nat} (h1 : i ≤ j) (h2 : j ≤ k) :
    slice src i j ++ slice src j k = slice src i k := by
  unfold slice
  rw [show k - i = (j - i) + (k - j) by omega, List.take_add, List.drop_drop]
  congr 3
  omega

theorem slice_self (src : Str) (i : Nat) : slice src i i = [] := by simp [slice]

theorem filter_flatten_map (f : Node → List Node) (p : Node → Bool) (cs : List Node) :
    ((cs.map f).flatten).filter p = (cs.map (fun c => (f c).filter p)).flatten := by
  induction cs with
  | nil => rfl
  | cons c cs ih => simp [ih]

theorem leaves_mk (t : Int) (s e : Nat) (cs : List Node) :
    leaves (.mk t s e cs) = if cs = [] then [.mk t s e cs] else (cs.map leaves).flatten := by
  unfold leaves
  rw [preorder_mk]
  by_cases h : cs = []
  · subst h; simp
  · rw [if_neg h, List.filter_cons_of_neg (by simpa using h), filter_flatten_map]

theorem Derives.leaves_spell {ops : List ParserOp} {i j : Nat} {cs : List Node}
    (h : Derives tbl src ops i j cs) :
    (((cs.map leaves).flatten).map (fun n => slice src n.pos n.stop)).flatten = slice src i j := by
  induction h with
  | nil => simp [slice_self]
  | @lit s ops i j cs hl hd ih =>
    rw [← slice_append src (Nat.le_add_right i s.length) hd.le, ← ih]
    simp only [List.map_cons, List.flatten_cons, List.map_append, List.flatten_append]
    congr 1
    by_cases hs : s = []
    · subst hs
      simp [literalNode, leaves_mk, nothingNode, slice_self]
    · simp [literalNode, leaves_mk, hs]
  | @nt n body ops i j k cs ds hb hd1 hd2 ih1 ih2 =>
    rw [← slice_append src hd1.le hd2.le, ← ih2]
    simp only [List.map_cons, List.flatten_cons, List.map_append, List.flatten_append]
    congr 1
    by_cases hs : body = []
    · subst hs
      obtain ⟨rfl, rfl⟩ := hd1.nil_inv
      simp [ntNode, leaves_mk, nothingNode, slice_self]
    · have : cs ≠ [] := by
        intro h
        have hl := hd1.length
        subst h
        exact hs (List.eq_nil_of_length_eq_zero hl.symm)
      simp only [ntNode, hs, if_false, leaves_mk, this]
      exact ih1

end LL1
