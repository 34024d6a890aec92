import Verif.Proofs.ParserTop

/-!
# C08–C16, C18–C21: `NewLL1Parser(table, names).Parse(src)`
-/

namespace LL1

/-- Example table used below: row 0 is `"(" <0> ")" | ""` (nested parentheses). -/
def parenTable : Table :=
  [(0, [(40, [.terminal [40], .nonTerminal 0, .terminal [41]]), (41, []), (0, [])])]

theorem parenTable_public : parenTable.Public := by
  intro n row b ops h1 h2 op hop
  simp only [parenTable, GoMap.get_cons, GoMap.get_nil] at h1
  split at h1
  · cases h1
    simp only [GoMap.get_cons, GoMap.get_nil] at h2
    repeat' split at h2
    all_goals first | cases h2 | skip
    all_goals simp at hop
    rcases hop with rfl | rfl | rfl <;> trivial
  · cases h1

theorem parenTable_nulFree : parenTable.NulFree := by
  intro n row b ops h1 h2 s hs
  simp only [parenTable, GoMap.get_cons, GoMap.get_nil] at h1
  split at h1
  · cases h1
    simp only [GoMap.get_cons, GoMap.get_nil] at h2
    repeat' split at h2
    all_goals first | cases h2 | skip
    all_goals simp at hs
    rcases hs with rfl | rfl <;> decide
  · cases h1

theorem parenTable_hasEntry : parenTable.HasEntry := ⟨_, rfl⟩

/-! ## C08 -/

theorem FailsAt.ne_prodStackEmpty {tbl : Table} {names : Option Names} {text : Str} {ops : List ParserOp}
    {i k : Nat} {e : PErr} (h : FailsAt tbl names text ops i k e) : e ≠ .prodStackEmpty := by
  induction h with
  | lit => simp
  | afterLit _ _ ih => exact ih
  | noBody =>
    unfold whyNot
    split
    · split <;> simp
    · split <;> simp
  | inside _ _ ih => exact ih
  | afterNt _ _ _ ih => exact ih


/-- **C08.** With public operations and a non-nil names map, `Parse` never panics: whatever it
returns is a tree or an error; and the internal error "prod stack empty" never occurs. -/
theorem C08_no_panic (tbl : Table) (m : Names) (hpub : tbl.Public) (src : Source) (o : Outcome)
    (h : (Parser.mk tbl (some m)).Returns src o) :
    (∃ t m', o = .ok t m') ∨ (∃ e, o = .err e ∧ e ≠ .prodStackEmpty) := by
  obtain ⟨f, hf⟩ := id h
  unfold Parser.parseFuel at hf
  split at hf
  · cases hf; exact Or.inr ⟨_, rfl, by simp⟩
  · cases ht : tbl.get 0 with
    | none => simp only [ht] at hf; cases hf; exact Or.inr ⟨_, rfl, by simp⟩
    | some row =>
      simp only [ht] at hf
      cases hr : readSource src with
      | error e =>
        simp only [hr] at hf; cases hf
        refine Or.inr ⟨_, rfl, ?_⟩
        rintro rfl
        cases src with
        | buffer b => cases b <;> simp [readSource] at hr
        | reader c e => cases e <;> simp [readSource] at hr
        | _ => simp [readSource] at hr
      | ok text =>
        rcases returns_cases (p := Parser.mk tbl (some m)) ⟨row, ht⟩ hpub hr h with
          ⟨t, _, ho⟩ | ⟨k, e, hs, ho⟩
        · exact Or.inl ⟨t, _, ho⟩
        · refine Or.inr ⟨e, ho, ?_⟩
          rintro rfl
          rcases hs with hf | ⟨_, _, _, h⟩
          · exact hf.ne_prodStackEmpty rfl
          · cases h

/-- **C08.** With a nil names map `Parse` never succeeds: it panics (assignment to entry in nil map)
exactly on the sources on which a parser with a names map would have succeeded, and nowhere else. -/
theorem C08_nil_names (tbl : Table) (hpub : tbl.Public) (src : Source) :
    (∀ t m', ¬ (Parser.mk tbl none).Returns src (.ok t m')) ∧
    (∀ m x, (Parser.mk tbl none).Returns src (.panic x) ↔
      x = .nilMapWrite ∧ ∃ t m', (Parser.mk tbl (some m)).Returns src (.ok t m')) := by
  -- outside the parsing loop both parsers behave identically and neither succeeds nor panics
  by_cases he : tbl.HasEntry
  · cases hr : readSource src with
    | error e =>
      obtain ⟨row, hrow⟩ := he
      have hpf : ∀ ns f, (Parser.mk tbl ns).parseFuel f src = some (.err e) := by
        intro ns f
        unfold Parser.parseFuel
        simp only [if_neg (hasEntry_length ⟨row, hrow⟩), hrow, hr]
      constructor
      · rintro t m' ⟨f, hf⟩; rw [hpf] at hf; cases hf
      · intro m x
        constructor
        · rintro ⟨f, hf⟩; rw [hpf] at hf; cases hf
        · rintro ⟨_, t, m', f, hf⟩; rw [hpf] at hf; cases hf
    | ok text =>
      constructor
      · intro t m' h
        obtain ⟨_, m, hm, _⟩ := (returns_ok_iff (p := Parser.mk tbl none) he hpub hr).1 h
        cases hm
      · intro m x
        constructor
        · intro h
          rcases returns_cases (p := Parser.mk tbl none) he hpub hr h with ⟨t, ht, ho⟩ | ⟨k, e, _, ho⟩
          · simp only [finish, Outcome.panic.injEq] at ho
            exact ⟨ho, t, _, (returns_ok_iff (p := Parser.mk tbl (some m)) he hpub hr).2 ⟨ht, m, rfl, rfl⟩⟩
          · cases ho
        · rintro ⟨rfl, t, m', h⟩
          have ht := ((returns_ok_iff (p := Parser.mk tbl (some m)) he hpub hr).1 h).1
          exact returns_parse (p := Parser.mk tbl none) he hr ht
  · have h0 : tbl.get 0 = none := by
      cases h : tbl.get 0 with
      | none => rfl
      | some r => exact absurd ⟨r, h⟩ he
    have hpf : ∀ ns f, ∃ e, (Parser.mk tbl ns).parseFuel f src = some (.err e) := by
      intro ns f
      unfold Parser.parseFuel
      by_cases hl : tbl.length = 0
      · simp only [if_pos hl]; exact ⟨_, rfl⟩
      · simp only [if_neg hl, h0]; exact ⟨_, rfl⟩
    have hno : ∀ ns o, (Parser.mk tbl ns).Returns src o → ∃ e, o = .err e := by
      rintro ns o ⟨f, hf⟩
      obtain ⟨e, he⟩ := hpf ns f
      rw [he] at hf; cases hf; exact ⟨e, rfl⟩
    constructor
    · intro t m' h; obtain ⟨e, h⟩ := hno _ _ h; cases h
    · intro m x
      constructor
      · intro h; obtain ⟨e, h⟩ := hno _ _ h; cases h
      · rintro ⟨_, t, m', h⟩; obtain ⟨e, h⟩ := hno _ _ h; cases h

/-- Both branches of `C08` occur: `()` is accepted, and the same call on a parser with nil names panics. -/
example : (Parser.mk parenTable (some [])).Returns (.string [40, 41])
    (.ok (.mk 0 0 2 [.mk (-1) 0 1 [], .mk 0 1 1 [.mk (-2) 1 1 []], .mk (-1) 1 2 []])
      (addBuiltinNames [])) := ⟨20, rfl⟩
example : (Parser.mk parenTable none).Returns (.string [40, 41]) (.panic .nilMapWrite) := ⟨20, rfl⟩
/-- A nil operation in the table (caller misuse) does panic. -/
example : (Parser.mk [(0, [(97, [.nil])])] (some [])).Returns (.string [97]) (.panic .nilOp) := ⟨20, rfl⟩

/-! ## C09 -/

/-- **C09.** The configuration checks, in their order, before any parsing. -/
theorem C09_config_errors (p : Parser) (src : Source) :
    (p.table = [] → ∀ o, p.Returns src o ↔ o = .err .emptyTable) ∧
    (p.table ≠ [] → p.table.get 0 = none → ∀ o, p.Returns src o ↔ o = .err .noEntry) ∧
    (p.table.HasEntry →
      (∀ o, p.Returns .nil o ↔ o = .err .emptySource) ∧
      (∀ o, p.Returns .other o ↔ o = .err .invalidSource) ∧
      (∀ o, p.Returns (.buffer none) o ↔ o = .err .invalidSource) ∧
      (∀ content e o, p.Returns (.reader content (some e)) o ↔ o = .err (.reader e))) := by
  have key : ∀ src' x, (∀ f, p.parseFuel f src' = some x) → ∀ o, p.Returns src' o ↔ o = x := by
    intro src' x h o
    constructor
    · rintro ⟨f, hf⟩; rw [h f] at hf; exact (Option.some.inj hf).symm
    · rintro rfl; exact ⟨0, h 0⟩
  refine ⟨fun h => key _ _ fun f => ?_, fun h h0 => key _ _ fun f => ?_, fun he => ?_⟩
  · simp [Parser.parseFuel, h]
  · have : p.table.length ≠ 0 := by simpa using h
    simp [Parser.parseFuel, this, h0]
  · obtain ⟨row, hrow⟩ := he
    have hl := hasEntry_length ⟨row, hrow⟩
    refine ⟨key _ _ fun f => ?_, key _ _ fun f => ?_, key _ _ fun f => ?_, fun content e => key _ _ fun f => ?_⟩ <;>
      simp [Parser.parseFuel, hl, hrow, readSource]

/-- The messages the errors of C09 carry. -/
theorem C09_messages :
    PErr.emptyTable.render = b!"empty parsing table" ∧
    PErr.noEntry.render = b!"can't start parsing: no rule for base entry point - 0" ∧
    PErr.emptySource.render = b!"empty source" ∧
    PErr.invalidSource.render = b!"invalid source" ∧
    ∀ e, (PErr.reader e).render = e := ⟨rfl, rfl, rfl, rfl, fun _ => rfl⟩

/-! ## C10 – C12 -/

/-- **C10.** In a returned tree every node has `Pos ≤ End` and its children, if any, tile it. -/
theorem C10_tiling (p : Parser) (he : p.table.HasEntry) (hpub : p.table.Public) (src : Source) (text : Str)
    (hr : readSource src = .ok text) (t : Node) (m : Names) (h : p.Returns src (.ok t m)) :
    ∀ n ∈ preorder t, n.pos ≤ n.stop ∧ (n.childs ≠ [] → Tiles n.pos n.childs n.stop) := by
  obtain ⟨⟨j, hd, _⟩, _⟩ := (returns_ok_iff he hpub hr).1 h
  have := hd.forall_nodes (Q := fun n => n.pos ≤ n.stop ∧ (n.childs ≠ [] → Tiles n.pos n.childs n.stop))
    (fun i => ⟨Nat.le_refl _, by simp [nothingNode]⟩)
    (fun s i _ => ⟨by simp [literalNode], fun _ => by
      by_cases hs : s = []
      · subst hs; simp [literalNode, Tiles, nothingNode]
      · simp_all [literalNode]⟩)
    (fun n i j body cs _ hd => ⟨hd.le, fun _ => by
      by_cases hs : body = []
      · subst hs
        have := hd.nil_inv.1
        subst this
        simp [ntNode, Tiles, nothingNode]
      · simpa [ntNode, hs] using hd.tiles⟩)
  simpa using this

/-- **C10.** With NUL-free literals no node of a returned tree reaches past the end of the source, so
slicing the source with a node's span cannot panic. -/
theorem C10_in_bounds (p : Parser) (he : p.table.HasEntry) (hpub : p.table.Public)
    (hnf : p.table.NulFree) (src : Source) (text : Str)
    (hr : readSource src = .ok text) (t : Node) (m : Names) (h : p.Returns src (.ok t m)) :
    ∀ n ∈ preorder t, n.stop ≤ text.length := by
  obtain ⟨⟨j, hd, _⟩, _⟩ := (returns_ok_iff he hpub hr).1 h
  have := hd.forall_nodes_bound (Q := fun n => n.stop ≤ text.length) hnf
    (fun i hi => hi) (fun s i hi _ => hi) (fun n i j body cs hj _ _ => hj)
    (by intro s hs; simp at hs) (Nat.zero_le _)
  simpa using this

/-- NUL-freeness is needed: with the literal `"\x00"` the root of an accepted empty source ends at 1. -/
example : (Parser.mk [(0, [(0, [.terminal [0]])])] (some [])).Returns (.string [])
    (.ok (.mk 0 0 1 [.mk (-1) 0 1 []]) (addBuiltinNames [])) := ⟨20, rfl⟩

/-- **C11.** The leaves of a returned tree, left to right, spell the source up to the root's end. -/
theorem C11_leaves_spell_source (p : Parser) (he : p.table.HasEntry) (hpub : p.table.Public)
    (src : Source) (text : Str)
    (hr : readSource src = .ok text) (t : Node) (m : Names) (h : p.Returns src (.ok t m)) :
    ((leaves t).map (fun n => slice text n.pos n.stop)).flatten = text.take t.stop := by
  obtain ⟨⟨j, hd, _⟩, _⟩ := (returns_ok_iff he hpub hr).1 h
  have h1 := hd.leaves_spell
  have h2 : t.stop = j := by
    have := hd.tiles
    simpa [Tiles] using this.2
  simp only [List.map_cons, List.map_nil, List.flatten_cons, List.flatten_nil, List.append_nil] at h1
  rw [h1, h2]
  simp [slice]

/-- How a child node answers an operation: a literal is a leaf of type −1 (with a single "nothing"
child if the literal is empty) whose slice of the source is the literal; a non-terminal is a node of
that type. -/
def Answers (text : Str) : ParserOp → Node → Prop
  | .terminal s, c => c.type = -1 ∧ slice text c.pos c.stop = s ∧ (s ≠ [] → c.childs = [])
  | .nonTerminal n, c => c.type = n
  | _, _ => False

theorem Derives.answers {tbl : Table} (hnf : tbl.NulFree) {text : Str} {ops : List ParserOp} {i j : Nat} {cs : List Node}
    (h : Derives tbl text ops i j cs) (ho : OpsNulFree ops) (hi : i ≤ text.length) :
    AllPairs (Answers text) ops cs := by
  induction h with
  | nil => exact .nil
  | @lit s ops i j cs hl hd ih =>
    have hb := litAt_bound hl (ho s List.mem_cons_self) hi
    refine .cons ⟨rfl, ?_, ?_⟩ (ih (fun s hs => ho s (List.mem_cons_of_mem _ hs)) hb)
    · exact litAt_slice hl hb
    · intro hs; simp [literalNode, hs]
  | @nt n body ops i j k cs ds hb hd1 hd2 ih1 ih2 =>
    have hbn := bodyFor_nulFree hnf hb
    exact .cons rfl (ih2 (fun s hs => ho s (List.mem_cons_of_mem _ hs)) (hd1.bound hnf hbn hi))

/-- **C11/C13 (local form).** Every node of a returned tree whose type is a row number `n` was built
from the cell `table[n][byte at Pos]`: if the cell is empty it spans nothing and has a single
"nothing" child, otherwise its children answer the cell's operations one by one, each literal child
spelling its literal. -/
theorem C11_nodes_follow_cells (p : Parser) (he : p.table.HasEntry) (hpub : p.table.Public)
    (hnf : p.table.NulFree) (src : Source) (text : Str)
    (hr : readSource src = .ok text) (t : Node) (m : Names) (h : p.Returns src (.ok t m)) :
    ∀ n ∈ preorder t, 0 ≤ n.type →
      ∃ row body, p.table.get n.type = some row ∧ GoMap.get row (byteAt text n.pos) = some body ∧
        (body = [] → n.stop = n.pos ∧ n.childs = [.mk (-2) n.pos n.pos []]) ∧
        (body ≠ [] → AllPairs (Answers text) body n.childs) := by
  obtain ⟨⟨j, hd, _⟩, _⟩ := (returns_ok_iff he hpub hr).1 h
  -- collect all sub-derivations together with their bounds
  have := hd.forall_nodes_bound hnf (Q := fun n => 0 ≤ n.type →
      ∃ row body, p.table.get n.type = some row ∧ GoMap.get row (byteAt text n.pos) = some body ∧
        (body = [] → n.stop = n.pos ∧ n.childs = [.mk (-2) n.pos n.pos []]) ∧
        (body ≠ [] → AllPairs (Answers text) body n.childs))
    (fun i _ h => by simp [nothingNode] at h)
    (fun s i _ _ h => by simp [literalNode] at h)
    (fun n i j body cs hj hb hd h => by
      simp only [ntNode, Node.type_mk] at h ⊢
      have hbn := bodyFor_nulFree hnf hb
      simp only [bodyFor, h, if_true] at hb
      cases hrow : p.table.get n with
      | none => simp [hrow] at hb
      | some row =>
        simp only [hrow, Option.bind_some] at hb
        refine ⟨row, body, rfl, hb, ?_, ?_⟩
        · rintro rfl
          have := hd.nil_inv.1
          subst this
          simp [nothingNode]
        · intro hne
          simp only [hne, if_false, Node.childs_mk]
          exact hd.answers hnf hbn (Nat.le_trans hd.le hj))
    (by intro s hs; simp at hs) (Nat.zero_le _)
  simpa using this

/-- **C12.** On a NUL-free source (with NUL-free literals) a successful `Parse` consumed everything. -/
theorem C12_consumes_all (p : Parser) (he : p.table.HasEntry) (hpub : p.table.Public)
    (hnf : p.table.NulFree) (src : Source) (text : Str) (hr : readSource src = .ok text)
    (h0 : (0 : UInt8) ∉ text) (t : Node) (m : Names) (h : p.Returns src (.ok t m)) :
    t.type = 0 ∧ t.pos = 0 ∧ t.stop = text.length := by
  obtain ⟨⟨j, hd, hb⟩, _⟩ := (returns_ok_iff he hpub hr).1 h
  have hj := hd.bound hnf (by intro s hs; simp at hs) (Nat.zero_le _)
  have hjl : j = text.length := by
    rcases Nat.lt_or_ge j text.length with hlt | hge
    · unfold byteAt at hb
      rw [List.getD_eq_getElem?_getD, List.getElem?_eq_getElem hlt] at hb
      exact absurd (hb ▸ List.getElem_mem hlt) h0
    · omega
  cases hd with
  | nt hb' hd1 hd2 =>
    have := hd2.nil_inv
    exact ⟨rfl, rfl, by simp [ntNode, this.1, hjl]⟩

example : (0 : UInt8) ∉ ([40, 40, 41, 41] : Str) ∧ ∃ t m, (Parser.mk parenTable (some [])).Returns
    (.string [40, 40, 41, 41]) (.ok t m) ∧ parenTable.NulFree ∧ parenTable.Public :=
  ⟨by decide, _, _, ⟨40, rfl⟩, parenTable_nulFree, parenTable_public⟩

/-! ## C13 -/

/-- **C13.** `Parse` succeeds with tree `t` iff `t` is the table-directed derivation of the source
from row 0, ending where the input ends. -/
theorem C13_parse_iff_derivation (tbl : Table) (m : Names) (he : tbl.HasEntry) (hpub : tbl.Public)
    (src : Source) (text : Str) (hr : readSource src = .ok text) (t : Node) :
    (∃ m', (Parser.mk tbl (some m)).Returns src (.ok t m')) ↔
      ∃ j, Derives tbl text [.nonTerminal 0] 0 j [t] ∧ byteAt text j = 0 := by
  constructor
  · rintro ⟨m', h⟩
    exact ((returns_ok_iff (p := Parser.mk tbl (some m)) he hpub hr).1 h).1
  · intro h
    exact ⟨_, (returns_ok_iff (p := Parser.mk tbl (some m)) he hpub hr).2 ⟨h, m, rfl, rfl⟩⟩

/-- **C13.** There is at most one such tree, and a call has at most one result. -/
theorem C13_unique (tbl : Table) (text : Str) (t t' : Node) (j j' : Nat)
    (h : Derives tbl text [.nonTerminal 0] 0 j [t]) (h' : Derives tbl text [.nonTerminal 0] 0 j' [t']) :
    j = j' ∧ t = t' := by
  have := h.det h'
  simpa using this

/-- **C13.** `Parse` fails with `e` iff the derivation gets stuck with `e`; the position is unique. -/
theorem C13_error_iff_stuck (tbl : Table) (names : Option Names) (he : tbl.HasEntry) (hpub : tbl.Public)
    (src : Source) (text : Str) (hr : readSource src = .ok text) (e : PErr) :
    ((Parser.mk tbl names).Returns src (.err e) ↔ ∃ k, StuckAt tbl names text k e) ∧
    (∀ k k' e', StuckAt tbl names text k e → StuckAt tbl names text k' e' → k = k' ∧ e = e') :=
  ⟨returns_err_iff (p := Parser.mk tbl names) he hpub hr, fun _ _ _ h h' => h.unique h'⟩

/-- **C13.** `Parse` never returns iff there is neither a derivation nor a stuck one. -/
theorem C13_diverges_iff (tbl : Table) (names : Option Names) (he : tbl.HasEntry) (hpub : tbl.Public)
    (src : Source) (text : Str) (hr : readSource src = .ok text) :
    (Parser.mk tbl names).Diverges src ↔
      (∀ t, ¬ IsParse tbl text t) ∧ (∀ k e, ¬ StuckAt tbl names text k e) :=
  diverges_iff' (p := Parser.mk tbl names) he hpub hr

/-- The derivation of `()` from `parenTable`. -/
example : ∃ j, Derives parenTable [40, 41] [.nonTerminal 0] 0 j
    [.mk 0 0 2 [.mk (-1) 0 1 [], .mk 0 1 1 [.mk (-2) 1 1 []], .mk (-1) 1 2 []]] ∧
    byteAt [40, 41] j = 0 :=
  (C13_parse_iff_derivation parenTable [] parenTable_hasEntry parenTable_public (.string [40, 41]) _ rfl _).1
    ⟨_, 20, rfl⟩

/-! ## C14, C15, C16 -/

/-- **C14.** The kind of source does not matter. -/
theorem C14_source_kind (p : Parser) (s : Str) (o : Outcome) :
    (p.Returns (.string s) o ↔ p.Returns (.bytes s) o) ∧
    (p.Returns (.string s) o ↔ p.Returns (.buffer (some s)) o) ∧
    (p.Returns (.string s) o ↔ p.Returns (.reader s none) o) := by
  have h : ∀ a b, readSource a = readSource b → (p.Returns a o ↔ p.Returns b o) := by
    intro a b hab
    simp only [Parser.Returns, Parser.parseFuel, hab]
  exact ⟨h _ _ rfl, h _ _ rfl, h _ _ rfl⟩

/-- **C15.** The tree depends only on table and source, not on the names. -/
theorem C15_names_irrelevant (tbl : Table) (m₁ m₂ : Names) (he : tbl.HasEntry) (hpub : tbl.Public)
    (src : Source) (text : Str) (hr : readSource src = .ok text) (t : Node) :
    (∃ m', (Parser.mk tbl (some m₁)).Returns src (.ok t m')) ↔
    (∃ m', (Parser.mk tbl (some m₂)).Returns src (.ok t m')) := by
  rw [C13_parse_iff_derivation tbl m₁ he hpub src text hr t,
    C13_parse_iff_derivation tbl m₂ he hpub src text hr t]

theorem get_addBuiltinNames (m : Names) (k : Int) :
    (addBuiltinNames m).get k =
      if k = -2 then some b!"_nothing" else if k = -1 then some b!"_literal" else m.get k := by
  unfold addBuiltinNames builtinTerminal builtinNothing
  rw [GoMap.get_set, GoMap.get_set]

/-- **C15.** The returned names are the given ones plus the two built-ins. -/
theorem C15_returned_names (tbl : Table) (m : Names) (he : tbl.HasEntry) (hpub : tbl.Public)
    (src : Source) (text : Str) (hr : readSource src = .ok text) (t : Node) (m' : Names)
    (h : (Parser.mk tbl (some m)).Returns src (.ok t m')) :
    m'.get (-1) = some b!"_literal" ∧ m'.get (-2) = some b!"_nothing" ∧
    ∀ k, k ≠ -1 → k ≠ -2 → m'.get k = m.get k := by
  obtain ⟨_, m₀, hm, rfl⟩ := (returns_ok_iff (p := Parser.mk tbl (some m)) he hpub hr).1 h
  cases hm
  refine ⟨by rw [get_addBuiltinNames]; simp, by rw [get_addBuiltinNames]; simp, ?_⟩
  intro k h1 h2
  rw [get_addBuiltinNames, if_neg h2, if_neg h1]

/-- Two results a caller cannot tell apart: equal trees and equal look-ups in the names map, equal
errors, equal panics. -/
def Outcome.Same : Outcome → Outcome → Prop
  | .ok t m, .ok t' m' => t = t' ∧ ∀ k, m.get k = m'.get k
  | .err e, .err e' => e = e'
  | .panic p, .panic p' => p = p'
  | _, _ => False

/-- A history of `Parse` calls on one parser (each on the parser state the earlier calls left). -/
inductive History (p : Parser) : Parser → Prop
  | start : History p p
  | call {q : Parser} {src : Source} {o : Outcome} :
      History p q → q.Returns src o → History p (q.after o)

/-- Names maps with the same non-negative entries, both nil or both non-nil. -/
def NamesEquiv (a b : Option Names) : Prop :=
  (a = none ↔ b = none) ∧ ∀ m m', a = some m → b = some m' → ∀ k, k ≠ -1 → k ≠ -2 → m.get k = m'.get k

theorem NamesEquiv.rowName {a b : Option Names} (h : NamesEquiv a b) (n : Int) (hn : 0 ≤ n) :
    LL1.rowName a n = LL1.rowName b n := by
  unfold LL1.rowName
  cases a with
  | none =>
    have := h.1.1 rfl
    subst this; rfl
  | some m =>
    cases b with
    | none => have := h.1.2 rfl; cases this
    | some m' =>
      simp only
      rw [h.2 m m' rfl rfl n (by omega) (by omega)]

theorem NamesEquiv.symm {a b : Option Names} (h : NamesEquiv a b) : NamesEquiv b a :=
  ⟨h.1.symm, fun m m' h1 h2 k hk hk' => (h.2 m' m h2 h1 k hk hk').symm⟩

theorem same_of_namesEquiv {tbl : Table} {a b : Option Names} (hpub : tbl.Public) (hab : NamesEquiv a b)
    {src : Source} {o : Outcome} (h : (Parser.mk tbl a).Returns src o) :
    ∃ o', (Parser.mk tbl b).Returns src o' ∧ Outcome.Same o o' := by
  by_cases he : tbl.HasEntry
  · cases hr : readSource src with
    | error e =>
      obtain ⟨row, hrow⟩ := he
      obtain ⟨f, hf⟩ := h
      unfold Parser.parseFuel at hf
      simp only [if_neg (hasEntry_length ⟨row, hrow⟩), hrow, hr] at hf
      cases hf
      refine ⟨.err e, ⟨0, ?_⟩, rfl⟩
      unfold Parser.parseFuel
      simp only [if_neg (hasEntry_length ⟨row, hrow⟩), hrow, hr]
    | ok text =>
      rcases returns_cases (p := Parser.mk tbl a) he hpub hr h with ⟨t, ht, rfl⟩ | ⟨k, e, hs, rfl⟩
      · refine ⟨_, returns_parse (p := Parser.mk tbl b) he hr ht, ?_⟩
        cases a with
        | none => have := hab.1.1 rfl; subst this; rfl
        | some m =>
          cases b with
          | none => have := hab.1.2 rfl; cases this
          | some m' =>
            refine ⟨rfl, fun k => ?_⟩
            rw [get_addBuiltinNames, get_addBuiltinNames]
            by_cases h2 : k = -2
            · simp [h2]
            · by_cases h1 : k = -1
              · simp [h1]
              · simp only [h1, h2, if_false]
                exact hab.2 m m' rfl rfl k h1 h2
      · exact ⟨_, returns_stuck (p := Parser.mk tbl b) he hr
          (hs.rename (fun n hn => hab.rowName n hn)), rfl⟩
  · have h0 : tbl.get 0 = none := by
      cases h : tbl.get 0 with
      | none => rfl
      | some r => exact absurd ⟨r, h⟩ he
    obtain ⟨f, hf⟩ := h
    refine ⟨o, ⟨f, ?_⟩, ?_⟩
    · rw [← hf]
      simp [Parser.parseFuel, h0]
    · unfold Parser.parseFuel at hf
      by_cases hl : tbl.length = 0
      · simp only [if_pos hl] at hf; cases hf; rfl
      · simp only [if_neg hl, h0] at hf; cases hf; rfl

theorem History.equiv {p q : Parser} (hpub : p.table.Public) (h : History p q) :
    q.table = p.table ∧ NamesEquiv p.names q.names := by
  induction h with
  | start => exact ⟨rfl, Iff.rfl, fun m m' h1 h2 k _ _ => by rw [h1] at h2; cases h2; rfl⟩
  | @call q src o hh hr ih =>
    obtain ⟨ht, hn⟩ := ih
    cases o with
    | err e => exact ⟨ht, hn⟩
    | panic x => exact ⟨ht, hn⟩
    | ok t m =>
      refine ⟨ht, ?_⟩
      obtain ⟨qt, qn⟩ := q
      simp only at ht hn
      rw [← ht] at hpub
      have he : qt.HasEntry := by
        cases h0 : qt.get 0 with
        | some r => exact ⟨r, h0⟩
        | none =>
          obtain ⟨f, hf⟩ := hr
          unfold Parser.parseFuel at hf
          by_cases hl : qt.length = 0
          · simp only [if_pos hl] at hf; cases hf
          · simp only [if_neg hl, h0] at hf; cases hf
      cases hrs : readSource src with
      | error e =>
        obtain ⟨row, hrow⟩ := he
        obtain ⟨f, hf⟩ := hr
        unfold Parser.parseFuel at hf
        simp only [if_neg (hasEntry_length ⟨row, hrow⟩), hrow, hrs] at hf
        cases hf
      | ok text =>
        obtain ⟨_, m₀, hm₀, rfl⟩ := (returns_ok_iff (p := Parser.mk qt qn) he hpub hrs).1 hr
        simp only at hm₀
        subst hm₀
        simp only [Parser.after]
        refine ⟨⟨fun h => ?_, fun h => by cases h⟩, ?_⟩
        · have := hn.1.1 h; cases this
        · intro m m' h1 h2 k hk hk'
          cases h2
          rw [get_addBuiltinNames, if_neg hk', if_neg hk]
          exact hn.2 m m₀ h1 rfl k hk hk'

/-- **C16.** After any history of `Parse` calls, every further call on the used parser returns a result
the caller cannot distinguish from the result of the same call on the fresh parser — same tree,
same error value (hence message), same names — and returns at all on exactly the same sources. -/
theorem C16_reusable (p q : Parser) (hpub : p.table.Public) (h : History p q) (src : Source) :
    (∀ o, q.Returns src o → ∃ o', p.Returns src o' ∧ Outcome.Same o o') ∧
    (∀ o, p.Returns src o → ∃ o', q.Returns src o' ∧ Outcome.Same o o') ∧
    (p.Diverges src ↔ q.Diverges src) := by
  obtain ⟨pt, pn⟩ := p
  obtain ⟨qt, qn⟩ := q
  obtain ⟨ht, hn⟩ := h.equiv hpub
  simp only at ht hn
  subst ht
  have h1 : ∀ o, (Parser.mk qt qn).Returns src o → ∃ o', (Parser.mk qt pn).Returns src o' ∧ Outcome.Same o o' :=
    fun o ho => same_of_namesEquiv hpub hn.symm ho
  have h2 : ∀ o, (Parser.mk qt pn).Returns src o → ∃ o', (Parser.mk qt qn).Returns src o' ∧ Outcome.Same o o' :=
    fun o ho => same_of_namesEquiv hpub hn ho
  refine ⟨h1, h2, ?_⟩
  rw [diverges_iff, diverges_iff]
  constructor
  · intro hd o ho
    obtain ⟨o', ho', _⟩ := h1 o ho
    exact hd o' ho'
  · intro hd o ho
    obtain ⟨o', ho', _⟩ := h2 o ho
    exact hd o' ho'

/-- A history with a success and a failure before. -/
example : ∃ q, History (Parser.mk parenTable (some [(0, b!"P")])) q ∧ q.names ≠ some [(0, b!"P")] :=
  ⟨_, .call (.call .start (src := .string [40]) (o := .err (.expectedChar 41 0)) ⟨20, rfl⟩)
      (src := .string [40, 41]) (o := .ok _ _) ⟨20, rfl⟩, by decide⟩

/-! ## C18, C21 -/

/-- **C18.** If `Parse` of a text fails at offset `k` with error `e` (`StuckAt`, unique by C13), then
`k` is inside the text or at its end, and every text that agrees with it on the bytes up to and
including offset `k` (end of input counting as byte 0) fails at the same offset with the same error. -/
theorem C18_error_prefix (p : Parser) (he : p.table.HasEntry) (hpub : p.table.Public)
    (hnf : p.table.NulFree) (text : Str) (e : PErr) (h : p.Returns (.string text) (.err e)) :
    ∃ k, StuckAt p.table p.names text k e ∧ k ≤ text.length ∧
      ∀ text', (∀ i, i ≤ k → byteAt text' i = byteAt text i) →
        StuckAt p.table p.names text' k e ∧ p.Returns (.string text') (.err e) := by
  obtain ⟨k, hk⟩ := (returns_err_iff he hpub rfl).1 h
  refine ⟨k, hk, ?_, ?_⟩
  · rcases hk with hf | ⟨t, hd, _, _⟩
    · exact hf.bound hnf (by intro s hs; simp at hs) (Nat.zero_le _)
    · exact hd.bound hnf (by intro s hs; simp at hs) (Nat.zero_le _)
  · intro text' ha
    have := hk.agree (src' := text') (fun i hi => (ha i hi).symm)
    exact ⟨this, returns_stuck he rfl this⟩

/-- Concrete instance: `")x…"` fails at offset 0 (`expected end of input`) whatever follows. -/
example : StuckAt parenTable none [41, 120] 0 (.expectedEnd 41) :=
  Or.inr ⟨.mk 0 0 0 [.mk (-2) 0 0 []], .nt (body := []) rfl (.nil _) (.nil _), by decide, rfl⟩

theorem byteAt_append_left (a b : Str) (i : Nat) (h : i < a.length) : byteAt (a ++ b) i = byteAt a i := by
  unfold byteAt
  rw [List.getD_eq_getElem?_getD, List.getD_eq_getElem?_getD, List.getElem?_append_left h]

theorem agree_nul (text junk : Str) {k : Nat} (hk : k ≤ text.length) :
    AgreeTo text (text ++ 0 :: junk) k := by
  intro i hi
  rcases Nat.lt_or_ge i text.length with h | h
  · rw [byteAt_append_left _ _ _ h]
  · have : i = text.length := by omega
    subst this
    rw [byteAt_ge (Nat.le_refl _)]
    unfold byteAt
    rw [List.getD_eq_getElem?_getD, List.getElem?_append_right (Nat.le_refl _)]
    simp

theorem agree_nul' (text junk : Str) {k : Nat} (hk : k ≤ text.length) :
    AgreeTo (text ++ 0 :: junk) text k := fun i hi => (agree_nul text junk hk i hi).symm

/-- **C21.** With NUL-free literals, whatever follows a NUL byte is ignored: the call returns
exactly what it returns on the part before it (and diverges iff that does). -/
theorem C21_nul_truncates (p : Parser) (he : p.table.HasEntry) (hpub : p.table.Public)
    (hnf : p.table.NulFree) (text junk : Str) (o : Outcome) :
    (p.Returns (.string (text ++ 0 :: junk)) o ↔ p.Returns (.string text) o) ∧
    (p.Diverges (.string (text ++ 0 :: junk)) ↔ p.Diverges (.string text)) := by
  have hend : byteAt (text ++ 0 :: junk) text.length = 0 := by
    rw [← agree_nul text junk (Nat.le_refl _) _ (Nat.le_refl _)]
    exact byteAt_ge (Nat.le_refl _)
  -- positions of derivations in the long text stay within the short one
  have litb : ∀ s i, LitAt (text ++ 0 :: junk) s i → (0 : UInt8) ∉ s → i ≤ text.length →
      i + s.length ≤ text.length := by
    intro s i hl h0 hi
    rcases Nat.lt_or_ge text.length (i + s.length) with hlt | hge
    · have := hl (text.length - i) (by omega)
      rw [show i + (text.length - i) = text.length by omega, hend] at this
      exact absurd (List.mem_of_getElem? this) h0
    · exact hge
  have dbound : ∀ {ops i j cs}, Derives p.table (text ++ 0 :: junk) ops i j cs → OpsNulFree ops →
      i ≤ text.length → j ≤ text.length := by
    intro ops i j cs h
    induction h with
    | nil => intro _ h; exact h
    | lit hl hd ih =>
      intro ho hi
      exact ih (fun s hs => ho s (List.mem_cons_of_mem _ hs)) (litb _ _ hl (ho _ List.mem_cons_self) hi)
    | nt hb hd1 hd2 ih1 ih2 =>
      intro ho hi
      exact ih2 (fun s hs => ho s (List.mem_cons_of_mem _ hs)) (ih1 (bodyFor_nulFree hnf hb) hi)
  have fbound : ∀ {ops i k e}, FailsAt p.table p.names (text ++ 0 :: junk) ops i k e → OpsNulFree ops →
      i ≤ text.length → k ≤ text.length := by
    intro ops i k e h
    induction h with
    | @lit s ops i k c h1 h2 h3 =>
      intro ho hi
      have hk : k < s.length := (List.getElem?_eq_some_iff.1 h2).1
      have := litb _ _ h1 (fun hm => ho _ List.mem_cons_self (List.mem_of_mem_take hm)) hi
      simp only [List.length_take] at this
      omega
    | afterLit hl hf ih =>
      intro ho hi
      exact ih (fun s hs => ho s (List.mem_cons_of_mem _ hs)) (litb _ _ hl (ho _ List.mem_cons_self) hi)
    | noBody => intro _ h; exact h
    | inside hb hf ih => intro ho hi; exact ih (bodyFor_nulFree hnf hb) hi
    | afterNt hb hd hf ih =>
      intro ho hi
      exact ih (fun s hs => ho s (List.mem_cons_of_mem _ hs)) (dbound hd (bodyFor_nulFree hnf hb) hi)
  have hnil : OpsNulFree [.nonTerminal 0] := by intro s hs; simp at hs
  have ret : ∀ o, p.Returns (.string (text ++ 0 :: junk)) o ↔ p.Returns (.string text) o := by
    intro o
    constructor
    · intro h
      rcases returns_cases he hpub rfl h with ⟨t, ⟨j, hd, hb⟩, rfl⟩ | ⟨k, e, hs, rfl⟩
      · exact returns_parse he rfl (IsParse.agree hd hb (agree_nul' text junk (dbound hd hnil (Nat.zero_le _))))
      · refine returns_stuck (k := k) he rfl (hs.agree (agree_nul' text junk ?_))
        rcases hs with hf | ⟨t, hd, _, _⟩
        · exact fbound hf hnil (Nat.zero_le _)
        · exact dbound hd hnil (Nat.zero_le _)
    · intro h
      rcases returns_cases he hpub rfl h with ⟨t, ⟨j, hd, hb⟩, rfl⟩ | ⟨k, e, hs, rfl⟩
      · exact returns_parse he rfl (IsParse.agree hd hb (agree_nul text junk (hd.bound hnf hnil (Nat.zero_le _))))
      · refine returns_stuck (k := k) he rfl (hs.agree (agree_nul text junk ?_))
        rcases hs with hf | ⟨t, hd, _, _⟩
        · exact hf.bound hnf hnil (Nat.zero_le _)
        · exact hd.bound hnf hnil (Nat.zero_le _)
  refine ⟨ret o, ?_⟩
  rw [diverges_iff, diverges_iff]
  constructor
  · intro h o ho; exact h o ((ret o).2 ho)
  · intro h o ho; exact h o ((ret o).1 ho)

/-- Trailing junk after NUL is accepted. -/
example : ∃ t m, (Parser.mk parenTable (some [])).Returns (.string ([40, 41] ++ 0 :: [41, 41])) (.ok t m) :=
  ⟨_, _, 20, rfl⟩

/-! ## C19 -/

/-- **C19.** `OpNonTerminal(-2)` derives exactly LF (one literal child) or CR LF (two literal children). -/
theorem C19_eol (tbl : Table) (src : Str) (i j : Nat) (t : Node) :
    Derives tbl src [.nonTerminal (-2)] i j [t] ↔
      (byteAt src i = 10 ∧ j = i + 1 ∧ t = .mk (-2) i (i + 1) [.mk (-1) i (i + 1) []]) ∨
      (byteAt src i = 13 ∧ byteAt src (i + 1) = 10 ∧ j = i + 2 ∧
        t = .mk (-2) i (i + 2) [.mk (-1) i (i + 1) [], .mk (-1) (i + 1) (i + 2) []]) := by
  constructor
  · intro h
    cases h with
    | nt hb hd1 hd2 =>
      obtain ⟨rfl, _⟩ := hd2.nil_inv
      simp only [bodyFor] at hb
      simp only [show ¬ (0 : Int) ≤ -2 by decide, if_true, if_false] at hb
      split at hb
      · rename_i h10
        cases hb
        cases hd1 with
        | lit hl hd =>
          obtain ⟨h, rfl⟩ := hd.nil_inv
          exact Or.inl ⟨h10, h.symm, by simp [ntNode, literalNode, ← h]⟩
      · split at hb
        · rename_i h13
          cases hb
          cases hd1 with
          | lit hl hd =>
            cases hd with
            | lit hl' hd' =>
              obtain ⟨h, rfl⟩ := hd'.nil_inv
              have := hl' 0 (by simp)
              simp only [List.getElem?_cons_zero, Option.some.injEq, List.length_cons,
                List.length_nil, Nat.zero_add, Nat.add_zero] at this
              refine Or.inr ⟨h13, this.symm, ?_, ?_⟩
              · simp at h; omega
              · simp [ntNode, literalNode, ← h]
        · cases hb
  · rintro (⟨h, rfl, rfl⟩ | ⟨h, h', rfl, rfl⟩)
    · have hb : bodyFor tbl (-2) (byteAt src i) = some [.terminal [10]] := by simp [bodyFor, h]
      have hl : LitAt src [10] i := by
        rw [litAt_cons]; exact ⟨h.symm, LitAt.nil _ _⟩
      have := Derives.nt (ops := []) hb (Derives.lit hl (.nil _)) (.nil _)
      simpa [ntNode, literalNode] using this
    · have hb : bodyFor tbl (-2) (byteAt src i) = some [.terminal [13], .terminal [10]] := by
        simp [bodyFor, h]
      have hl : LitAt src [13] i := by
        rw [litAt_cons]; exact ⟨h.symm, LitAt.nil _ _⟩
      have hl' : LitAt src [10] (i + 1) := by
        rw [litAt_cons]; exact ⟨h'.symm, LitAt.nil _ _⟩
      have := Derives.nt (ops := []) hb (Derives.lit hl (Derives.lit hl' (.nil _))) (.nil _)
      simpa [ntNode, literalNode] using this

/-- **C19.** Every other negative number always fails with "unknown built in type", where it stands. -/
theorem C19_unknown_builtin (tbl : Table) (names : Option Names) (src : Str) (n : Int) (hn : n < 0)
    (hn2 : n ≠ -2) (ops : List ParserOp) (i : Nat) :
    FailsAt tbl names src (.nonTerminal n :: ops) i i (.unknownBuiltin n) ∧
    ∀ j cs, ¬ Derives tbl src (.nonTerminal n :: ops) i j cs := by
  have hb : bodyFor tbl n (byteAt src i) = none := by
    simp [bodyFor, show ¬ 0 ≤ n by omega, hn2]
  have hw : whyNot tbl names n (byteAt src i) = .unknownBuiltin n := by
    simp [whyNot, show ¬ 0 ≤ n by omega, hn2]
  have hf : FailsAt tbl names src (.nonTerminal n :: ops) i i (.unknownBuiltin n) := by
    rw [← hw]; exact .noBody hb
  exact ⟨hf, fun j cs hd => hd.not_failsAt hf⟩

/-- **C19 at the level of `Parse`.** A parser whose row 0 consists of `OpNonTerminal(-2)` for every next
byte accepts, among NUL-free texts, exactly "\n" and "\r\n". -/
theorem C19_parse_eol (tbl : Table) (m : Names) (hpub : tbl.Public) (hnf : tbl.NulFree)
    (hrow : ∀ b, ∃ row, tbl.get 0 = some row ∧ GoMap.get row b = some [.nonTerminal (-2)])
    (text : Str) (h0 : (0 : UInt8) ∉ text) :
    (∃ t m', (Parser.mk tbl (some m)).Returns (.string text) (.ok t m')) ↔
      text = [10] ∨ text = [13, 10] := by
  have he : tbl.HasEntry := by obtain ⟨row, h, _⟩ := hrow 0; exact ⟨row, h⟩
  have hbody : ∀ b, bodyFor tbl 0 b = some [.nonTerminal (-2)] := by
    intro b
    obtain ⟨row, h1, h2⟩ := hrow b
    simp [bodyFor, h1, h2]
  constructor
  · rintro ⟨t, m', h⟩
    have hall := C12_consumes_all (Parser.mk tbl (some m)) he hpub hnf _ text rfl h0 t m' h
    obtain ⟨⟨j, hd, hz⟩, _⟩ := (returns_ok_iff (p := Parser.mk tbl (some m)) he hpub rfl).1 h
    simp only at hd
    cases hd with
    | @nt n body ops i j k cs ds hb hd1 hd2 =>
      rw [hbody] at hb
      cases hb
      have hk := hd2.nil_inv.1
      subst hk
      have hjl : j = text.length := by simpa [ntNode] using hall.2.2
      match cs, hd1.length with
      | [c], _ =>
        rcases (C19_eol tbl text 0 j c).1 hd1 with ⟨h1, h2, _⟩ | ⟨h1, h1', h2, _⟩
        · left
          match text, hjl.symm.trans h2 with
          | [x], _ => simpa [byteAt] using h1
        · right
          match text, hjl.symm.trans h2 with
          | [x, y], _ => simp [byteAt] at h1 h1'; simp [h1, h1']
  · intro h
    have : ∃ t, IsParse tbl text t := by
      rcases h with rfl | rfl
      · have hd := (C19_eol tbl [10] 0 1 (.mk (-2) 0 1 [.mk (-1) 0 1 []])).2 (Or.inl ⟨rfl, rfl, rfl⟩)
        exact ⟨_, 1, .nt (hbody _) hd (.nil _), rfl⟩
      · have hd := (C19_eol tbl [13, 10] 0 2
          (.mk (-2) 0 2 [.mk (-1) 0 1 [], .mk (-1) 1 2 []])).2 (Or.inr ⟨rfl, rfl, rfl, rfl⟩)
        exact ⟨_, 2, .nt (hbody _) hd (.nil _), rfl⟩
    obtain ⟨t, ht⟩ := this
    exact ⟨t, _, returns_parse (p := Parser.mk tbl (some m)) he rfl ht⟩

/-! ## C20 -/

/-- The operations of a cell before (and not including) the first non-empty literal. -/
def untilLiteral : List ParserOp → List ParserOp
  | [] => []
  | .terminal s :: ops => if s ≠ [] then [] else .terminal s :: untilLiteral ops
  | op :: ops => op :: untilLiteral ops

/-- The operations of a cell for byte `b` before (and not including) the first literal that makes progress: a non-empty
one, and in the cells for 0 (which are also used behind the end of the source, where NUL bytes match) one that is not
made of NUL bytes only. -/
def untilProgress (b : UInt8) : List ParserOp → List ParserOp
  | [] => []
  | .terminal s :: ops =>
    if s ≠ [] ∧ (b = 0 → ∃ c ∈ s, c ≠ 0) then [] else .terminal s :: untilProgress b ops
  | op :: ops => op :: untilProgress b ops

/-- Without literals that begin with NUL this is just the first non-empty literal. -/
theorem untilProgress_eq (b : UInt8) {ops : List ParserOp} (h : OpsStartFree ops) :
    untilProgress b ops = untilLiteral ops := by
  induction ops with
  | nil => rfl
  | cons op ops ih =>
    have ih := ih fun s hs => h s (List.mem_cons_of_mem _ hs)
    cases op with
    | terminal s =>
      simp only [untilProgress, untilLiteral, ih]
      cases s with
      | nil => simp
      | cons c s =>
        rw [if_pos, if_pos (by simp)]
        refine ⟨by simp, fun _ => ⟨c, List.mem_cons_self, fun hc => ?_⟩⟩
        exact h (c :: s) List.mem_cons_self (by simp [hc])
    | _ => simp only [untilProgress, untilLiteral, ih]

/-- The ranking condition of C20 in the form used by the termination argument. -/
theorem untilProgress_rank {tbl : Table} {rank : Int → UInt8 → Nat}
    (hrank : ∀ n row b body, tbl.get n = some row → GoMap.get row b = some body →
      ∀ m, 0 ≤ m → .nonTerminal m ∈ untilProgress b body → rank m b < rank n b) :
    ∃ rank' : Int → UInt8 → Nat, ∀ n b body, bodyFor tbl n b = some body →
      RankBelow (fun _ _ => False) rank' b (rank' n b) body := by
  -- built-in non-terminals get rank 0, the others are shifted by one
  let rank' : Int → UInt8 → Nat := fun n b => if 0 ≤ n then rank n b + 1 else 0
  have hbelow : ∀ b r ops, (∀ m, 0 ≤ m → .nonTerminal m ∈ untilProgress b ops → rank m b < r) →
      RankBelow (fun _ _ => False) rank' b (r + 1) ops := by
    intro b r ops
    induction ops with
    | nil => intro _; trivial
    | cons op ops ih =>
      intro h
      cases op with
      | terminal s =>
        refine ⟨trivial, ?_⟩
        by_cases hs : s ≠ [] ∧ (b = 0 → ∃ c ∈ s, c ≠ 0)
        · exact Or.inl hs
        · refine Or.inr (ih fun m hm hmem => h m hm ?_)
          rw [untilProgress, if_neg hs]
          exact List.mem_cons_of_mem _ hmem
      | nonTerminal n =>
        refine ⟨?_, Or.inr (ih fun m hm hmem => h m hm ?_)⟩
        · simp only [rank']
          split
          · rename_i hn
            have := h n hn (by simp [untilProgress])
            omega
          · omega
        · simp [untilProgress, hmem]
      | _ => exact ⟨trivial, Or.inr (ih fun m hm hmem => h m hm (by simp [untilProgress, hmem]))⟩
  refine ⟨rank', fun n b body hb => ?_⟩
  unfold bodyFor at hb
  split at hb
  · rename_i hn
    cases hrow : tbl.get n with
    | none => simp [hrow] at hb
    | some row =>
      simp only [hrow, Option.bind_some] at hb
      have := hbelow b (rank n b) body (fun m hm hmem => hrank n row b body hrow hb m hm hmem)
      simpa only [rank', hn, if_true] using this
  · split at hb
    · split at hb
      · rename_i hb0; cases hb; exact ⟨trivial, Or.inl ⟨by simp, by simp⟩⟩
      · split at hb
        · cases hb; exact ⟨trivial, Or.inl ⟨by simp, by simp⟩⟩
        · cases hb
    · cases hb

theorem untilLiteral_rank {tbl : Table} (hnf : tbl.NulStartFree) {rank : Int → UInt8 → Nat}
    (hrank : ∀ n row b body, tbl.get n = some row → GoMap.get row b = some body →
      ∀ m, 0 ≤ m → .nonTerminal m ∈ untilLiteral body → rank m b < rank n b) :
    ∃ rank' : Int → UInt8 → Nat, ∀ n b body, bodyFor tbl n b = some body →
      RankBelow (fun _ _ => False) rank' b (rank' n b) body := by
  refine untilProgress_rank (rank := rank) fun n row b body h1 h2 m hm hmem => ?_
  rw [untilProgress_eq b (hnf n row b body h1 h2)] at hmem
  exact hrank n row b body h1 h2 m hm hmem

/-- **C20.** For every table, whatever its literals contain: if the rows can be ranked so that in every cell `(n, b)` the
rows referred to before the first literal that makes progress have a smaller rank than `n` (the rank may depend on the
byte `b`), then `Parse` returns on every source. -/
theorem C20_terminates_any (p : Parser) (he : p.table.HasEntry) (hpub : p.table.Public) (rank : Int → UInt8 → Nat)
    (hrank : ∀ n row b body, p.table.get n = some row → GoMap.get row b = some body →
      ∀ m, 0 ≤ m → .nonTerminal m ∈ untilProgress b body → rank m b < rank n b)
    (src : Source) : ∃ o, p.Returns src o := by
  cases hr : readSource src with
  | error e =>
    obtain ⟨row, hrow⟩ := he
    exact ⟨.err e, 0, by simp [Parser.parseFuel, hasEntry_length ⟨row, hrow⟩, hrow, hr]⟩
  | ok text =>
    obtain ⟨rank', hrank'⟩ := untilProgress_rank hrank
    have hterm := terminates_of_rank (tbl := p.table) (names := p.names) (src := text) hpub
      (Sure := fun _ _ => False) (rank := rank') (fun _ _ _ h => h.elim) hrank'
      text.length (rank' 0 (byteAt text 0) + 1) [.nonTerminal 0] 0 (by simp [ParserOp.Public])
      (by omega) ⟨by simp only []; omega, Or.inr trivial⟩
    rcases hterm with ⟨j, cs, hd⟩ | ⟨k, e, hf⟩
    · match cs, hd.length with
      | [t], _ =>
        by_cases hb : byteAt text j = 0
        · exact ⟨_, returns_parse he hr ⟨j, hd, hb⟩⟩
        · exact ⟨_, returns_stuck he hr (Or.inr ⟨t, hd, hb, rfl⟩)⟩
    · exact ⟨_, returns_stuck he hr (Or.inl hf)⟩

/-- **C20.** If the rows can be ranked so that in every cell `(n, b)` the rows referred to before the
first non-empty literal have a smaller rank than `n` (the rank may depend on the byte `b`), then
`Parse` returns on every source (no literal begins with NUL). -/
theorem C20_terminates (p : Parser) (he : p.table.HasEntry) (hpub : p.table.Public)
    (hnf : p.table.NulStartFree) (rank : Int → UInt8 → Nat)
    (hrank : ∀ n row b body, p.table.get n = some row → GoMap.get row b = some body →
      ∀ m, 0 ≤ m → .nonTerminal m ∈ untilLiteral body → rank m b < rank n b)
    (src : Source) : ∃ o, p.Returns src o := by
  refine C20_terminates_any p he hpub rank (fun n row b body h1 h2 m hm hmem => ?_) src
  rw [untilProgress_eq b (hnf n row b body h1 h2)] at hmem
  exact hrank n row b body h1 h2 m hm hmem

/-- `parenTable` satisfies the ranking hypothesis (its recursion is behind a literal). -/
example : ∀ n row b body, parenTable.get n = some row → GoMap.get row b = some body →
    ∀ m, 0 ≤ m → .nonTerminal m ∈ untilLiteral body → (fun _ _ => 0 : Int → UInt8 → Nat) m b < 0 := by
  intro n row b body h1 h2 m _ hm
  simp only [parenTable, GoMap.get_cons, GoMap.get_nil] at h1
  split at h1
  · cases h1
    simp only [GoMap.get_cons, GoMap.get_nil] at h2
    repeat' split at h2
    all_goals first | cases h2 | skip
    all_goals simp [untilLiteral] at hm
  · cases h1

/-- **C20.** If a set of rows containing row 0 is such that for the byte `b` every cell of the set
exists and begins with a reference back into the set (direct or indirect left recursion), `Parse`
never returns on any source whose first byte is `b` (`b = 0`: on any empty source). -/
theorem C20_left_recursion_diverges (p : Parser) (he : p.table.HasEntry) (hpub : p.table.Public)
    (b : UInt8) (D : Int → Prop) (hD0 : D 0)
    (hD : ∀ n, D n → 0 ≤ n ∧ ∃ row m rest, p.table.get n = some row ∧
      GoMap.get row b = some (.nonTerminal m :: rest) ∧ D m)
    (src : Source) (text : Str) (hr : readSource src = .ok text) (hb : byteAt text 0 = b) :
    p.Diverges src := by
  have hbody : ∀ n, D n → ∃ m rest, bodyFor p.table n b = some (.nonTerminal m :: rest) ∧ D m := by
    intro n hn
    obtain ⟨h0, row, m, rest, h1, h2, h3⟩ := hD n hn
    exact ⟨m, rest, by simp [bodyFor, h0, h1, h2], h3⟩
  have nod : ∀ {ops i j cs}, Derives p.table text ops i j cs → i = 0 →
      ∀ n rest, ops = .nonTerminal n :: rest → D n → False := by
    intro ops i j cs h
    induction h with
    | nil => intro _ n rest h; cases h
    | lit => intro _ n rest h; cases h
    | nt hb' hd1 hd2 ih1 ih2 =>
      rintro rfl n rest h hn
      cases h
      obtain ⟨m, rest', hbd, hm⟩ := hbody _ hn
      rw [hb, hbd] at hb'
      cases hb'
      exact ih1 rfl m rest' rfl hm
  have nof : ∀ {ops i k e}, FailsAt p.table p.names text ops i k e → i = 0 →
      ∀ n rest, ops = .nonTerminal n :: rest → D n → False := by
    intro ops i k e h
    induction h with
    | lit => intro _ n rest h; cases h
    | afterLit => intro _ n rest h; cases h
    | noBody hb' =>
      rintro rfl n rest h hn
      cases h
      obtain ⟨m, rest', hbd, hm⟩ := hbody _ hn
      rw [hb, hbd] at hb'
      cases hb'
    | inside hb' hf ih =>
      rintro rfl n rest h hn
      cases h
      obtain ⟨m, rest', hbd, hm⟩ := hbody _ hn
      rw [hb, hbd] at hb'
      cases hb'
      exact ih rfl m rest' rfl hm
    | afterNt hb' hd hf ih =>
      rintro rfl n rest h hn
      cases h
      obtain ⟨m, rest', hbd, hm⟩ := hbody _ hn
      rw [hb, hbd] at hb'
      cases hb'
      exact nod hd rfl m rest' rfl hm
  rw [diverges_iff' he hpub hr]
  refine ⟨?_, ?_⟩
  · rintro t ⟨j, hd, _⟩
    exact nod hd rfl 0 [] rfl hD0
  · rintro k e (hf | ⟨t, hd, _, _⟩)
    · exact nof hf rfl 0 [] rfl hD0
    · exact nod hd rfl 0 [] rfl hD0

/-- Row 0 on 0 is `"\0" <0>`. -/
def nulLoop : Table := [(0, [(0, [.terminal [0], .nonTerminal 0])])]

/-- **C20.** Why literals of NUL bytes make no progress: the table `nulLoop` has no left recursion (the reference comes
after a non-empty literal), yet `Parse` never returns on the empty source: behind the end NUL bytes match for ever. -/
theorem C20_nul_diverges (names : Option Names) (src : Source) (hr : readSource src = .ok []) :
    (∀ n row b body, nulLoop.get n = some row → GoMap.get row b = some body →
      ∀ m, ParserOp.nonTerminal m ∉ untilLiteral body) ∧
    (Parser.mk nulLoop names).Diverges src := by
  have hcell : ∀ n row b body, nulLoop.get n = some row → GoMap.get row b = some body →
      body = [.terminal [0], .nonTerminal 0] := by
    intro n row b body h1 h2
    simp only [nulLoop, GoMap.get_cons, GoMap.get_nil] at h1
    split at h1
    · cases h1
      simp only [GoMap.get_cons, GoMap.get_nil] at h2
      split at h2
      · cases h2; rfl
      · cases h2
    · cases h1
  have he : nulLoop.HasEntry := ⟨_, rfl⟩
  have hpub : nulLoop.Public := by
    intro n row b body h1 h2 op hop
    rw [hcell n row b body h1 h2] at hop
    simp only [List.mem_cons, List.not_mem_nil, or_false] at hop
    rcases hop with rfl | rfl <;> trivial
  refine ⟨?_, ?_⟩
  · intro n row b body h1 h2 m hm
    rw [hcell n row b body h1 h2] at hm
    simp [untilLiteral] at hm
  have hbody : ∀ i, bodyFor nulLoop 0 (byteAt [] i) = some [.terminal [0], .nonTerminal 0] := by
    intro i
    have : byteAt [] i = 0 := by simp [byteAt]
    rw [this]; rfl
  have nod : ∀ {ops i j cs}, Derives nulLoop [] ops i j cs → ParserOp.nonTerminal 0 ∈ ops → False := by
    intro ops i j cs h
    induction h with
    | nil => simp
    | lit hl hd ih =>
      intro hm
      rcases List.mem_cons.1 hm with h | hm
      · cases h
      · exact ih hm
    | nt hb' hd1 hd2 ih1 ih2 =>
      intro hm
      rcases List.mem_cons.1 hm with h | hm
      · cases h
        rw [hbody] at hb'
        cases hb'
        exact ih1 (by simp)
      · exact ih2 hm
  have nof : ∀ {ops i k e}, FailsAt nulLoop names [] ops i k e →
      (ops = [.nonTerminal 0] ∨ ops = [.terminal [0], .nonTerminal 0]) → False := by
    intro ops i k e h
    induction h with
    | @lit s ops i k c h1 h2 h3 =>
      rintro (h | h)
      · cases h
      · cases h
        match k with
        | 0 => simp at h2; subst h2; simp [byteAt] at h3
        | k + 1 => simp at h2
    | afterLit hl hf ih =>
      rintro (h | h)
      · cases h
      · cases h; exact ih (.inl rfl)
    | @noBody n ops i hb' =>
      rintro (h | h)
      · cases h; rw [hbody] at hb'; cases hb'
      · cases h
    | inside hb' hf ih =>
      rintro (h | h)
      · cases h; rw [hbody] at hb'; cases hb'; exact ih (.inr rfl)
      · cases h
    | afterNt hb' hd hf ih =>
      rintro (h | h)
      · cases h; rw [hbody] at hb'; cases hb'; exact nod hd (by simp)
      · cases h
  rw [diverges_iff' (p := Parser.mk nulLoop names) he hpub hr]
  refine ⟨?_, ?_⟩
  · rintro t ⟨j, hd, _⟩
    exact nod hd (by simp)
  · rintro k e (hf | ⟨t, hd, _, _⟩)
    · exact nof hf (.inl rfl)
    · exact nod hd (by simp)

/-- A left-recursive table meeting the hypotheses: row 0 on `a` is `<0> "b"`. -/
example : ∀ n, (fun n : Int => n = 0) n → 0 ≤ n ∧ ∃ row m rest,
    GoMap.get ([(0, [(97, [.nonTerminal 0, .terminal [98]])])] : Table) n = some row ∧
    GoMap.get row 97 = some (.nonTerminal m :: rest) ∧ (fun n : Int => n = 0) m := by
  rintro n rfl
  exact ⟨by decide, _, 0, _, rfl, rfl, rfl⟩

end LL1
