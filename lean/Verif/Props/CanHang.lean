import Verif.Proofs.CanHang

/-!
# C88: what a table can do on some source
-/

namespace LL1

theorem parseFuel_source_error {p : Parser} (he : p.table.HasEntry) {src : Source} {e : PErr}
    (hr : readSource src = .error e) (f : Nat) : p.parseFuel f src = some (.err e) := by
  obtain ⟨row, hrow⟩ := he
  unfold Parser.parseFuel
  rw [if_neg (hasEntry_length ⟨row, hrow⟩), hrow, hr]

/-- **C88.** For every table: some source makes `Parse` hang iff some row that can be wanted before some byte comes to
itself again before that same byte. -/
theorem C88_hangs_iff (p : Parser) (he : p.table.HasEntry) (hpub : p.table.Public) :
    (∃ src, p.Diverges src) ↔ ∃ n b, CanEnter p.table n b ∧ Steps1 (ComesTo p.table b) n n := by
  constructor
  · rintro ⟨src, hd⟩
    obtain ⟨text, hr⟩ := diverges_source hd
    obtain ⟨f, h0, hf⟩ := (C79_hangs_iff_chain p he hpub src text hr).1 hd
    exact chain_comes h0 hf
  · rintro ⟨n, b, hn, hl⟩
    obtain ⟨w, hw⟩ := hn.sound
    refine ⟨.string (w ++ [b]), (diverges_iff_not_acc he hpub rfl).2 fun ha => ?_⟩
    obtain ⟨f, h0, hf⟩ := chain_of_not_acc (not_acc_of_loop hl)
    refine not_acc_of_comes hf (acc_steps ha hw) 0 h0.symm byteAt_here ?_
    rintro rfl q hq
    obtain ⟨d, rfl⟩ := Nat.exists_eq_add_of_le hq
    simp only at *
    rw [byteAt_right]
    cases d <;> rfl

/-- **C88.** So `Parse` returns on every source iff there is no such row. -/
theorem C88_always_returns_iff (p : Parser) (he : p.table.HasEntry) (hpub : p.table.Public) :
    (∀ src, ∃ o, p.Returns src o) ↔ ∀ n b, CanEnter p.table n b → ¬ Steps1 (ComesTo p.table b) n n := by
  constructor
  · intro h n b hn hl
    obtain ⟨src, hd⟩ := (C88_hangs_iff p he hpub).2 ⟨n, b, hn, hl⟩
    obtain ⟨o, ho⟩ := h src
    exact diverges_iff.1 hd o ho
  · intro h src
    apply Classical.byContradiction
    intro hn
    obtain ⟨n, b, h1, h2⟩ := (C88_hangs_iff p he hpub).1 ⟨src, diverges_iff.2 fun o ho => hn ⟨o, ho⟩⟩
    exact h n b h1 h2

/-- **C88.** Some source is accepted iff row 0 can be done up to the end of the input. -/
theorem C88_accepts_iff (p : Parser) (he : p.table.HasEntry) (hpub : p.table.Public) (m : Names) (hm : p.names = some m) :
    (∃ src t m', p.Returns src (.ok t m')) ↔ ∃ b, Leads p.table [.nonTerminal 0] b 0 := by
  constructor
  · rintro ⟨src, t, m', h⟩
    obtain ⟨text, hr⟩ : ∃ text, readSource src = .ok text := by
      cases hr : readSource src with
      | ok text => exact ⟨text, rfl⟩
      | error e =>
        obtain ⟨f, hf⟩ := h
        rw [parseFuel_source_error he hr] at hf
        cases hf
    obtain ⟨⟨j, hd, h0⟩, _⟩ := (returns_ok_iff he hpub hr).1 h
    exact ⟨_, h0 ▸ hd.leads⟩
  · rintro ⟨b, hl⟩
    obtain ⟨u, cs, _, hd⟩ := hl.sound []
    obtain ⟨t, rfl⟩ : ∃ t, cs = [t] := by
      cases hd with
      | nt _ _ h2 => cases h2; exact ⟨_, rfl⟩
    refine ⟨.string ([] ++ u ++ [0]), t, addBuiltinNames m, (returns_ok_iff he hpub rfl).2 ⟨⟨_, hd, ?_⟩, m, hm, rfl⟩⟩
    exact byteAt_here

/-- **C88.** The cells (and rows) that cannot be wanted do not matter: two tables that are the same where the first can come
to give the same results on all sources. -/
theorem C88_unused_cells (p p' : Parser) (hn : p.names = p'.names) (he : p.table.HasEntry) (hpub : p.table.Public)
    (he' : p'.table.HasEntry) (hpub' : p'.table.Public)
    (hsame : ∀ n b, CanEnter p.table n b →
      bodyFor p'.table n b = bodyFor p.table n b ∧ (p'.table.get n).isSome = (p.table.get n).isSome)
    (src : Source) : (∀ o, p.Returns src o ↔ p'.Returns src o) ∧ (p.Diverges src ↔ p'.Diverges src) := by
  cases hr : readSource src with
  | error e =>
    refine ⟨fun o => ?_, ?_⟩
    · simp only [Parser.Returns, parseFuel_source_error he hr, parseFuel_source_error he' hr]
    · simp only [Parser.Diverges, parseFuel_source_error he hr, parseFuel_source_error he' hr]
  | ok text =>
  have hs : SameWhereUsed p.table p'.table := hsame
  have h1 : ∀ o, p.Returns src o → p'.Returns src o := by
    intro o ho
    rcases returns_cases he hpub hr ho with ⟨t, ⟨j, hd, h0⟩, rfl⟩ | ⟨k, e, hst, rfl⟩
    · have := returns_parse he' hr (⟨j, hd.unused hs (Within.start _), h0⟩ : IsParse p'.table text t)
      rwa [← hn] at this
    · refine (returns_err_iff he' hpub' hr).2 ⟨k, ?_⟩
      rw [← hn]
      rcases hst with hf | ⟨t, hd, h1, h2⟩
      · exact .inl (hf.unused hs (Within.start _))
      · exact .inr ⟨t, hd.unused hs (Within.start _), h1, h2⟩
  have h2 : p.Diverges src → p'.Diverges src := by
    intro hd
    obtain ⟨f, h0, hf⟩ := (C79_hangs_iff_chain p he hpub src text hr).1 hd
    refine (C79_hangs_iff_chain p' he' hpub' src text hr).2 ⟨f, h0, fun k => (hf k).unused hs ?_⟩
    have := steps_of_chain hf 0 k
    rw [h0, Nat.zero_add] at this
    exact CanEnter.of_steps this
  have h3 : ∀ o, p'.Returns src o → p.Returns src o := by
    intro o ho
    by_cases hx : ∃ o', p.Returns src o'
    · obtain ⟨o', ho'⟩ := hx
      cases returns_det (h1 o' ho') ho
      exact ho'
    · exact (diverges_iff.1 (h2 (diverges_iff.2 fun o' ho' => hx ⟨o', ho'⟩)) o ho).elim
  exact ⟨fun o => ⟨h1 o, h3 o⟩, h2, fun hd => diverges_iff.2 fun o ho => diverges_iff.1 hd o (h1 o ho)⟩

/-! ## Concrete cases -/

/-- `S ::= "a" A`, `A ::= A "x" | "y"`: hangs, and the reason can be seen in the table. -/
def Ex.hangs : Grammar :=
  ⟨[⟨b!"S", ⟨[⟨[.terminal b!"a", .nonTerminal b!"A"]⟩]⟩⟩,
    ⟨b!"A", ⟨[⟨[.nonTerminal b!"A", .terminal b!"x"]⟩, ⟨[.terminal b!"y"]⟩]⟩⟩]⟩

/-- `S ::= "a" | B "x"`, `B ::= B "y"`: left-recursive and the first rule refers to it, but it never hangs. -/
def Ex.neverHangs : Grammar :=
  ⟨[⟨b!"S", ⟨[⟨[.terminal b!"a"]⟩, ⟨[.nonTerminal b!"B", .terminal b!"x"]⟩]⟩⟩,
    ⟨b!"B", ⟨[⟨[.nonTerminal b!"B", .terminal b!"y"]⟩]⟩⟩]⟩

theorem mem_cells_of_get {tbl : Table} {n : Int} {row : Row} {b : UInt8} {ops : List ParserOp} (h1 : tbl.get n = some row)
    (h2 : GoMap.get row b = some ops) : (n, b, ops) ∈ Lin.cells tbl := by
  unfold Lin.cells
  exact List.mem_append_left _ (List.mem_flatMap.2 ⟨_, Lin.mem_of_get h1, List.mem_map.2 ⟨_, Lin.mem_of_get h2, rfl⟩⟩)

/-- **C88, concrete cases.** A generated table with a row that comes to itself; a generated table of a left-recursive
grammar without such a row; and a table that hangs by reading NUL bytes for ever behind the end of the input. -/
theorem C88_examples :
    (∃ tbl names, fromGrammar id Ex.hangs = .ok (tbl, names) ∧ CanEnter tbl 1 121 ∧ Steps1 (ComesTo tbl 121) 1 1) ∧
    (∃ tbl names, fromGrammar id Ex.neverHangs = .ok (tbl, names) ∧ LeftRecursive Ex.neverHangs 1 ∧
      Mentions Ex.neverHangs 0 1 ∧ ∀ src, ∃ o, (Parser.mk tbl (some names)).Returns src o) ∧
    (let tbl : Table := [(0, [(0, [.terminal [0], .nonTerminal 0])])]
     CanEnter tbl 0 0 ∧ Steps1 (ComesTo tbl 0) 0 0 ∧ ∃ src, (Parser.mk tbl none).Diverges src) := by
  have hf : fromGrammar id Ex.neverHangs =
      .ok ([(1, []), (0, [(97, [.terminal [97]])])], [(0, b!"S"), (1, b!"B")]) := by decide +kernel
  refine ⟨⟨_, _, rfl, ?_, ?_⟩, ⟨_, _, hf, ?_, ?_, ?_⟩, ?_⟩
  · exact .inner (pre := [.terminal b!"a"]) (post := []) (.start 97) rfl (.lit (rest := []) (.nil 121))
  · exact ⟨1, .refl, [], [.terminal b!"x", .terminal b!"y"], rfl, .inl .nil⟩
  · refine ⟨1, .refl, ⟨[.nonTerminal b!"B", .terminal b!"y"]⟩, [], b!"B", [.terminal b!"y"], ⟨_, rfl, .head _⟩, rfl, .nil, ?_⟩
    refine ⟨⟨_, rfl, rfl⟩, ?_⟩
    rintro j ⟨r, hj, hh⟩
    match j with
    | 0 => exact Nat.zero_le _
    | 1 => exact Nat.le_refl _
    | j + 2 => cases hj
  · refine ⟨⟨[.nonTerminal b!"B", .terminal b!"x"]⟩, b!"B", ⟨_, rfl, by simp⟩, by simp, ⟨_, rfl, rfl⟩, ?_⟩
    rintro j ⟨r, hj, hh⟩
    match j with
    | 0 => exact Nat.zero_le _
    | 1 => exact Nat.le_refl _
    | j + 2 => cases hj
  · have hc := fromGrammar_closedTable hf
    refine (C88_always_returns_iff ⟨_, _⟩ hc.hasEntry hc.public).2 ?_
    rintro n b _ ⟨m, _, pre, post, hb, _⟩
    have := Lin.mem_cells hb
    have hno : ∀ c ∈ Lin.cells [(1, []), (0, [(97, [ParserOp.terminal [97]])])], ∀ op ∈ c.2.2,
        (match op with | ParserOp.nonTerminal _ => false | _ => true) = true := by decide +kernel
    have := hno _ this (.nonTerminal n) (by simp)
    cases this
  · intro tbl
    have hp : tbl.Public := by
      rintro n row b ops h1 h2 op ho
      have hb := mem_cells_of_get h1 h2
      have hno : ∀ c ∈ Lin.cells tbl, ∀ op ∈ c.2.2,
        (match op with | ParserOp.nonTerminal _ => true | .terminal _ => true | _ => false) = true := by decide +kernel
      have := hno _ hb op ho
      cases op <;> first | trivial | cases this
    have h1 : CanEnter tbl 0 0 := .start 0
    have h2 : Steps1 (ComesTo tbl 0) 0 0 := ⟨0, .refl, [.terminal [0]], [], rfl, .inr ⟨rfl, .lit (by simp) .nil⟩⟩
    exact ⟨h1, h2, (C88_hangs_iff ⟨tbl, none⟩ ⟨_, rfl⟩ hp).2 ⟨0, 0, h1, h2⟩⟩

/-- **C88, a concrete case of unused cells.** Row 0 never comes to row 7, so it can go. -/
theorem C88_unused_example :
    let tbl : Table := [(0, [(97, [.terminal [97], .terminal [98], .nonTerminal 1])]),
      (1, [(98, []), (0, [])]), (7, [(97, [.nonTerminal 7])])]
    let tbl' : Table := [(0, [(97, [.terminal [97], .terminal [98], .nonTerminal 1])]), (1, [(98, []), (0, [])])]
    tbl ≠ tbl' ∧ ∀ nm src o, (Parser.mk tbl nm).Returns src o ↔ (Parser.mk tbl' nm).Returns src o := by
  intro tbl tbl'
  have hno : ∀ c ∈ Lin.cells tbl, c.1 ≠ 7 → ∀ op ∈ c.2.2, op ≠ .nonTerminal 7 ∧
      (match op with | ParserOp.nonTerminal _ => true | .terminal _ => true | _ => false) = true := by decide +kernel
  have h7 : ∀ n b, CanEnter tbl n b → n ≠ 7 := by
    intro n b h
    induction h with
    | start => decide
    | inner _ hb _ ih => rintro rfl; exact (hno _ (Lin.mem_cells hb) ih (.nonTerminal 7) (by simp)).1 rfl
  have hp : ∀ t : Table, (∀ c ∈ Lin.cells t, ∀ op ∈ c.2.2,
      (match op with | ParserOp.nonTerminal _ => true | .terminal _ => true | _ => false) = true) → t.Public := by
    intro t ht n row b ops h1 h2 op ho
    have := ht _ (mem_cells_of_get h1 h2) op ho
    cases op <;> first | trivial | cases this
  have hp1 : tbl.Public := hp _ (by decide +kernel)
  have hp2 : tbl'.Public := hp _ (by decide +kernel)
  refine ⟨by decide +kernel, fun nm src o => ?_⟩
  refine (C88_unused_cells ⟨tbl, nm⟩ ⟨tbl', nm⟩ rfl ⟨_, rfl⟩ hp1 ⟨_, rfl⟩ hp2
    (fun n b h => ?_) src).1 o
  have hn := h7 n b h
  have hg : tbl'.get n = tbl.get n := by
    by_cases h0 : n = 0
    · subst h0; rfl
    · by_cases h1 : n = 1
      · subst h1; rfl
      · simp [tbl, tbl', GoMap.get, Ne.symm h0, Ne.symm h1, Ne.symm hn]
  exact ⟨by unfold bodyFor; rw [hg], by rw [hg]⟩

end LL1
