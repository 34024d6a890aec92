import Verif.Proofs.Cut
import Verif.Props.TableGen
import Verif.Props.Language

/-!
# C81: `"ab"` or `"a" "b"`
-/

namespace LL1

/-- **C81.** `FromGrammar` on a grammar and on the same grammar with some terminals cut into pieces: the same error, the
same panic, or the same names and tables whose cells differ only in the cut terminals. -/
theorem C81_fromGrammar (order : Order) (g g' : Grammar) (h : CutGrammar g g') :
    (∃ tbl tbl' names, fromGrammar order g = .ok (tbl, names) ∧ fromGrammar order g' = .ok (tbl', names) ∧
      CutTable tbl tbl') ∨
    (∃ e, fromGrammar order g = .err e ∧ fromGrammar order g' = .err e) ∨
    ∃ x, fromGrammar order g = .panic x ∧ fromGrammar order g' = .panic x := by
  have hs := cut_fromGrammar h order
  have hd : fromGrammar order g ≠ .diverge := by
    intro hh
    rcases C22_terminates order g with ⟨_, _, h⟩ | ⟨_, h⟩ | ⟨_, h⟩ <;> rw [hh] at h <;> cases h
  generalize fromGrammar order g = x at hs hd ⊢
  generalize fromGrammar order g' = y at hs ⊢
  cases x with
  | ok a =>
    cases y with
    | ok b =>
      obtain ⟨tbl, names⟩ := a
      obtain ⟨tbl', names'⟩ := b
      obtain ⟨h1, h2⟩ := hs
      simp only at h2
      subst h2
      exact .inl ⟨_, _, _, rfl, rfl, h1⟩
    | _ => exact hs.elim
  | err e =>
    cases y with
    | err e' => cases (show e = e' from hs); exact .inr (.inl ⟨_, rfl, rfl⟩)
    | _ => exact hs.elim
  | panic e =>
    cases y with
    | panic e' => cases (show e = e' from hs); exact .inr (.inr ⟨_, rfl, rfl⟩)
    | _ => exact hs.elim
  | diverge => exact absurd rfl hd

theorem CutTable.entry {tbl tbl' : Table} (h : CutTable tbl tbl') : tbl.HasEntry ↔ tbl'.HasEntry := by
  unfold Table.HasEntry
  rcases h.row 0 with ⟨h1, h2⟩ | ⟨row, row', h1, h2, _⟩ <;> rw [h1, h2] <;> simp

theorem CutOps.public {a b : List ParserOp} (h : CutOps a b) : (∀ op ∈ a, op.Public) ↔ ∀ op ∈ b, op.Public := by
  induction h with
  | nil => exact Iff.rfl
  | same x _ ih => simp only [List.forall_mem_cons, ih]
  | cut u v _ _ _ ih =>
    simp only [List.forall_mem_cons] at ih ⊢
    rw [← ih]
    simp [ParserOp.Public]

theorem CutTable.public {tbl tbl' : Table} (h : CutTable tbl tbl') (hp : tbl.Public) : tbl'.Public := by
  intro n row' b ops' h1 h2
  rcases h.row n with ⟨_, h3⟩ | ⟨row, row'', h3, h4, h5⟩
  · rw [h1] at h3; cases h3
  · rw [h1] at h4; cases h4
    rcases h5.get b with ⟨_, h6⟩ | ⟨ops, ops'', h6, h7, h8⟩
    · rw [h2] at h6; cases h6
    · rw [h2] at h7; cases h7
      exact h8.public.1 (hp n row b ops h3 h6)

/-- **C81.** The parsers of two such tables (made by hand or by `FromGrammar`): on every source both return or neither does,
and they return the same error, or trees that differ only in that literal leaves are cut. -/
theorem C81_parse (tbl tbl' : Table) (h : CutTable tbl tbl') (hpub : tbl.Public) (names : Option Names) (src : Source) :
    (∃ o o', (Parser.mk tbl names).Returns src o ∧ (Parser.mk tbl' names).Returns src o' ∧ CutOutcome o o') ∨
    (Parser.mk tbl names).Diverges src ∧ (Parser.mk tbl' names).Diverges src := by
  by_cases he : tbl.HasEntry
  · have he' := h.entry.1 he
    have hpub' := h.public hpub
    have hops : CutOps [.nonTerminal 0] [.nonTerminal 0] := .refl _
    cases hr : readSource src with
    | error e =>
      refine .inl ⟨.err e, .err e, ⟨0, ?_⟩, ⟨0, ?_⟩, rfl⟩
      · obtain ⟨row, hrow⟩ := he
        unfold Parser.parseFuel
        rw [if_neg (hasEntry_length ⟨row, hrow⟩), hrow, hr]
      · obtain ⟨row, hrow⟩ := he'
        unfold Parser.parseFuel
        rw [if_neg (hasEntry_length ⟨row, hrow⟩), hrow, hr]
    | ok text =>
      have single : ∀ {j : Nat} {cs : List Node}, Derives tbl text [.nonTerminal 0] 0 j cs → ∃ t, cs = [t] := by
        intro j cs hd
        cases hd with
        | nt _ _ h2 => cases h2; exact ⟨_, rfl⟩
      have single' : ∀ {j : Nat} {cs : List Node}, Derives tbl' text [.nonTerminal 0] 0 j cs → ∃ t, cs = [t] := by
        intro j cs hd
        cases hd with
        | nt _ _ h2 => cases h2; exact ⟨_, rfl⟩
      by_cases h1 : ∃ t, IsParse tbl text t
      · obtain ⟨t, j, hd, hz⟩ := h1
        obtain ⟨cs', hd', hc⟩ := h.forward hd _ hops
        obtain ⟨t', rfl⟩ := single' hd'
        refine .inl ⟨_, _, returns_parse (p := Parser.mk tbl names) he hr ⟨j, hd, hz⟩,
          returns_parse (p := Parser.mk tbl' names) he' hr ⟨j, hd', hz⟩, ?_⟩
        cases names with
        | none => rfl
        | some m => exact ⟨rfl, hc⟩
      · by_cases h2 : ∃ k e, StuckAt tbl names text k e
        · obtain ⟨k, e, hst⟩ := h2
          refine .inl ⟨_, _, returns_stuck (p := Parser.mk tbl names) he hr hst,
            returns_stuck (p := Parser.mk tbl' names) (k := k) (e := e) he' hr ?_, rfl⟩
          rcases hst with hf | ⟨t, hd, hb, hee⟩
          · exact .inl (h.fails_forward hf _ hops)
          · obtain ⟨cs', hd', _⟩ := h.forward hd _ hops
            obtain ⟨t', rfl⟩ := single' hd'
            exact .inr ⟨t', hd', hb, hee⟩
        · right
          rw [diverges_iff' (p := Parser.mk tbl names) he hpub hr, diverges_iff' (p := Parser.mk tbl' names) he' hpub' hr]
          refine ⟨⟨fun t ht => h1 ⟨t, ht⟩, fun k e hs => h2 ⟨k, e, hs⟩⟩, ?_, ?_⟩
          · rintro t ⟨j, hd, hz⟩
            obtain ⟨cs', hd', _⟩ := h.backward hd _ hops
            obtain ⟨t', rfl⟩ := single hd'
            exact h1 ⟨t', j, hd', hz⟩
          · rintro k e (hf | ⟨t, hd, hb, hee⟩)
            · exact h2 ⟨k, e, .inl (h.fails_backward hf _ hops)⟩
            · obtain ⟨cs', hd', _⟩ := h.backward hd _ hops
              obtain ⟨t', rfl⟩ := single hd'
              exact h2 ⟨k, e, .inr ⟨t', hd', hb, hee⟩⟩
  · have he' := fun hh => he (h.entry.2 hh)
    left
    have key : ∀ t : Table, ¬ t.HasEntry → t.get 0 = none := by
      intro t ht
      cases hh : t.get 0 with
      | none => rfl
      | some row => exact absurd ⟨row, hh⟩ ht
    have hlen : tbl'.length = tbl.length := (allPairs_len h).symm
    by_cases hl : tbl.length = 0
    · refine ⟨.err .emptyTable, .err .emptyTable, ⟨0, ?_⟩, ⟨0, ?_⟩, rfl⟩
      · simp [Parser.parseFuel, hl]
      · simp [Parser.parseFuel, hlen, hl]
    · refine ⟨.err .noEntry, .err .noEntry, ⟨0, ?_⟩, ⟨0, ?_⟩, rfl⟩
      · simp [Parser.parseFuel, hl, key _ he]
      · simp [Parser.parseFuel, hlen, hl, key _ he']

/-- **C81.** Both together: the parsers generated from the two grammars treat every source alike. -/
theorem C81_generated (order : Order) (g g' : Grammar) (h : CutGrammar g g') (tbl : Table) (names : Names)
    (hok : fromGrammar order g = .ok (tbl, names)) :
    ∃ tbl', fromGrammar order g' = .ok (tbl', names) ∧ ∀ src,
      (∃ o o', (Parser.mk tbl (some names)).Returns src o ∧ (Parser.mk tbl' (some names)).Returns src o' ∧ CutOutcome o o') ∨
      (Parser.mk tbl (some names)).Diverges src ∧ (Parser.mk tbl' (some names)).Diverges src := by
  rcases C81_fromGrammar order g g' h with ⟨t, t', n, h1, h2, h3⟩ | ⟨e, h1, _⟩ | ⟨e, h1, _⟩
  · rw [hok] at h1
    cases h1
    exact ⟨t', h2, fun src => C81_parse _ _ h3 (fromGrammar_closedTable hok).public _ src⟩
  · rw [hok] at h1; cases h1
  · rw [hok] at h1; cases h1

theorem CutGrammar.head {g g' : Grammar} (h : CutGrammar g g') (i : Nat) (name : Str) : g.Head i name ↔ g'.Head i name := by
  unfold Grammar.Head
  rcases allPairs_getElem? h i with ⟨h1, h2⟩ | ⟨r, r', h1, h2, h3, _⟩
  · simp [h1, h2]
  · simp [h1, h2, h3]

theorem CutGrammar.refers {g g' : Grammar} (h : CutGrammar g g') (i : Nat) (name : Str) :
    g.Refers name i ↔ g'.Refers name i := by
  unfold Grammar.Refers
  simp only [h.head]

theorem allPairs_mem {α β : Type} {P : α → β → Prop} {a : List α} {b : List β} (h : AllPairs P a b) :
    (∀ x ∈ a, ∃ y ∈ b, P x y) ∧ ∀ y ∈ b, ∃ x ∈ a, P x y := by
  induction h with
  | nil => simp
  | cons h _ ih =>
    refine ⟨fun x hx => ?_, fun y hy => ?_⟩
    · rcases List.mem_cons.1 hx with rfl | hx
      · exact ⟨_, by simp, h⟩
      · obtain ⟨y, hy, hp⟩ := ih.1 x hx
        exact ⟨y, by simp [hy], hp⟩
    · rcases List.mem_cons.1 hy with rfl | hy
      · exact ⟨_, by simp, h⟩
      · obtain ⟨x, hx, hp⟩ := ih.2 y hy
        exact ⟨x, by simp [hx], hp⟩

theorem CutGrammar.alt {g g' : Grammar} (h : CutGrammar g g') (i : Nat) :
    (∀ a, g.Alt i a → ∃ a', g'.Alt i a' ∧ Cut a.symbols a'.symbols) ∧
    ∀ a', g'.Alt i a' → ∃ a, g.Alt i a ∧ Cut a.symbols a'.symbols := by
  unfold Grammar.Alt
  rcases allPairs_getElem? h i with ⟨h1, h2⟩ | ⟨r, r', h1, h2, _, h3⟩
  · simp [h1, h2]
  · obtain ⟨h4, h5⟩ := allPairs_mem h3
    refine ⟨?_, ?_⟩
    · rintro a ⟨r0, hr0, ha⟩
      rw [h1] at hr0; cases hr0
      obtain ⟨y, hy, hp⟩ := h4 a ha
      exact ⟨y, ⟨r', h2, hy⟩, hp⟩
    · rintro a ⟨r0, hr0, ha⟩
      rw [h2] at hr0; cases hr0
      obtain ⟨y, hy, hp⟩ := h5 a ha
      exact ⟨y, ⟨r, h1, hy⟩, hp⟩

theorem cut_gen_terminal {g' : Grammar} {a : List Symbol} {w : Str} (ih : ∀ a', Cut a a' → Gen g' a' w) :
    ∀ (len : Nat) (t : Str), t.length ≤ len → ∀ s', Cut (.terminal t :: a) s' → Gen g' s' (t ++ w) := by
  intro len
  induction len with
  | zero =>
    intro t ht s' hc
    cases hc with
    | same _ h => exact .terminal (ih _ h)
    | cut u v hu hv h => cases u <;> simp_all
  | succ len ihl =>
    intro t ht s' hc
    cases hc with
    | same _ h => exact .terminal (ih _ h)
    | cut u v hu hv h =>
      have hu' : 0 < u.length := by cases u <;> simp_all
      rw [List.length_append] at ht
      rw [List.append_assoc]
      exact .terminal (ihl v (by omega) _ h)

theorem CutGrammar.gen {g g' : Grammar} (h : CutGrammar g g') {s : List Symbol} {w : Str} (hg : Gen g s w) :
    ∀ s', Cut s s' → Gen g' s' w := by
  induction hg with
  | nil => intro s' hc; cases hc; exact .nil
  | @terminal t rest w _ ih =>
    intro s' hc
    exact cut_gen_terminal ih t.length t (Nat.le_refl _) s' hc
  | nothing _ ih =>
    intro s' hc
    cases hc with
    | same _ hc => exact .nothing (ih _ hc)
  | nonTerminal hr ha _ _ ih1 ih2 =>
    intro s' hc
    cases hc with
    | same _ hc =>
      obtain ⟨a', ha', hca⟩ := (h.alt _).1 _ ha
      exact .nonTerminal ((h.refers _ _).1 hr) ha' (ih1 _ hca) (ih2 _ hc)

theorem CutGrammar.gen_back {g g' : Grammar} (h : CutGrammar g g') {s' : List Symbol} {w : Str} (hg : Gen g' s' w) :
    ∀ s, Cut s s' → Gen g s w := by
  induction hg with
  | nil => intro s hc; cases hc; exact .nil
  | @terminal t rest w _ ih =>
    intro s hc
    cases hc with
    | same _ hc => exact .terminal (ih _ hc)
    | cut u v hu hv hc =>
      have := ih _ hc
      cases this with
      | terminal h2 => rw [← List.append_assoc]; exact .terminal h2
  | nothing _ ih =>
    intro s hc
    cases hc with
    | same _ hc => exact .nothing (ih _ hc)
  | nonTerminal hr ha _ _ ih1 ih2 =>
    intro s hc
    cases hc with
    | same _ hc =>
      obtain ⟨a', ha', hca⟩ := (h.alt _).2 _ ha
      exact .nonTerminal ((h.refers _ _).2 hr) ha' (ih1 _ hca) (ih2 _ hc)

/-- **C81.** The two grammars have the same language. -/
theorem C81_language (g g' : Grammar) (h : CutGrammar g g') (w : Str) : Sentence g w ↔ Sentence g' w := by
  constructor
  · rintro ⟨a, ha, hg⟩
    obtain ⟨a', ha', hc⟩ := (h.alt 0).1 a ha
    exact ⟨a', ha', h.gen hg _ hc⟩
  · rintro ⟨a', ha', hg⟩
    obtain ⟨a, ha, hc⟩ := (h.alt 0).2 a' ha'
    exact ⟨a, ha, h.gen_back hg _ hc⟩

/-- `S ::= "abc" S | ""` -/
def Ex.whole : Grammar := ⟨[rule b!"S" [[.terminal b!"abc", .nonTerminal b!"S"], [.nothing]]]⟩

/-- `S ::= "a" "bc" S | ""` -/
def Ex.pieces : Grammar := ⟨[rule b!"S" [[.terminal b!"a", .terminal b!"bc", .nonTerminal b!"S"], [.nothing]]]⟩

/-- **C81, a concrete case.** `S ::= "abc" S | ""` and `S ::= "a" "bc" S | ""`: the trees for `abc`. -/
theorem C81_example :
    CutGrammar Ex.whole Ex.pieces ∧
    (∃ tbl tbl' names m, fromGrammar id Ex.whole = .ok (tbl, names) ∧ fromGrammar id Ex.pieces = .ok (tbl', names) ∧
      (Parser.mk tbl (some names)).Returns (.string b!"abc") (.ok (.mk 0 0 3
        [.mk (-1) 0 3 [], .mk 0 3 3 [.mk (-2) 3 3 []]]) m) ∧
      (Parser.mk tbl' (some names)).Returns (.string b!"abc") (.ok (.mk 0 0 3
        [.mk (-1) 0 1 [], .mk (-1) 1 3 [], .mk 0 3 3 [.mk (-2) 3 3 []]]) m)) := by
  refine ⟨.cons ⟨rfl, .cons ?_ (.cons (.same _ .nil) .nil)⟩ .nil, ?_⟩
  · exact .cut b!"a" b!"bc" (by decide) (by decide) (.same _ (.same _ .nil))
  · exact ⟨_, _, _, _, rfl, rfl, ⟨30, rfl⟩, ⟨30, rfl⟩⟩

end LL1
