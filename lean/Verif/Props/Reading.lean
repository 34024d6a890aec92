import Verif.Props.Stdout
import Verif.Props.Language

/-!
# C74: the generated table for every grammar, also with terminals that begin with NUL
-/

namespace LL1

/-- **C74.** Every successful `FromGrammar`, whatever the terminals contain: a cell is present exactly for the bytes
an alternative reads as beginning with and, if an alternative reads as nullable, the bytes that can follow the rule;
its contents are the alternatives reading as beginning with that byte, one after the other. -/
theorem C74_cells (order : Order) (g : Grammar) (tbl : Table) (names : Names)
    (h : fromGrammar order g = .ok (tbl, names)) (i : Nat) (r : Rule) (hr : g.rules[i]? = some r) :
    ∃ row, tbl.get (i : Int) = some row ∧ ∀ b,
      ((∃ ops, GoMap.get row b = some ops) ↔
        (∃ alt ∈ r.tail.sequences, RFirst g alt.symbols b) ∨
        ((∃ alt ∈ r.tail.sequences, RNullable g alt.symbols) ∧ RNextFollow g i b)) ∧
      (∀ ops, GoMap.get row b = some ops → RPredicted g b r.tail.sequences ops) := by
  have ht := TG.fromGrammar_rok h
  have hi := (List.getElem?_eq_some_iff.1 hr).1
  obtain ⟨row, hrow, hok⟩ := ht.rows i hi
  refine ⟨row, hrow, fun b => ?_⟩
  obtain ⟨h1, h2⟩ := hok.spec r hr b
  refine ⟨⟨fun ⟨ops, ho⟩ => (h2 ops ho).1, fun hs => ?_⟩, fun ops ho => (h2 ops ho).2⟩
  cases hg : GoMap.get row b with
  | none => exact (h1 hg hs).elim
  | some ops => exact ⟨ops, rfl⟩

/-- **C74.** Every well-formed grammar is accepted or rejected with "multiple parser op sets", and the latter iff some
rule has a clash as the package reads it. -/
theorem C74_conflict_iff (order : Order) (g : Grammar) (hw : g.WellFormed) :
    (fromGrammar order g = .err .conflict ↔ ∃ i, RClash g i) ∧
    ((∃ tbl names, fromGrammar order g = .ok (tbl, names)) ↔ ∀ i, ¬ RClash g i) := by
  rcases TG.fromGrammar_rcases order hw with ⟨⟨r, h⟩, hc⟩ | ⟨h, i, hc⟩
  · refine ⟨⟨fun h' => ?_, fun ⟨i, hi⟩ => (hc i hi).elim⟩, fun _ => hc, fun _ => ⟨r.1, r.2, h⟩⟩
    rw [h] at h'; cases h'
  · refine ⟨⟨fun _ => ⟨i, hc⟩, fun _ => h⟩, fun ⟨t, n, h'⟩ => ?_, fun h' => (h' i hc).elim⟩
    rw [h] at h'; cases h'

/-- **C74.** On any grammar at all, a reported clash is a clash as the package reads it. -/
theorem C74_conflict_clash (order : Order) (g : Grammar) (h : fromGrammar order g = .err .conflict) :
    ∃ i, RClash g i := TG.fromGrammar_rconflict h

/-- **C74.** Without terminals that begin with NUL this reading is the textbook's. -/
theorem C74_reading_textbook (g : Grammar) (hz : g.NulStartFree) (i : Nat) :
    (∀ alt, g.Alt i alt → (RNullable g alt.symbols ↔ Nullable g alt.symbols) ∧
      ∀ b, RFirst g alt.symbols b ↔ First g alt.symbols b) ∧
    (∀ b, RNextFollow g i b ↔ NextFollow g i b) ∧ (RClash g i ↔ Clash g i) ∧
    (∀ r b ops, g.rules[i]? = some r → (RPredicted g b r.tail.sequences ops ↔ Predicted g b r.tail.sequences ops)) :=
  ⟨fun _ ha => ⟨TG.rnullable_alt hz ha, TG.rfirst_alt hz ha⟩, TG.rnextFollow_iff hz i, TG.rclash_iff hz i,
    fun r _ _ hr => TG.rpredicted_iff hz (i := i) fun _ ha => ⟨r, hr, ha⟩⟩

theorem rfirst_ne_zero {g : Grammar} {syms : List Symbol} {b : UInt8} (h : RFirst g syms b) : b ≠ 0 := by
  induction h with
  | terminal h => exact h
  | head _ _ _ ih => exact ih
  | skip _ _ _ ih => exact ih

/-- **C74.** What a terminal that begins with NUL does: an alternative starting with it reads as the empty alternative.
No byte predicts it, and every byte that can follow the rule gets a cell (holding the other alternatives that begin with
that byte, usually none). -/
theorem C74_nul_alternative (order : Order) (g : Grammar) (tbl : Table) (names : Names)
    (h : fromGrammar order g = .ok (tbl, names)) (i : Nat) (alt : Sequence) (ha : g.Alt i alt) (t : Str)
    (rest : List Symbol) (hs : alt.symbols = .terminal (0 :: t) :: rest) :
    (∀ b, ¬ RFirst g alt.symbols b) ∧
    ∃ row, tbl.get (i : Int) = some row ∧ ∀ b, RNextFollow g i b → ∃ ops, GoMap.get row b = some ops := by
  refine ⟨fun b hb => ?_, ?_⟩
  · rw [hs] at hb
    cases hb with
    | terminal h => exact h rfl
    | skip h => exact h t rfl
  · obtain ⟨r, hr, hm⟩ := ha
    obtain ⟨row, hrow, hc⟩ := C74_cells order g tbl names h i r hr
    exact ⟨row, hrow, fun b hb => (hc b).1.2 (.inr ⟨⟨alt, hm, by rw [hs]; exact .nul⟩, hb⟩)⟩

/-- **C74.** Exactly when a generated parser accepts a source that is empty or begins with NUL: iff the first rule reads
as nullable; the tree is then the single empty node. -/
theorem C74_empty_source (order : Order) (g : Grammar) (tbl : Table) (names : Names)
    (h : fromGrammar order g = .ok (tbl, names)) (m : Names) (src : Source) (text : Str)
    (hr : readSource src = .ok text) (h0 : byteAt text 0 = 0) :
    ((∃ t m', (Parser.mk tbl (some m)).Returns src (.ok t m')) ↔ RRuleNullable g 0) ∧
    (∀ t m', (Parser.mk tbl (some m)).Returns src (.ok t m') →
      t = Node.mk 0 0 0 [Node.mk builtinNothing 0 0 []]) := by
  have hc := fromGrammar_closedTable h
  have ht := TG.fromGrammar_rok h
  obtain ⟨r, hr0⟩ : ∃ r, g.rules[0]? = some r :=
    ⟨_, List.getElem?_eq_getElem (List.length_pos_iff.2 ht.rules)⟩
  obtain ⟨row, hrow, hcell⟩ := C74_cells order g tbl names h 0 r hr0
  have hbody : bodyFor tbl 0 0 = GoMap.get row 0 := by
    have : tbl.get 0 = some row := hrow
    simp [bodyFor, this]
  have hnone : ∀ alt ∈ r.tail.sequences, ¬ RFirst g alt.symbols 0 := fun a _ hf => rfirst_ne_zero hf rfl
  have hiff : (∃ ops, GoMap.get row 0 = some ops) ↔ RRuleNullable g 0 := by
    rw [(hcell 0).1]
    constructor
    · rintro (⟨a, ha, hf⟩ | ⟨⟨a, ha, hn⟩, _⟩)
      · exact (hnone a ha hf).elim
      · exact ⟨a, ⟨r, hr0, ha⟩, hn⟩
    · rintro ⟨a, ⟨r', hr', ha⟩, hn⟩
      rw [hr0] at hr'
      cases hr'
      exact .inr ⟨⟨a, ha, hn⟩, .start⟩
  have hempty : ∀ ops, GoMap.get row 0 = some ops → ops = [] := fun ops ho =>
    TG.rpredicted_det ((hcell 0).2 ops ho) (TG.rpredicted_none hnone)
  have htree : ∀ t m', (Parser.mk tbl (some m)).Returns src (.ok t m') →
      (∃ ops, GoMap.get row 0 = some ops) ∧ t = Node.mk 0 0 0 [Node.mk builtinNothing 0 0 []] := by
    intro t m' hp
    obtain ⟨⟨j, hD, _⟩, _⟩ := (returns_ok_iff (p := Parser.mk tbl (some m)) hc.hasEntry hc.public hr).1 hp
    cases hD with
    | nt hb hd hd' =>
      rw [h0, hbody] at hb
      obtain rfl := hempty _ hb
      cases hd
      cases hd'
      exact ⟨⟨_, hb⟩, rfl⟩
  refine ⟨⟨fun ⟨t, m', hp⟩ => hiff.1 (htree t m' hp).1, fun hn => ?_⟩, fun t m' hp => (htree t m' hp).2⟩
  obtain ⟨ops, ho⟩ := hiff.2 hn
  obtain rfl := hempty _ ho
  refine ⟨_, _, returns_parse (p := Parser.mk tbl (some m)) hc.hasEntry hr ⟨0, .nt ?_ (.nil 0) (.nil 0), h0⟩⟩
  rw [h0, hbody]; exact ho

/-- `S ::= "a" | "\0b"`. -/
def Ex.nulStart : Grammar :=
  ⟨[⟨b!"S", ⟨[⟨[.terminal [97]]⟩, ⟨[.terminal [0, 98]]⟩]⟩⟩]⟩

/-- **C74.** It differs from the textbook's: `S ::= "a" | "\0b"` is LL(1) and accepted, yet its parser accepts the empty
source, which is no sentence, and accepts the sentence `"\0b"` only by not reading it. -/
theorem C74_differs :
    Ex.nulStart.WellFormed ∧ IsLL1 Ex.nulStart ∧
    fromGrammar id Ex.nulStart = .ok ([(0, [(0, []), (97, [.terminal [97]])])], [(0, b!"S")]) ∧
    ¬ Sentence Ex.nulStart [] ∧
    (∃ m', (Parser.mk [(0, [(0, []), (97, [.terminal [97]])])] (some [(0, b!"S")])).Returns (.string [])
      (.ok (Node.mk 0 0 0 [Node.mk builtinNothing 0 0 []]) m')) ∧
    (∃ m', (Parser.mk [(0, [(0, []), (97, [.terminal [97]])])] (some [(0, b!"S")])).Returns (.string [0, 98])
      (.ok (Node.mk 0 0 0 [Node.mk builtinNothing 0 0 []]) m')) := by
  refine ⟨wellFormed_of (by decide +kernel), isLL1_of_check (c := Cert.compute Ex.nulStart 4) (by decide +kernel),
    by decide +kernel, ?_, ⟨_, 40, rfl⟩, ⟨_, 40, rfl⟩⟩
  rintro ⟨alt, ⟨r, hr, ha⟩, hG⟩
  cases hr
  simp only [List.mem_cons, List.not_mem_nil, or_false] at ha
  have hn := nullable_iff_gen.2 hG
  rcases ha with rfl | rfl <;> cases hn

/-- `S ::= A S | "b"`, `A ::= "\0a"`. -/
def Ex.nulHang : Grammar :=
  ⟨[⟨b!"S", ⟨[⟨[.nonTerminal b!"A", .nonTerminal b!"S"]⟩, ⟨[.terminal b!"b"]⟩]⟩⟩, ⟨b!"A", ⟨[⟨[.terminal [0, 97]]⟩]⟩⟩]⟩

/-- The table `FromGrammar` returns for it. -/
def Ex.nulHangTable : Table :=
  [(1, [(98, [])]), (0, [(98, [.nonTerminal 1, .nonTerminal 0, .terminal [98]])])]

/-- **C74.** Why C34 asks that no terminal begins with NUL: `S ::= A S | "b"`, `A ::= "\0a"` is LL(1) and without left
recursion, `FromGrammar` accepts it, and `b` is a sentence; but its parser never returns on any source that begins with
`b`. -/
theorem C74_hangs :
    Ex.nulHang.WellFormed ∧ IsLL1 Ex.nulHang ∧ Sentence Ex.nulHang b!"b" ∧
    fromGrammar id Ex.nulHang = .ok (Ex.nulHangTable, [(0, b!"S"), (1, b!"A")]) ∧
    ∀ nm src text, readSource src = .ok (98 :: text) → (Parser.mk Ex.nulHangTable nm).Diverges src := by
  refine ⟨wellFormed_of (by decide +kernel), isLL1_of_check (c := Cert.compute Ex.nulHang 6) (by decide +kernel),
    ⟨⟨[.terminal b!"b"]⟩, ⟨_, rfl, by decide⟩, .terminal .nil⟩, by decide +kernel, fun nm src text hr => ?_⟩
  have hok : fromGrammar id Ex.nulHang = .ok (Ex.nulHangTable, [(0, b!"S"), (1, b!"A")]) := by decide +kernel
  have hc := fromGrammar_closedTable hok
  have hb0 : byteAt (98 :: text) 0 = 98 := rfl
  have h0 : bodyFor Ex.nulHangTable 0 98 = some [.nonTerminal 1, .nonTerminal 0, .terminal [98]] := by decide +kernel
  have h1 : bodyFor Ex.nulHangTable 1 98 = some [] := by decide +kernel
  have stay : ∀ {ops i j cs}, Derives Ex.nulHangTable (98 :: text) ops i j cs → i = 0 →
      ops = [.nonTerminal 1, .nonTerminal 0, .terminal [98]] ∨ ops = [.nonTerminal 0, .terminal [98]] ∨
        ops = [.nonTerminal 0] → False := by
    intro ops i j cs h
    induction h with
    | nil => intro _ h; simp at h
    | lit => intro _ h; simp at h
    | nt hb' hd1 hd2 ih1 ih2 =>
      rintro rfl h
      rw [hb0] at hb'
      rcases h with h | h | h
      · cases h
        rw [h1] at hb'
        cases hb'
        cases hd1
        exact ih2 rfl (.inr (.inl rfl))
      · cases h
        rw [h0] at hb'
        cases hb'
        exact ih1 rfl (.inl rfl)
      · cases h
        rw [h0] at hb'
        cases hb'
        exact ih1 rfl (.inl rfl)
  have nof : ∀ {ops i k e}, FailsAt Ex.nulHangTable nm (98 :: text) ops i k e → i = 0 →
      ops = [.nonTerminal 1, .nonTerminal 0, .terminal [98]] ∨ ops = [.nonTerminal 0, .terminal [98]] ∨
        ops = [.nonTerminal 0] ∨ ops = [] → False := by
    intro ops i k e h
    induction h with
    | lit => intro _ h; simp at h
    | afterLit => intro _ h; simp at h
    | noBody hb' =>
      rintro rfl h
      rw [hb0] at hb'
      rcases h with h | h | h | h <;> cases h
      · rw [h1] at hb'; cases hb'
      · rw [h0] at hb'; cases hb'
      · rw [h0] at hb'; cases hb'
    | inside hb' hf ih =>
      rintro rfl h
      rw [hb0] at hb'
      rcases h with h | h | h | h <;> cases h
      · rw [h1] at hb'; cases hb'; exact ih rfl (.inr (.inr (.inr rfl)))
      · rw [h0] at hb'; cases hb'; exact ih rfl (.inl rfl)
      · rw [h0] at hb'; cases hb'; exact ih rfl (.inl rfl)
    | afterNt hb' hd hf ih =>
      rintro rfl h
      rw [hb0] at hb'
      rcases h with h | h | h | h <;> cases h
      · rw [h1] at hb'; cases hb'; cases hd; exact ih rfl (.inr (.inl rfl))
      · rw [h0] at hb'; cases hb'; exact stay hd rfl (.inl rfl)
      · rw [h0] at hb'; cases hb'; exact stay hd rfl (.inl rfl)
  rw [diverges_iff' (p := Parser.mk Ex.nulHangTable nm) hc.hasEntry hc.public hr]
  refine ⟨?_, ?_⟩
  · rintro t ⟨j, hd, _⟩
    exact stay hd rfl (.inr (.inr rfl))
  · rintro k e (hf | ⟨t, hd, _, _⟩)
    · exact nof hf rfl (.inr (.inr (.inl rfl)))
    · exact stay hd rfl (.inr (.inr rfl))

/-- `RClashAt`: `ClashAt` on the package's reading. -/
def RClashAt (g : Grammar) (i : Nat) (pre : List Sequence) (alt : Sequence) (b : UInt8) : Prop :=
  RNullable g alt.symbols ∧ RNextFollow g i b ∧
    ∃ earlier ∈ pre, RFirst g earlier.symbols b ∨ RNullable g earlier.symbols

/-- **C74.** What a rejected grammar prints, for every grammar: the cell of the first clash as the package reads it. -/
theorem C74_printed_cell (order : Order) (g : Grammar) (h : fromGrammar order g = .err .conflict) :
    ∃ i r pre alt post b ops, g.rules[i]? = some r ∧ r.tail.sequences = pre ++ alt :: post ∧
      RClashAt g i pre alt b ∧ RPredicted g b pre ops ∧ (fromGrammarOut order g).1 = TG.println ops ∧
      (∀ j, j < i → ¬ RClash g j) ∧
      (∀ pre' alt' post' b', pre = pre' ++ alt' :: post' → ¬ RClashAt g i pre' alt' b') ∧
      (∀ b', b' < b → ¬ RClashAt g i pre alt b') := by
  have hg := TG.good_fromGrammar order g
  unfold TG.Good at hg
  rw [TG.fromGrammarOut_snd] at hg
  rcases hg with ⟨_, h2⟩ | ⟨-, ops, ⟨i, r, hr, ⟨pre, alt, post, hp, ⟨hn, b, hb, hsel, hpred, hmin⟩, hfirst⟩, hi⟩, ho⟩
  · exact (h2 h).elim
  · rw [List.nil_append] at hsel hpred
    refine ⟨i, r, pre, alt, post, b, ops, hr, hp, ⟨hn, hb, (TG.rselects_iff hb).1 hsel⟩, hpred, ho, hi, ?_, ?_⟩
    · rintro pre' alt' post' b' hpre ⟨hn', hb', he⟩
      have := hfirst pre' alt' post' hpre hn' b' hb'
      rw [List.nil_append] at this
      exact this ((TG.rselects_iff hb').2 he)
    · rintro b' hlt ⟨_, hb', he⟩
      have := hmin b' hlt hb'
      rw [List.nil_append] at this
      exact this ((TG.rselects_iff hb').2 he)

/-- `S ::= A "x"`, `A ::= "" | "\0b"`. -/
def Ex.nulClash : Grammar :=
  ⟨[⟨b!"S", ⟨[⟨[.nonTerminal b!"A", .terminal b!"x"]⟩]⟩⟩, ⟨b!"A", ⟨[⟨[.nothing]⟩, ⟨[.terminal [0, 98]]⟩]⟩⟩]⟩

/-- A clash that only the package's reading has: `nulClash` is LL(1) but rejected, and prints `[]`. -/
example : IsLL1 Ex.nulClash ∧ fromGrammarOut id Ex.nulClash = (b!"[]\n", .err .conflict) :=
  ⟨isLL1_of_check (c := Cert.compute Ex.nulClash 4) (by decide +kernel), by decide +kernel⟩

end LL1
