import Verif.Props.TableGen
import Verif.Props.Parser

/-!
# Generated parsers and the language of the grammar (C32 – C36)
-/

namespace LL1

/-! ## C32 -/

/-- Strings derived from NUL-free terminals have no NUL byte. -/
theorem Gen.noNul {g : Grammar} (hz : g.NulFree) {syms : List Symbol} {w : Str} (h : Gen g syms w) :
    (∀ t, Symbol.terminal t ∈ syms → (0 : UInt8) ∉ t) → (0 : UInt8) ∉ w := by
  induction h with
  | nil => intro _; simp
  | terminal _ ih =>
    intro hs
    rw [List.mem_append, not_or]
    exact ⟨hs _ List.mem_cons_self, ih fun t ht => hs t (List.mem_cons_of_mem _ ht)⟩
  | nothing _ ih => intro hs; exact ih fun t ht => hs t (List.mem_cons_of_mem _ ht)
  | @nonTerminal _ i alt _ _ _ _ ha _ _ ih1 ih2 =>
    intro hs
    rw [List.mem_append, not_or]
    exact ⟨ih1 fun t ht => hz i alt t ha ht, ih2 fun t ht => hs t (List.mem_cons_of_mem _ ht)⟩

theorem takeWhile_of_take {text : Str} : ∀ {j : Nat}, j ≤ text.length → byteAt text j = 0 →
    (0 : UInt8) ∉ text.take j → text.takeWhile (· ≠ 0) = text.take j := by
  induction text with
  | nil => intro j hj _ _; simp at hj; simp
  | cons c text ih =>
    intro j hj hb h0
    cases j with
    | zero =>
      have : c = 0 := by simpa [byteAt] using hb
      simp [this]
    | succ j =>
      simp only [List.take_succ_cons, List.mem_cons, not_or] at h0
      have hb' : byteAt text j = 0 := by simpa [byteAt] using hb
      rw [List.takeWhile_cons_of_pos (by simpa using Ne.symm h0.1), List.take_succ_cons,
        ih (by simpa using hj) hb' h0.2]

theorem takeWhile_nulFree {text : Str} (h : (0 : UInt8) ∉ text) : text.takeWhile (· ≠ 0) = text := by
  induction text with
  | nil => rfl
  | cons c text ih =>
    rw [List.mem_cons, not_or] at h
    rw [List.takeWhile_cons_of_pos (by simpa using Ne.symm h.1), ih h.2]

/-- A node built from cell `(i, byte)` spans a string derivable from rule `i`. -/
theorem genRule_of_body {g : Grammar} {tbl : Table} (h : TG.TableOk g tbl) (hd : FirstDisjoint g)
    (hnf : tbl.NulFree) {src : Str} {n i j : Nat} {body : List ParserOp} {cs : List Node}
    (hn : n < g.rules.length) (hb : bodyFor tbl n (byteAt src i) = some body)
    (hD : Derives tbl src body i j cs) (hi : i ≤ src.length) : GenRule g n (slice src i j) := by
  rcases cell_alt h hd hn hb with ⟨_, ⟨alt, ha, hnl⟩, rfl⟩ | ⟨alt, ha, _, hp⟩
  · cases hD
    rw [slice_self]
    exact ⟨alt, ha, nullable_iff_gen.1 hnl⟩
  · exact ⟨alt, ha, gen_of_derives h hd hnf hD alt.symbols hp (bodyFor_nulFree hnf hb) hi⟩

/-- **C32.** If no two alternatives of a rule can begin with the same byte, what the generated parser
accepts - read up to the first NUL byte, if there is one - is a sentence of the grammar. -/
theorem C32_sound (order : Order) (g : Grammar) (tbl : Table) (names : Names)
    (h : fromGrammar order g = .ok (tbl, names)) (hd : FirstDisjoint g) (hz : g.NulFree)
    (m : Names) (src : Source) (text : Str) (hr : readSource src = .ok text) (t : Node) (m' : Names)
    (hp : (Parser.mk tbl (some m)).Returns src (.ok t m')) :
    Sentence g (text.takeWhile (· ≠ 0)) := by
  have hc := fromGrammar_closedTable h
  have ht := TG.fromGrammar_ok hz.start h
  have hnf := fromGrammar_tableNulFree h hz
  obtain ⟨⟨j, hD, hj⟩, _⟩ := (returns_ok_iff (p := Parser.mk tbl (some m)) hc.hasEntry hc.public hr).1 hp
  cases hD with
  | nt hb hD1 hD2 =>
    cases hD2
    have hjl := hD1.bound hnf (bodyFor_nulFree hnf hb) (Nat.zero_le _)
    have hG := genRule_of_body ht hd hnf hc.pos hb hD1 (Nat.zero_le _)
    have hs : slice text 0 j = text.take j := by simp [slice]
    rw [hs] at hG
    obtain ⟨alt, ha, hG⟩ := hG
    have := hG.noNul hz (fun t ht => hz 0 alt t ha ht)
    rw [takeWhile_of_take hjl hj this]
    exact ⟨alt, ha, hG⟩

/-- A NUL-free accepted source is itself a sentence. -/
theorem C32_sound_nulFree (order : Order) (g : Grammar) (tbl : Table) (names : Names)
    (h : fromGrammar order g = .ok (tbl, names)) (hd : FirstDisjoint g) (hz : g.NulFree)
    (m : Names) (src : Source) (text : Str) (hr : readSource src = .ok text) (h0 : (0 : UInt8) ∉ text)
    (t : Node) (m' : Names) (hp : (Parser.mk tbl (some m)).Returns src (.ok t m')) : Sentence g text := by
  have := C32_sound order g tbl names h hd hz m src text hr t m' hp
  rwa [takeWhile_nulFree h0] at this

/-- `nested` meets the hypotheses and its parser accepts `((x),x)`. -/
example : ∃ tbl names, fromGrammar id Ex.nested = .ok (tbl, names) ∧ FirstDisjoint Ex.nested ∧
    Ex.nested.NulFree ∧ ∃ t m, (Parser.mk tbl (some names)).Returns (.string b!"((x),x)") (.ok t m) :=
  ⟨_, _, Ex.nested_ok, Ex.nested_ll1.1, nulFree_of (by decide +kernel), _, _, 100, rfl⟩

/-- **C32.** Disjointness is needed: `S ::= "a" "b" | "a" "c"` is accepted by `FromGrammar`, and its
parser accepts `abac`, which is not a sentence, and rejects the sentence `ab`. -/
theorem C32_needs_disjoint :
    ∃ tbl names, fromGrammar id Ex.firstFirst = .ok (tbl, names) ∧
      (∃ t m, (Parser.mk tbl (some names)).Returns (.string b!"abac") (.ok t m)) ∧
      ¬ Sentence Ex.firstFirst b!"abac" ∧
      Sentence Ex.firstFirst b!"ab" ∧
      ∃ e, (Parser.mk tbl (some names)).Returns (.string b!"ab") (.err e) := by
  refine ⟨_, _, C30_unreported.1.2, ⟨_, _, 40, rfl⟩, ?_, ?_, ⟨_, 40, rfl⟩⟩
  · rintro ⟨alt, ⟨r, hr, ha⟩, hG⟩
    cases hr
    simp only [List.map_cons, List.map_nil, List.mem_cons, List.not_mem_nil, or_false] at ha
    rcases ha with rfl | rfl <;>
    · generalize hw : (b!"abac" : Str) = w at hG
      cases hG with
      | terminal hG =>
        cases hG with
        | terminal hG => cases hG; simp at hw
  · exact ⟨⟨[.terminal b!"a", .terminal b!"b"]⟩, ⟨_, rfl, by decide⟩, .terminal (.terminal .nil)⟩

/-! ## C33 -/

theorem covered_of_noGap {g : Grammar} {tbl : Table} (h : TG.TableOk g tbl) (hg : NoNullableGap g) :
    Covered g tbl := by
  intro i b hn hf
  obtain ⟨alt, ha, _⟩ := id hn
  obtain ⟨row, hrow, hok⟩ := h.rows i ha.lt
  obtain ⟨r, hr, _⟩ := id ha
  cases hb : GoMap.get row b with
  | some ops => exact ⟨row, ops, hrow, hb⟩
  | none =>
    refine ((h.cell hr b).1.1 ?_ (.inr ⟨hn, nextFollow_of_follow hg hf⟩)).elim
    rw [bodyFor_nat hrow, hb]

/-- **C33 (general form).** If the grammar is LL(1) and every byte that can follow a nullable rule has a
cell in its row, every sentence is accepted, and the tree spans it. -/
theorem C33_complete (order : Order) (g : Grammar) (tbl : Table) (names : Names)
    (h : fromGrammar order g = .ok (tbl, names)) (hz : g.NulFree) (hll : IsLL1 g) (hcov : Covered g tbl)
    (m : Names) (src : Source) (w : Str) (hr : readSource src = .ok w) (hw : Sentence g w) :
    ∃ t m', (Parser.mk tbl (some m)).Returns src (.ok t m') ∧ t.type = 0 ∧ t.pos = 0 ∧ t.stop = w.length := by
  have hc := fromGrammar_closedTable h
  have ht := TG.fromGrammar_ok hz.start h
  obtain ⟨t, hD⟩ := derives_of_sentence ht hll hcov hw
  have := returns_parse (p := Parser.mk tbl (some m)) hc.hasEntry hr
    ⟨_, hD, by simp [byteAt]⟩
  refine ⟨t, _, this, ?_⟩
  cases hD with
  | nt hb hD1 hD2 => cases hD2; exact ⟨rfl, rfl, rfl⟩

/-- **C33.** If the grammar is LL(1) without nullable gaps, every sentence is accepted. -/
theorem C33_complete_noGap (order : Order) (g : Grammar) (tbl : Table) (names : Names)
    (h : fromGrammar order g = .ok (tbl, names)) (hz : g.NulFree) (hll : IsLL1 g) (hg : NoNullableGap g)
    (m : Names) (src : Source) (w : Str) (hr : readSource src = .ok w) (hw : Sentence g w) :
    ∃ t m', (Parser.mk tbl (some m)).Returns src (.ok t m') ∧ t.type = 0 ∧ t.pos = 0 ∧ t.stop = w.length :=
  C33_complete order g tbl names h hz hll (covered_of_noGap (TG.fromGrammar_ok hz.start h) hg) m src w hr hw

theorem Ex.nested_sentence : Sentence Ex.nested b!"(x),x" := by
  have hT : Ex.nested.Refers b!"T" 1 := (TG.get_ruleMap _ _ _).1 (by decide +kernel)
  have hS : Ex.nested.Refers b!"S" 0 := (TG.get_ruleMap _ _ _).1 (by decide +kernel)
  have hT0 : Gen Ex.nested [.nonTerminal b!"T"] [] :=
    .nonTerminal (alt := ⟨[.nothing]⟩) (u := []) hT ⟨_, rfl, by decide⟩ (.nothing .nil) .nil
  have hx : Gen Ex.nested [.terminal b!"x", .nonTerminal b!"T"] b!"x" := .terminal hT0
  refine ⟨⟨[.terminal b!"(", .nonTerminal b!"S", .terminal b!")", .nonTerminal b!"T"]⟩, ⟨_, rfl, by decide⟩, ?_⟩
  refine .terminal (t := b!"(") (.nonTerminal (alt := ⟨[.terminal b!"x", .nonTerminal b!"T"]⟩)
    (u := b!"x") (w := b!"),x") hS ⟨_, rfl, by decide⟩ hx (.terminal (t := b!")") (w := b!",x") ?_))
  refine .nonTerminal (alt := ⟨[.terminal b!",", .nonTerminal b!"S"]⟩) (u := b!",x") (w := []) hT
    ⟨_, rfl, by decide⟩ (.terminal (t := b!",") (w := b!"x") ?_) .nil
  exact .nonTerminal (alt := ⟨[.terminal b!"x", .nonTerminal b!"T"]⟩) (u := b!"x") (w := []) hS
    ⟨_, rfl, by decide⟩ hx .nil

/-- All hypotheses of C33 hold for `nested`. -/
example : (∃ tbl names, fromGrammar id Ex.nested = .ok (tbl, names)) ∧ Ex.nested.NulFree ∧
    IsLL1 Ex.nested ∧ NoNullableGap Ex.nested ∧ Sentence Ex.nested b!"(x),x" :=
  ⟨succeeds_iff.1 (by decide +kernel), nulFree_of (by decide +kernel), Ex.nested_ll1, Ex.nested_noGap,
    Ex.nested_sentence⟩

/-- **C33.** With a nullable gap completeness fails: `gap` is LL(1), `FromGrammar` accepts it, `d` is a
sentence, and the generated parser rejects `d`. -/
theorem C33_gap_incomplete :
    ∃ tbl names, fromGrammar id Ex.gap = .ok (tbl, names) ∧ IsLL1 Ex.gap ∧ Sentence Ex.gap b!"d" ∧
      ∃ e, (Parser.mk tbl (some names)).Returns (.string b!"d") (.err e) := by
  have hA : Ex.gap.Refers b!"A" 1 := (TG.get_ruleMap _ _ _).1 (by decide +kernel)
  have hB : Ex.gap.Refers b!"B" 2 := (TG.get_ruleMap _ _ _).1 (by decide +kernel)
  refine ⟨[(2, [(100, []), (98, [.terminal b!"b"])]),
        (1, [(98, []), (0, []), (97, [.terminal b!"a"])]),
        (0, [(100, [.nonTerminal 1, .nonTerminal 2, .terminal b!"d"]),
             (98, [.nonTerminal 1, .nonTerminal 2, .terminal b!"d"]),
             (97, [.nonTerminal 1, .nonTerminal 2, .terminal b!"d"])])],
        [(0, b!"S"), (1, b!"A"), (2, b!"B")], by decide +kernel, C28_differs.1.1, ?_, ⟨_, 40, rfl⟩⟩
  exact ⟨⟨[.nonTerminal b!"A", .nonTerminal b!"B", .terminal b!"d"]⟩, ⟨_, rfl, by decide⟩,
    .nonTerminal (alt := ⟨[.nothing]⟩) (u := []) (w := b!"d") hA ⟨_, rfl, by decide⟩ (.nothing .nil)
      (.nonTerminal (alt := ⟨[.nothing]⟩) (u := []) (w := b!"d") hB ⟨_, rfl, by decide⟩ (.nothing .nil)
        (.terminal .nil))⟩

/-! ## C34 -/

/-- **C34.** For an LL(1) grammar that `FromGrammar` accepts, `Parse` returns on every source. -/
theorem C34_terminates (order : Order) (g : Grammar) (tbl : Table) (names : Names)
    (h : fromGrammar order g = .ok (tbl, names)) (hz : g.NulStartFree) (hll : IsLL1 g)
    (nm : Option Names) (src : Source) : ∃ o, (Parser.mk tbl nm).Returns src o := by
  have hc := fromGrammar_closedTable h
  have ht := TG.fromGrammar_ok hz h
  have he := hc.hasEntry
  cases hr : readSource src with
  | error e =>
    obtain ⟨row, hrow⟩ := he
    exact ⟨.err e, 0, by simp [Parser.parseFuel, hasEntry_length ⟨row, hrow⟩, hrow, hr]⟩
  | ok text =>
    rcases ll1_terminates hz ht hll hc nm text with ⟨j, cs, hD⟩ | ⟨k, e, hF⟩
    · obtain ⟨t, rfl⟩ : ∃ t, cs = [t] := by
        cases hD with
        | nt _ _ hD2 => cases hD2; exact ⟨_, rfl⟩
      by_cases hb : byteAt text j = 0
      · exact ⟨_, returns_parse (p := Parser.mk tbl nm) he hr ⟨j, hD, hb⟩⟩
      · exact ⟨_, returns_stuck (p := Parser.mk tbl nm) he hr (.inr ⟨t, hD, hb, rfl⟩)⟩
    · exact ⟨_, returns_stuck (p := Parser.mk tbl nm) he hr (.inl hF)⟩

/-- **C34.** Under the conditions of C33 the parser decides the language: on a NUL-free source it returns
a tree if the source is a sentence and an error otherwise. -/
theorem C34_decides (order : Order) (g : Grammar) (tbl : Table) (names : Names)
    (h : fromGrammar order g = .ok (tbl, names)) (hz : g.NulFree) (hll : IsLL1 g) (hcov : Covered g tbl)
    (m : Names) (src : Source) (text : Str) (hr : readSource src = .ok text) (h0 : (0 : UInt8) ∉ text) :
    (Sentence g text ↔ ∃ t m', (Parser.mk tbl (some m)).Returns src (.ok t m')) ∧
    (¬ Sentence g text ↔ ∃ e, (Parser.mk tbl (some m)).Returns src (.err e)) := by
  have hc := fromGrammar_closedTable h
  have h1 : Sentence g text ↔ ∃ t m', (Parser.mk tbl (some m)).Returns src (.ok t m') := by
    constructor
    · intro hw
      obtain ⟨t, m', ht, _⟩ := C33_complete order g tbl names h hz hll hcov m src text hr hw
      exact ⟨t, m', ht⟩
    · rintro ⟨t, m', ht⟩
      exact C32_sound_nulFree order g tbl names h hll.1 hz m src text hr h0 t m' ht
  refine ⟨h1, ?_⟩
  rw [h1]
  constructor
  · intro hn
    obtain ⟨o, ho⟩ := C34_terminates order g tbl names h hz.start hll (some m) src
    cases o with
    | ok t m' => exact (hn ⟨t, m', ho⟩).elim
    | err e => exact ⟨e, ho⟩
    | panic p =>
      rcases C08_no_panic tbl m hc.public src _ ho with ⟨_, _, h⟩ | ⟨_, h, _⟩ <;> cases h
  · rintro ⟨e, he⟩ ⟨t, m', ht⟩
    have := returns_det he ht
    cases this

/-- **C34.** For grammars that are not LL(1) termination can fail although `FromGrammar` reports nothing,
even without immediate left recursion: `A ::= X Y Z ; X ::= "" | A "c" ; Y ::= "" ; Z ::= "b"` is accepted
and its parser never returns on any source that starts with `b`. -/
def Ex.loops : Grammar := ⟨[
  rule b!"A" [[.nonTerminal b!"X", .nonTerminal b!"Y", .nonTerminal b!"Z"]],
  rule b!"X" [[.nothing], [.nonTerminal b!"A", .terminal b!"c"]],
  rule b!"Y" [[.nothing]],
  rule b!"Z" [[.terminal b!"b"]]]⟩

theorem C34_loops :
    ∃ tbl names, fromGrammar id Ex.loops = .ok (tbl, names) ∧
      ∀ src text, readSource src = .ok (98 :: text) → (Parser.mk tbl (some names)).Diverges src := by
  refine ⟨[(3, [(98, [.terminal b!"b"])]), (2, [(98, [])]),
      (1, [(98, [.nonTerminal 0, .terminal b!"c"]), (99, []), (0, [])]),
      (0, [(98, [.nonTerminal 1, .nonTerminal 2, .nonTerminal 3])])],
      [(0, b!"A"), (1, b!"X"), (2, b!"Y"), (3, b!"Z")], by decide +kernel, fun src text hr => ?_⟩
  have hc := fromGrammar_closedTable (order := id) (g := Ex.loops) (names :=
    [(0, b!"A"), (1, b!"X"), (2, b!"Y"), (3, b!"Z")]) (tbl := [(3, [(98, [.terminal b!"b"])]), (2, [(98, [])]),
      (1, [(98, [.nonTerminal 0, .terminal b!"c"]), (99, []), (0, [])]),
      (0, [(98, [.nonTerminal 1, .nonTerminal 2, .nonTerminal 3])])]) (by decide +kernel)
  refine C20_left_recursion_diverges (Parser.mk _ _) hc.hasEntry hc.public 98 (fun n => n = 0 ∨ n = 1) (.inl rfl) ?_
    src _ hr rfl
  rintro n (rfl | rfl)
  · exact ⟨by decide, _, 1, _, rfl, rfl, .inr rfl⟩
  · exact ⟨by decide, _, 0, _, rfl, rfl, .inl rfl⟩

/-! ## C35 -/

/-- How a node shows a grammar symbol: a terminal is a leaf of type −1 spelling it, a non-terminal a node
whose type is the number of the rule it refers to. -/
def Shows (g : Grammar) (text : Str) : Symbol → Node → Prop
  | .terminal t, c => c.type = -1 ∧ slice text c.pos c.stop = t ∧ (t ≠ [] → c.childs = [])
  | .nonTerminal name, c => ∃ i : Nat, g.Refers name i ∧ c.type = i
  | .nothing, _ => False

/-- **C35.** Returned trees are derivation trees: every node with a non-negative type `i` is about rule
`i`, spans a string derivable from it, and its children show, symbol by symbol, one alternative of rule
`i` - or the node is empty (spans nothing, single "nothing" child) and rule `i` derives the empty
string.  Each node tiles its span (C10). -/
theorem C35_derivation_tree (order : Order) (g : Grammar) (tbl : Table) (names : Names)
    (h : fromGrammar order g = .ok (tbl, names)) (hd : FirstDisjoint g) (hz : g.NulFree)
    (m : Names) (src : Source) (text : Str) (hr : readSource src = .ok text) (t : Node) (m' : Names)
    (hp : (Parser.mk tbl (some m)).Returns src (.ok t m')) :
    ∀ n ∈ preorder t, 0 ≤ n.type → ∃ i : Nat, n.type = i ∧ i < g.rules.length ∧
      GenRule g i (slice text n.pos n.stop) ∧
      ((∃ alt, g.Alt i alt ∧ First g alt.symbols (byteAt text n.pos) ∧
          AllPairs (Shows g text) alt.symbols n.childs) ∨
       (GenRule g i [] ∧ n.stop = n.pos ∧ n.childs = [.mk (-2) n.pos n.pos []])) := by
  have hc := fromGrammar_closedTable h
  have ht := TG.fromGrammar_ok hz.start h
  have hnf := fromGrammar_tableNulFree h hz
  obtain ⟨⟨j, hD, hj⟩, _⟩ := (returns_ok_iff (p := Parser.mk tbl (some m)) hc.hasEntry hc.public hr).1 hp
  have := hD.forall_nodes_bound hnf (Q := fun n => 0 ≤ n.type → ∃ i : Nat, n.type = i ∧ i < g.rules.length ∧
      GenRule g i (slice text n.pos n.stop) ∧
      ((∃ alt, g.Alt i alt ∧ First g alt.symbols (byteAt text n.pos) ∧
          AllPairs (Shows g text) alt.symbols n.childs) ∨
       (GenRule g i [] ∧ n.stop = n.pos ∧ n.childs = [.mk (-2) n.pos n.pos []])))
    (fun i _ h => by simp [nothingNode] at h)
    (fun s i _ _ h => by simp [literalNode] at h)
    (fun n i j body cs hj hb hd' h0 => by
      simp only [ntNode, Node.type_mk] at h0
      obtain ⟨k, hk, rfl⟩ : ∃ k : Nat, k < g.rules.length ∧ n = k := by
        have hb2 := hb
        simp only [bodyFor, h0, if_true] at hb2
        cases hrow : tbl.get n with
        | none => simp [hrow] at hb2
        | some row => exact (hc.rows n).1 ⟨row, hrow⟩
      have hi : i ≤ text.length := Nat.le_trans hd'.le hj
      refine ⟨k, rfl, hk, genRule_of_body ht hd hnf hk hb hd' hi, ?_⟩
      rcases cell_alt ht hd hk hb with ⟨_, ⟨alt, ha, hnl⟩, rfl⟩ | ⟨alt, ha, hf, hp⟩
      · right
        have := hd'.nil_inv.1
        subst this
        exact ⟨⟨alt, ha, nullable_iff_gen.1 hnl⟩, rfl, by simp [ntNode, nothingNode]⟩
      · left
        refine ⟨alt, ha, hf, ?_⟩
        have hne : body ≠ [] := by
          rintro rfl
          cases hp' : alt.symbols with
          | nil => rw [hp'] at hf; cases hf
          | cons x xs => rw [hp'] at hp; cases hp
        simp only [ntNode, hne, if_false, Node.childs_mk]
        have ha := hd'.answers hnf (bodyFor_nulFree hnf hb) hi
        clear hb hf hne hd'
        generalize alt.symbols = syms at hp
        induction hp generalizing cs with
        | nil => cases ha; exact .nil
        | @cons x op xs ops hx hxs ih =>
          cases ha with
          | @cons _ c _ cs h1 h2 =>
            refine .cons ?_ (ih cs h2)
            cases x with
            | terminal t => cases (hx : _ = _); exact h1
            | nothing => exact (hx : False).elim
            | nonTerminal name =>
              obtain ⟨q, hq, rfl⟩ := hx
              exact ⟨q, hq, h1⟩)
    (by intro s hs; simp at hs) (Nat.zero_le _)
  simpa using this

/-- The tree of `(x)` in `nested`: node types 0 and 1 are the rules `S` and `T`. -/
example : ∃ tbl names m, fromGrammar id Ex.nested = .ok (tbl, names) ∧
    (Parser.mk tbl (some names)).Returns (.string b!"(x)") (.ok
      (.mk 0 0 3 [.mk (-1) 0 1 [], .mk 0 1 2 [.mk (-1) 1 2 [], .mk 1 2 2 [.mk (-2) 2 2 []]],
        .mk (-1) 2 3 [], .mk 1 3 3 [.mk (-2) 3 3 []]]) m) :=
  ⟨_, _, _, Ex.nested_ok, 100, rfl⟩

/-! ## C36 -/

/-- **C36.** Left recursion, in general: let `D` be a set of rules containing rule 0 such that for the
byte `b` every rule of the set has an alternative that can begin with `b`, and the first such
alternative begins with a reference to a rule of the set.  Then (if `FromGrammar` accepts the grammar at
all) the generated parser never returns on a source that starts with `b`. -/
theorem C36_left_recursion_diverges (order : Order) (g : Grammar) (tbl : Table) (names : Names)
    (hz : g.NulStartFree) (h : fromGrammar order g = .ok (tbl, names)) (b : UInt8) (D : Nat → Prop) (hD0 : D 0)
    (hD : ∀ i, D i → ∃ r pre alt post name rest k, g.rules[i]? = some r ∧
      r.tail.sequences = pre ++ alt :: post ∧ (∀ a ∈ pre, ¬ First g a.symbols b) ∧
      First g alt.symbols b ∧ alt.symbols = .nonTerminal name :: rest ∧ g.Refers name k ∧ D k)
    (nm : Option Names) (src : Source) (text : Str) (hr : readSource src = .ok (b :: text)) :
    (Parser.mk tbl nm).Diverges src := by
  have hc := fromGrammar_closedTable h
  refine C20_left_recursion_diverges (Parser.mk tbl nm) hc.hasEntry hc.public b
    (fun n => ∃ i : Nat, n = i ∧ D i) ⟨0, rfl, hD0⟩ ?_ src _ hr rfl
  rintro n ⟨i, rfl, hi⟩
  obtain ⟨r, pre, alt, post, name, rest, k, hr', hs, hpre, hf, hal, hk, hDk⟩ := hD i hi
  obtain ⟨row, hrow, hcell⟩ := C26_cells order g tbl names hz h i r hr'
  obtain ⟨ops, ho⟩ := (hcell b).1.2 (.inl ⟨alt, by rw [hs]; simp, hf⟩)
  have hp := (hcell b).2 ops ho
  rw [hs] at hp
  have : ∃ rest', ops = .nonTerminal (k : Int) :: rest' := by
    clear ho hs
    induction pre generalizing ops with
    | nil =>
      cases hp with
      | @take _ _ ops' rest'' _ ha _ =>
        rw [hal] at ha
        cases ha with
        | cons hx _ =>
          obtain ⟨k', hk', rfl⟩ := hx
          rw [hk'.det hk]
          exact ⟨_, rfl⟩
      | skip hn _ => exact (hn hf).elim
    | cons a pre ih =>
      cases hp with
      | take hfa _ _ => exact (hpre a List.mem_cons_self hfa).elim
      | skip _ hp => exact ih (fun a ha => hpre a (List.mem_cons_of_mem _ ha)) ops hp
  obtain ⟨rest', rfl⟩ := this
  exact ⟨Int.natCast_nonneg i, row, k, rest', hrow, ho, k, rfl, hDk⟩

/-- `T ::= T "B" | "_"` -/
def Ex.leftRec : Grammar := ⟨[rule b!"T" [[.nonTerminal b!"T", .terminal b!"B"], [.terminal b!"_"]]]⟩
/-- `T ::= "_" | T "B"` -/
def Ex.leftRecSwapped : Grammar := ⟨[rule b!"T" [[.terminal b!"_"], [.nonTerminal b!"T", .terminal b!"B"]]]⟩

/-- **C36.** `T ::= T "B" | "_"` is accepted without an error and its parser never returns on any source
that starts with `_`, in particular on its own sentences.  With the alternatives swapped it is accepted
too, and its parser rejects the sentence `_`. -/
theorem C36_left_recursion_unreported :
    (∃ tbl names, fromGrammar id Ex.leftRec = .ok (tbl, names) ∧ Sentence Ex.leftRec b!"_B" ∧
      ∀ nm src text, readSource src = .ok (95 :: text) → (Parser.mk tbl nm).Diverges src) ∧
    (∃ tbl names, fromGrammar id Ex.leftRecSwapped = .ok (tbl, names) ∧
      Sentence Ex.leftRecSwapped b!"_" ∧
      ∃ e, (Parser.mk tbl (some names)).Returns (.string b!"_") (.err e)) := by
  refine ⟨?_, ⟨[(0, [(95, [.terminal b!"_", .nonTerminal 0, .terminal b!"B"])])], [(0, b!"T")],
    by decide +kernel, ⟨⟨[.terminal b!"_"]⟩, ⟨_, rfl, by decide⟩, .terminal .nil⟩, ⟨_, 40, rfl⟩⟩⟩
  have hT : Ex.leftRec.Refers b!"T" 0 := (TG.get_ruleMap _ _ _).1 (by decide +kernel)
  have hok : fromGrammar id Ex.leftRec =
      .ok ([(0, [(95, [.nonTerminal 0, .terminal b!"B", .terminal b!"_"])])], [(0, b!"T")]) := by
    decide +kernel
  refine ⟨_, _, hok, ?_, fun nm src text hr => ?_⟩
  · exact ⟨⟨[.nonTerminal b!"T", .terminal b!"B"]⟩, ⟨_, rfl, by decide⟩,
      .nonTerminal (alt := ⟨[.terminal b!"_"]⟩) (u := b!"_") (w := b!"B") hT ⟨_, rfl, by decide⟩
        (.terminal .nil) (.terminal .nil)⟩
  · refine C36_left_recursion_diverges id Ex.leftRec _ _ (nulStartFree_of (by decide +kernel)) hok 95
      (fun i => i = 0) rfl ?_ nm src text hr
    rintro i rfl
    exact ⟨_, [], ⟨[.nonTerminal b!"T", .terminal b!"B"]⟩, [⟨[.terminal b!"_"]⟩], b!"T", [.terminal b!"B"], 0,
      rfl, rfl, by simp, .head hT (alt := ⟨[.terminal b!"_"]⟩) ⟨_, rfl, by decide⟩ .terminal, rfl, hT, rfl⟩

end LL1
