import Verif.Proofs.Hang
import Verif.Proofs.LinearTime
import Verif.Props.Language
import Verif.Props.Memory

/-!
# C79: exactly when `Parse` never returns
-/

namespace LL1

/-- **C79.** For every table: `Parse` never returns on a source iff, starting with row 0 at the beginning, it can go on for
ever entering rows from within rows (each time after deriving what comes before in the cell). -/
theorem C79_hangs_iff_chain (p : Parser) (he : p.table.HasEntry) (hpub : p.table.Public) (src : Source) (text : Str)
    (hr : readSource src = .ok text) :
    p.Diverges src ↔ ∃ f : Nat → Int × Nat, f 0 = (0, 0) ∧ ∀ k, Enters p.table text (f k) (f (k + 1)) := by
  rw [diverges_iff_not_acc he hpub hr]
  constructor
  · exact chain_of_not_acc
  · rintro ⟨f, h0, hf⟩ ha
    exact not_acc_of_chain ha f h0 hf

theorem Enters.bound {tbl : Table} {text : Str} (hnf : tbl.NulStartFree) {B : Nat}
    (hB : ∀ n b body, bodyFor tbl n b = some body → ∀ s, ParserOp.terminal s ∈ body → s.length ≤ B) {x y : Int × Nat}
    (h : Enters tbl text x y) (hx : x.2 ≤ text.length + B) : y.2 ≤ text.length + B := by
  obtain ⟨pre, post, cs, hb, hd⟩ := h
  refine hd.bound_start hnf hB ?_ ?_ hx
  · intro s hs
    exact bodyFor_startFree hnf hb s (List.mem_append_left _ hs)
  · intro s hs
    exact hB _ _ _ hb s (List.mem_append_left _ hs)

theorem literal_bound (tbl : Table) :
    ∃ B, ∀ n b body, bodyFor tbl n b = some body → ∀ s, ParserOp.terminal s ∈ body → s.length ≤ B := by
  obtain ⟨B, hB'⟩ := Lin.bounded tbl (fun _ _ body => (body.map fun op => match op with | .terminal s => s.length | _ => 0).sum)
  refine ⟨B, fun n b body hb s hs => Nat.le_trans ?_ (hB' n b body hb)⟩
  clear hb hB'
  induction body with
  | nil => simp at hs
  | cons op ops ih =>
    simp only [List.map_cons, List.sum_cons]
    rcases List.mem_cons.1 hs with rfl | hs
    · exact Nat.le_add_right _ _
    · exact Nat.le_trans (ih hs) (Nat.le_add_left _ _)

/-- **C79.** If no literal begins with NUL: `Parse` never returns on a source iff at some offset it comes to work on a row
that leads back to itself at the same offset.  (With literals that begin with NUL it can also run behind the end of the
source for ever, C20.) -/
theorem C79_hangs_iff_loop (p : Parser) (he : p.table.HasEntry) (hpub : p.table.Public) (hnf : p.table.NulStartFree)
    (src : Source) (text : Str) (hr : readSource src = .ok text) :
    p.Diverges src ↔ ∃ x, Steps (Enters p.table text) (0, 0) x ∧ Steps1 (Enters p.table text) x x := by
  constructor
  · intro h
    obtain ⟨f, h0, hf⟩ := (C79_hangs_iff_chain p he hpub src text hr).1 h
    obtain ⟨B, hB⟩ := literal_bound p.table
    have hb : ∀ k, (f k).2 ≤ text.length + B := by
      intro k
      induction k with
      | zero => rw [h0]; exact Nat.zero_le _
      | succ k ih => exact (hf k).bound hnf hB ih
    have hmem : ∀ k, f k ∈ ((Lin.cells p.table).map fun c => c.1).flatMap fun n =>
        (List.range (text.length + B + 1)).map fun i => (n, i) := by
      intro k
      obtain ⟨pre, post, cs, hbd, _⟩ := hf k
      refine List.mem_flatMap.2 ⟨(f k).1, List.mem_map.2 ⟨_, Lin.mem_cells hbd, rfl⟩, List.mem_map.2 ⟨(f k).2, ?_, rfl⟩⟩
      have := hb k
      exact List.mem_range.2 (by omega)
    have := loop_of_chain hf _ hmem
    rwa [h0] at this
  · rintro ⟨x, h1, h2⟩
    rw [diverges_iff_not_acc he hpub hr]
    intro ha
    exact not_acc_of_loop h2 (acc_steps ha h1)

theorem Enters.agree {tbl : Table} {text text' : Str} {x y : Int × Nat} (h : Enters tbl text x y)
    (ha : AgreeTo text text' y.2) : Enters tbl text' x y := by
  have hle := h.le
  obtain ⟨pre, post, cs, hb, hd⟩ := h
  exact ⟨pre, post, cs, by rw [← ha _ hle]; exact hb, hd.agree ha⟩

theorem Steps.agree {tbl : Table} {text text' : Str} {x y : Int × Nat} (h : Steps (Enters tbl text) x y)
    (ha : AgreeTo text text' y.2) : Steps (Enters tbl text') x y := by
  induction h with
  | refl => exact .refl
  | step _ h2 ih => exact .step (ih (ha.mono h2.le)) (h2.agree ha)

/-- **C79.** What makes `Parse` hang lies in the source up to some offset (in the source or at its end): it hangs on every
source that has the same bytes up to that offset. -/
theorem C79_prefix (p : Parser) (he : p.table.HasEntry) (hpub : p.table.Public) (hnf : p.table.NulFree)
    (src : Source) (text : Str) (hr : readSource src = .ok text) (h : p.Diverges src) :
    ∃ i, i ≤ text.length ∧ ∀ src' text', readSource src' = .ok text' →
      (∀ q, q ≤ i → byteAt text q = byteAt text' q) → p.Diverges src' := by
  obtain ⟨x, h1, y, h2, h3⟩ := (C79_hangs_iff_loop p he hpub hnf.start src text hr).1 h
  refine ⟨x.2, ?_, fun src' text' hr' ha => ?_⟩
  · have : ∀ z, Steps (Enters p.table text) (0, 0) z → z.2 ≤ text.length := by
      intro z hz
      induction hz with
      | refl => exact Nat.zero_le _
      | step _ h2 ih =>
        obtain ⟨pre, post, cs, hb, hd⟩ := h2
        exact hd.bound hnf (fun s hs => bodyFor_nulFree hnf hb s (List.mem_append_left _ hs)) ih
    exact this x h1
  · have ha' : AgreeTo text text' x.2 := ha
    refine (C79_hangs_iff_loop p he hpub hnf.start src' text' hr').2 ⟨x, h1.agree ha', y, ?_, h3.agree ha'⟩
    exact h2.agree (ha'.mono h3.le)

theorem diverges_source {p : Parser} {src : Source} (h : p.Diverges src) : ∃ text, readSource src = .ok text := by
  cases hr : readSource src with
  | ok text => exact ⟨text, rfl⟩
  | error e =>
    have := h 0
    unfold Parser.parseFuel at this
    split at this
    · cases this
    · split at this
      · cases this
      · simp [hr] at this

/-- **C79.** The parser of an accepted grammar hangs only because of left recursion: if it never returns on some source,
then a rule that the first rule refers to, directly or not, is left-recursive (no terminal begins with NUL; C74 shows why
this is needed). -/
theorem C79_left_recursion (order : Order) (g : Grammar) (tbl : Table) (names : Names)
    (h : fromGrammar order g = .ok (tbl, names)) (hz : g.NulStartFree) (nm : Option Names) (src : Source)
    (hd : (Parser.mk tbl nm).Diverges src) : ∃ i, Steps (Mentions g) 0 i ∧ LeftRecursive g i := by
  obtain ⟨text, hr⟩ := diverges_source hd
  have hc := fromGrammar_closedTable h
  have hok := TG.fromGrammar_ok hz h
  obtain ⟨x, h1, y, h2, h3⟩ := (C79_hangs_iff_loop (Parser.mk tbl nm) hc.hasEntry hc.public
    (fromGrammar_tableStartFree h hz) src text hr).1 hd
  have reach : ∀ z, Steps (Enters tbl text) (0, 0) z → ∃ a : Nat, z.1 = a ∧ Steps (Mentions g) 0 a := by
    intro z hz
    induction hz with
    | refl => exact ⟨0, rfl, .refl⟩
    | @step u v _ huv ih =>
      obtain ⟨a, ha, hs⟩ := ih
      obtain ⟨a', k, alt, name, h5, h6, h7⟩ := enters_refs h (n := u.1) (i := u.2) (m := v.1) (j := v.2) huv
      have : a' = a := by omega
      subst this
      exact ⟨k, h6, .step hs ⟨alt, name, h7⟩⟩
  obtain ⟨i, hi, hs⟩ := reach x h1
  refine ⟨i, hs, ?_⟩
  have hxy := steps_le h2
  have hyx := h3.le
  have same : ∀ z, Steps (Enters tbl text) x z → z.2 ≤ x.2 → ∃ k : Nat, z.1 = k ∧ Steps (LeftCorner g) i k := by
    intro z hz' hzx
    induction hz' with
    | refl => exact ⟨i, hi, .refl⟩
    | @step u v hu huv ih =>
      have h8 := huv.le
      have h9 := steps_le hu
      obtain ⟨a, ha, hs⟩ := ih (by omega)
      have he : v.2 = u.2 := by omega
      have huv' : Enters tbl text (u.1, u.2) (v.1, u.2) := by rw [← he]; rw [he]; simpa [he] using (show Enters tbl text (u.1, u.2) (v.1, v.2) from huv)
      obtain ⟨a', k, h5, h6, h7⟩ := enters_same hz hok hc huv'
      have : a' = a := by omega
      subst this
      exact ⟨k, h6, .step hs h7⟩
  obtain ⟨a, ha, hs'⟩ := same y h2 hyx
  obtain ⟨k, hk, hs''⟩ := same x (.step h2 h3) (Nat.le_refl _)
  have he : y.2 = x.2 := by omega
  have hyx' : Enters tbl text (y.1, y.2) (x.1, y.2) := by
    have : Enters tbl text (y.1, y.2) (x.1, x.2) := h3
    rwa [he] at this ⊢
  obtain ⟨a', k', h5, h6, h7⟩ := enters_same hz hok hc hyx'
  have e1 : a' = a := by omega
  have e2 : k' = i := by omega
  subst e1
  subst e2
  exact ⟨a', hs', h7⟩

/-- **C79.** And without left recursion it is fast: for every accepted grammar without left-recursive rules, LL(1) or not,
there is a constant such that `Parse` returns after at most that many iterations per byte. -/
theorem C79_linear (order : Order) (g : Grammar) (tbl : Table) (names : Names)
    (h : fromGrammar order g = .ok (tbl, names)) (hz : g.NulStartFree) (hl : ∀ i, ¬ LeftRecursive g i) :
    ∃ K, ∀ (nm : Option Names) (src : Source) (text : Str), readSource src = .ok text →
      ∃ o, (Parser.mk tbl nm).parseFuel (K * (text.length + 1)) src = some o := by
  have hc := fromGrammar_closedTable h
  have hok := TG.fromGrammar_ok hz h
  obtain ⟨rank, hrank⟩ := rank_of_acyclic (fun _ _ => leftCorner_lt) hl
  refine Lin.linear_of_rank (fromGrammar_tableStartFree h hz) hc.public hc.hasEntry (Sure := SureFirst g)
    (rank := fun n _ => rank n.toNat) (fun n b body hs hb => (cell_corner hz hok hc hb).2 hs) (fun n b body hb => ?_)
  refine rankBelow_of fun P m post he => ?_
  rcases (cell_corner hz hok hc hb).1 P m post he with h | ⟨i, k, rfl, rfl, hlc⟩
  · exact .inl h
  · exact .inr (by simpa using hrank i k hlc)

/-- **C79.** Nor does it need more than linear memory: the stacks and the nodes on them at every moment of a run, and the
returned tree, are at most a constant times the length of the source. -/
theorem C79_linear_space (order : Order) (g : Grammar) (tbl : Table) (names : Names)
    (h : fromGrammar order g = .ok (tbl, names)) (hz : g.NulStartFree) (hl : ∀ i, ¬ LeftRecursive g i) :
    ∃ M, (∀ (nm : Option Names) (text : Str) (k : Nat) (s : PState), Reaches tbl nm text k s →
        s.opStack.length + nodesOn s.prodStack ≤ M * (text.length + 1)) ∧
      ∀ (nm : Option Names) (src : Source) (text : Str) (t : Node) (m : Names), readSource src = .ok text →
        (Parser.mk tbl nm).Returns src (.ok t m) → (preorder t).length ≤ M * (text.length + 1) := by
  have hlin := C79_linear order g tbl names h hz hl
  have hc := fromGrammar_closedTable h
  obtain ⟨M, hM⟩ := Mem.linear_memory hc.hasEntry hlin
  obtain ⟨K, hK⟩ := hlin
  refine ⟨M + 2 * K, fun nm text k s hs => ?_, fun nm src text t m hr ht => ?_⟩
  · exact Nat.le_trans (hM nm text k s hs) (Nat.mul_le_mul_right _ (Nat.le_add_right _ _))
  · obtain ⟨o, ho⟩ := hK nm src text hr
    cases returns_det ⟨_, ho⟩ ht
    have := C52_tree_size _ _ _ _ _ ho
    rw [Nat.add_mul, Nat.mul_assoc]
    omega

/-! ## Concrete cases -/

/-- The non-terminals that stand before the first non-empty terminal. -/
def leftRefs : List Symbol → List Str
  | [] => []
  | .nothing :: rest => leftRefs rest
  | .terminal [] :: rest => leftRefs rest
  | .terminal _ :: _ => []
  | .nonTerminal name :: rest => name :: leftRefs rest

theorem mem_leftRefs {g : Grammar} {pre : List Symbol} {name : Str} {post : List Symbol} (h : Nullable g pre) :
    name ∈ leftRefs (pre ++ .nonTerminal name :: post) := by
  induction pre with
  | nil => simp [leftRefs]
  | cons x pre ih =>
    cases h with
    | nothing h => exact ih h
    | emptyTerminal h => exact ih h
    | nonTerminal _ _ _ h => exact List.mem_cons_of_mem _ (ih h)

/-- A grammar without left recursion: the rules can be numbered so that left corners go down. -/
theorem notLeftRecursive_of_rank {g : Grammar} (rank : Nat → Nat)
    (h : ∀ i, ∀ r ∈ g.rules[i]?, ∀ alt ∈ r.tail.sequences, ∀ name ∈ leftRefs alt.symbols,
      ∀ k, ∀ r' ∈ g.rules[k]?, r'.head = name → rank k < rank i) (i : Nat) : ¬ LeftRecursive g i := by
  have one : ∀ a c, LeftCorner g a c → rank c < rank a := by
    rintro a c ⟨alt, pre, name, post, ⟨r, hr, ha⟩, he, hn, ⟨⟨r', hr', hh⟩, _⟩⟩
    exact h a r hr alt ha name (he ▸ mem_leftRefs hn) c r' hr' hh
  have many : ∀ a c, Steps (LeftCorner g) a c → rank c ≤ rank a := by
    intro a c hs
    induction hs with
    | refl => exact Nat.le_refl _
    | step _ h2 ih => exact Nat.le_trans (Nat.le_of_lt (one _ _ h2)) ih
  rintro ⟨y, h1, h2⟩
  exact Nat.lt_irrefl _ (Nat.lt_of_lt_of_le (one _ _ h2) (many _ _ h1))

/-- The same with everything looked up in finite lists. -/
theorem notLeftRecursive_of_check {g : Grammar} (rank : Nat → Nat)
    (h : ∀ x ∈ g.rules.zipIdx, ∀ alt ∈ x.1.tail.sequences, ∀ name ∈ leftRefs alt.symbols,
      ∀ y ∈ g.rules.zipIdx, y.1.head = name → rank y.2 < rank x.2) (i : Nat) : ¬ LeftRecursive g i := by
  refine notLeftRecursive_of_rank rank (fun i r hr alt ha name hn k r' hr' hh => ?_) i
  exact h (r, i) (List.mem_zipIdx_iff_getElem?.2 hr) alt ha name hn (r', k) (List.mem_zipIdx_iff_getElem?.2 hr') hh

/-- `S ::= A "x" S | A "y"`, `A ::= "a" | ""`: right-recursive, not LL(1). -/
def Ex.notLL1 : Grammar :=
  ⟨[⟨b!"S", ⟨[⟨[.nonTerminal b!"A", .terminal b!"x", .nonTerminal b!"S"]⟩, ⟨[.nonTerminal b!"A", .terminal b!"y"]⟩]⟩⟩,
    ⟨b!"A", ⟨[⟨[.terminal b!"a"]⟩, ⟨[.nothing]⟩]⟩⟩]⟩

/-- **C79, a concrete case.** `S ::= A "x" S | A "y"`, `A ::= "a" | ""` is not LL(1) and `FromGrammar` accepts it; it is
recursive but not left-recursive, so its parser needs linear time. -/
theorem C79_example :
    ¬ IsLL1 Ex.notLL1 ∧ (∃ tbl names, fromGrammar id Ex.notLL1 = .ok (tbl, names) ∧
      ∃ K, ∀ nm src text, readSource src = .ok text → ∃ o, (Parser.mk tbl nm).parseFuel (K * (text.length + 1)) src = some o) ∧
    (∀ i, ¬ LeftRecursive Ex.notLL1 i) ∧ Mentions Ex.notLL1 0 0 := by
  have hl : ∀ i, ¬ LeftRecursive Ex.notLL1 i := notLeftRecursive_of_check (fun i => 5 - i) (by decide +kernel)
  have hr0 : Ex.notLL1.Refers b!"S" 0 := by
    refine ⟨⟨_, rfl, rfl⟩, ?_⟩
    rintro j ⟨r, hj, hh⟩
    match j with
    | 0 => exact Nat.le_refl _
    | 1 => cases hj; cases hh
    | j + 2 => cases hj
  have hr1 : Ex.notLL1.Refers b!"A" 1 := by
    refine ⟨⟨_, rfl, rfl⟩, ?_⟩
    rintro j ⟨r, hj, hh⟩
    match j with
    | 0 => exact Nat.zero_le _
    | 1 => exact Nat.le_refl _
    | j + 2 => cases hj
  refine ⟨fun h => ?_, ?_, hl, ⟨⟨[.nonTerminal b!"A", .terminal b!"x", .nonTerminal b!"S"]⟩, b!"S",
    ⟨_, rfl, by decide⟩, by decide, hr0⟩⟩
  · have hA : Ex.notLL1.Alt 1 ⟨[.terminal b!"a"]⟩ := ⟨_, rfl, by decide⟩
    have := h.1 0 _ 0 1 _ _ 97 rfl rfl rfl (.head hr1 hA .terminal) (.head hr1 hA .terminal)
    cases this
  · obtain ⟨tbl, names, hok⟩ : ∃ tbl names, fromGrammar id Ex.notLL1 = .ok (tbl, names) := ⟨_, _, by rfl⟩
    exact ⟨tbl, names, hok, C79_linear id _ tbl names hok (nulFree_of (by decide +kernel)).start hl⟩

end LL1
