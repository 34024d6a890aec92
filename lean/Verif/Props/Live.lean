import Verif.Proofs.LiveFacts

/-!
# C95: `Parse` on a `[]byte` or `*bytes.Buffer` that is written to while it runs
-/

namespace LL1

theorem live_step_sim {tbl : Table} {names : Option Names} {mem : Nat → Str} {w : Str} {r : Nat} {s : PState}
    (h0 : byteAt (mem r) s.offset = byteAt w s.offset) (h1 : byteAt (mem (r + 1)) s.offset = byteAt w s.offset) :
    (∀ s', LL1.step tbl names w s = .next s' → ∃ r', Live.step tbl names mem r s = .next r' s' ∧
      (r' = r ∧ s'.offset = s.offset ∨ r' = r + 1 ∧ s'.offset ≤ s.offset + 1)) ∧
    (∀ o, LL1.step tbl names w s = .done o → Live.step tbl names mem r s = .done o) := by
  obtain ⟨i, ops, prod⟩ := s
  cases ops with
  | nil => simp [LL1.step, Live.step]
  | cons op rest =>
    cases op with
    | nonTerminal n =>
      rw [Live.step_nonTerminal, step_nonTerminal]
      simp only at h0 h1
      rw [h0, h1]
      cases bodyFor tbl n (byteAt w i) with
      | none => simp
      | some body =>
        refine ⟨fun s' h => ?_, by simp⟩
        simp only [StepRes.next.injEq] at h
        subst h
        exact ⟨_, rfl, .inr ⟨rfl, Nat.le_succ _⟩⟩
    | terminal v =>
      refine ⟨fun s' h => ?_, by simp [LL1.step]⟩
      simp only [LL1.step, StepRes.next.injEq] at h
      subst h
      exact ⟨r, rfl, .inl ⟨rfl, rfl⟩⟩
    | function n p a =>
      refine ⟨fun s' h => ⟨r, Live.step_of_function r rfl w h, .inl ⟨rfl, ?_⟩⟩, fun o h => ?_⟩
      · simp only [LL1.step, processFunction] at h
        split at h
        · cases h; rfl
        · split at h
          · cases h
          · cases h; rfl
      · simp only [LL1.step] at h
        simp only [Live.step, Live.processFunction, h]
    | eos =>
      simp only [LL1.step, Live.step, LL1.processEOS, Live.processEOS, peek_eq]
      simp only at h0 h1
      rw [h0, h1]
      refine ⟨by simp, fun o h => ?_⟩
      cases h
      congr 1
    | char c =>
      simp only [LL1.step, Live.step, LL1.processChar, Live.processChar, peek_eq]
      simp only at h0 h1
      rw [h0, h1]
      split
      · simp
      · refine ⟨fun s' h => ?_, by simp⟩
        simp only [StepRes.next.injEq] at h
        subst h
        exact ⟨_, rfl, .inr ⟨rfl, Nat.le_refl _⟩⟩
    | nil => simp [LL1.step, Live.step]

/-- **C95.** If the bytes are right when they are looked at, nothing else matters: whenever the scanner reads, and when it
reads the same place once more for an error message, the source holds there what `w` holds — then the call ends (or does
not end) exactly as on the unchanged `w`, iteration for iteration. -/
theorem C95_seen (p : Parser) (mem : Nat → Str) (w : Str)
    (h : ∀ r s, Live.Reaches p.table p.names mem r s →
      byteAt (mem r) s.offset = byteAt w s.offset ∧ byteAt (mem (r + 1)) s.offset = byteAt w s.offset) (fuel : Nat) :
    Live.parseFuel p fuel mem = p.parseFuel fuel (.bytes w) := by
  have sim : ∀ fuel r s, Live.Reaches p.table p.names mem r s →
      Live.runFuel p.table p.names mem fuel r s = runFuel p.table p.names w fuel s := by
    intro fuel
    induction fuel with
    | zero => intro r s _; rfl
    | succ f ih =>
      intro r s hr
      obtain ⟨h0, h1⟩ := h r s hr
      obtain ⟨hn, hd⟩ := live_step_sim (tbl := p.table) (names := p.names) h0 h1
      rw [Live.runFuel, runFuel]
      cases hs : step p.table p.names w s with
      | next s' =>
        obtain ⟨r', hl, _⟩ := hn s' hs
        rw [hl]
        exact ih r' s' (.step hr hl)
      | done o => rw [hd o hs]
  unfold Live.parseFuel Parser.parseFuel
  split
  · rfl
  · cases p.table.get 0 with
    | none => rfl
    | some row => exact sim fuel 0 initState .init

/-- **C95.** In particular a source that nobody writes to: the functions of this module do what `Parse` does. -/
theorem C95_unchanged (p : Parser) (w : Str) (fuel : Nat) :
    Live.parseFuel p fuel (fun _ => w) = p.parseFuel fuel (.bytes w) :=
  C95_seen p _ w (fun _ _ _ => ⟨rfl, rfl⟩) fuel

/-- **C95.** A writer that stays ahead does no harm: if at the `r`-th read (from 0) the first `r + 1` bytes are already those
of `w`, the call ends (or does not end) as on `w`, whatever stands behind them in the meantime. -/
theorem C95_writer_ahead (p : Parser) (mem : Nat → Str) (w : Str)
    (h : ∀ r i, i ≤ r → byteAt (mem r) i = byteAt w i) (fuel : Nat) :
    Live.parseFuel p fuel mem = p.parseFuel fuel (.bytes w) := by
  refine C95_seen p mem w (fun r s hr => ?_) fuel
  have hle : s.offset ≤ r := by
    induction hr with
    | init => exact Nat.zero_le _
    | @step r r' s s' hr hs ih =>
      have sim := live_step_sim (tbl := p.table) (names := p.names) (h r s.offset ih) (h (r + 1) s.offset (by omega))
      cases hw : step p.table p.names w s with
      | next s2 =>
        obtain ⟨r2, h2, h3⟩ := sim.1 s2 hw
        rw [hs] at h2
        cases h2
        omega
      | done o =>
        have := sim.2 o hw
        rw [hs] at this
        cases this
  exact ⟨h r _ hle, h (r + 1) _ (by omega)⟩

/-- The hypothesis of `C95_writer_ahead` is met by a source that is filled in one byte per read. -/
example (w : Str) : ∀ r i, i ≤ r → byteAt ((fun r => w.take (r + 1)) r) i = byteAt w i := by
  intro r i hi
  simp [byteAt, show i < r + 1 by omega]

/-- **C95.** Whatever the writer does: the call returns exactly the outcomes that what the scanner saw justifies — a tree
derived byte by byte from the bytes seen at the time, or an error where the byte seen did not fit. -/
theorem C95_exact (p : Parser) (he : p.table.HasEntry) (hpub : p.table.Public) (m : Names) (hm : p.names = some m)
    (mem : Nat → Str) (o : Outcome) :
    Live.Returns p mem o ↔
      (∃ t, LiveParse p.table mem t ∧ o = .ok t (addBuiltinNames m)) ∨
      (∃ e, LiveStuck p.table p.names mem e ∧ o = .err e) := by
  rw [Live.returns_iff he hpub]
  simp only [finish, hm]

/-- **C95.** Whatever the writer does, the call never panics, and a returned tree is a sound tree: every node has
`Pos ≤ End`, its children tile it, and (with NUL-free literals) it does not reach past the end of the slice, so slicing the
source with it cannot panic either. -/
theorem C95_safe (p : Parser) (he : p.table.HasEntry) (hpub : p.table.Public) (hm : p.names ≠ none)
    (mem : Nat → Str) :
    (∀ c, ¬ Live.Returns p mem (.panic c)) ∧
    ∀ t m, Live.Returns p mem (.ok t m) →
      (∀ n ∈ preorder t, n.pos ≤ n.stop ∧ (n.childs ≠ [] → Tiles n.pos n.childs n.stop)) ∧
      ∀ L, p.table.NulFree → (∀ r, (mem r).length = L) → ∀ n ∈ preorder t, n.stop ≤ L := by
  obtain ⟨m0, hm0⟩ := Option.ne_none_iff_exists'.1 hm
  refine ⟨fun c h => ?_, fun t m h => ?_⟩
  · rcases (C95_exact p he hpub m0 hm0 mem _).1 h with ⟨t, _, h⟩ | ⟨e, _, h⟩ <;> cases h
  · rcases (C95_exact p he hpub m0 hm0 mem _).1 h with ⟨t', ⟨r, j, hd, _⟩, h⟩ | ⟨e, _, h⟩
    · cases h
      have ht := hd.tiled.2 t List.mem_cons_self
      refine ⟨fun n hn => ⟨(ht n hn).1, (ht n hn).2.2⟩, fun L hnf hL n hn => ?_⟩
      exact Nat.le_trans (ht n hn).2.1 (hd.bound hL hnf (by simp) (Nat.zero_le _))
    · cases h

/-- The table of `S → "ab"`. -/
def abTable : Table := [(0, [(97, [.terminal [97, 98]])])]

/-- **C95.** But the text need never have been there: `Parse` accepts "ab" although the source never holds "ab" — it holds
"a?" while the first byte is looked at and "?b" afterwards. -/
theorem C95_torn :
    (∀ r, (if r < 2 then [97, 63] else [63, 98] : Str) ≠ [97, 98]) ∧
    Live.Returns (Parser.mk abTable (some [])) (fun r => if r < 2 then [97, 63] else [63, 98])
      (.ok (.mk 0 0 2 [.mk (-1) 0 2 []]) (addBuiltinNames [])) := by
  refine ⟨fun r => ?_, 20, rfl⟩
  split <;> decide

/-- **C95.** And a message can contradict itself: the byte it names is read again, so "expected 'a' but got 'a'" is possible. -/
theorem C95_message :
    Live.Returns (Parser.mk abTable (some [])) (fun r => if r = 1 then [63, 98] else [97, 98])
      (.err (.expectedChar 97 97)) := ⟨20, rfl⟩

/-- **C95.** For every table without literals that begin with NUL: a writer can make some call hang iff, from a row that some
input leads to, cells for whatever bytes lead back to the row before anything is consumed (the slice has a fixed
length).  It is enough to overwrite the whole slice with one byte at a time. -/
theorem C95_hang_iff (p : Parser) (he : p.table.HasEntry) (hpub : p.table.Public) (hnf : p.table.NulStartFree) :
    (∃ L mem, (∀ r, (mem r : Str).length = L) ∧ Live.Diverges p mem) ↔
      ∃ n, Steps (AnyEnters p.table) 0 n ∧ Steps1 (AnyCorner p.table) n n := by
  constructor
  · rintro ⟨L, mem, hL, hd⟩
    exact live_loop he hpub hnf hL hd
  · rintro ⟨n, h1, h2⟩
    obtain ⟨L, bytes, hd⟩ := live_adversary he hpub h1 h2
    exact ⟨L, _, fun r => List.length_replicate, hd⟩

/-- Row 0 goes to row 1 on 'a', row 1 back to row 0 on 'b'. -/
def seesaw : Table := [(0, [(97, [.nonTerminal 1])]), (1, [(98, [.nonTerminal 0])])]

theorem seesaw_body {n : Int} {b : UInt8} {body : List ParserOp} (h : bodyFor seesaw n b = some body) (hn : 0 ≤ n) :
    n = 0 ∧ b = 97 ∧ body = [.nonTerminal 1] ∨ n = 1 ∧ b = 98 ∧ body = [.nonTerminal 0] := by
  simp only [bodyFor, hn, if_true, seesaw, GoMap.get_cons, GoMap.get_nil] at h
  split at h
  · rename_i h0
    simp only [Option.bind_some, GoMap.get_cons, GoMap.get_nil] at h
    split at h
    · cases h; exact .inl ⟨h0.symm, by simp_all, rfl⟩
    · cases h
  · split at h
    · rename_i h0
      simp only [Option.bind_some, GoMap.get_cons, GoMap.get_nil] at h
      split at h
      · cases h; exact .inr ⟨h0.symm, by simp_all, rfl⟩
      · cases h
    · cases h

/-- **C95.** So writing to the source can turn a parser that always returns into one that hangs: with the table `seesaw`
`Parse` returns on every source that stands still, and does not return while a one-byte source alternates between 'a' and
'b'. -/
theorem C95_hang_example (names : Option Names) :
    (∀ src, ∃ o, (Parser.mk seesaw names).Returns src o) ∧
    Live.Diverges (Parser.mk seesaw names) (fun r => if r % 2 = 0 then [97] else [98]) := by
  have hpub : (Parser.mk seesaw names).table.Public := by
    intro n row b ops h1 h2 op hop
    by_cases hn : 0 ≤ n
    · have hb : bodyFor seesaw n b = some ops := by
        have h1' : seesaw.get n = some row := h1
        simp [bodyFor, hn, h1', h2]
      rcases seesaw_body hb hn with ⟨_, _, rfl⟩ | ⟨_, _, rfl⟩ <;> simp_all [ParserOp.Public]
    · exfalso
      simp only [seesaw, GoMap.get_cons, GoMap.get_nil] at h1
      split at h1
      · omega
      · split at h1
        · omega
        · cases h1
  have hent : (Parser.mk seesaw names).table.HasEntry := ⟨_, rfl⟩
  refine ⟨fun src => ?_, ?_⟩
  · refine C20_terminates_any _ hent hpub (fun n b => if n = 0 ∧ b = 97 ∨ n = 1 ∧ b = 98 then 1 else 0) ?_ src
    intro n row b body h1 h2 m hm hmem
    have hn : 0 ≤ n := by
      simp only [seesaw, GoMap.get_cons, GoMap.get_nil] at h1
      split at h1
      · omega
      · split at h1
        · omega
        · cases h1
    have hb : bodyFor seesaw n b = some body := by
      have h1' : seesaw.get n = some row := h1
      simp [bodyFor, hn, h1', h2]
    rcases seesaw_body hb hn with ⟨rfl, rfl, rfl⟩ | ⟨rfl, rfl, rfl⟩
    · have : m = 1 := by simpa [untilProgress] using hmem
      subst this
      decide
    · have : m = 0 := by simpa [untilProgress] using hmem
      subst this
      decide
  · rw [Live.diverges_iff_not_acc hent hpub]
    intro ha
    refine not_acc_of_chain ha (fun k => ((k % 2 : Nat), 0, k)) rfl (fun k => ?_)
    refine ⟨[], [], [], ?_, .nil _ _⟩
    rcases Nat.mod_two_eq_zero_or_one k with h | h
    · have h' : (k + 1) % 2 = 1 := by omega
      simp only [h, h', if_true]
      rfl
    · have h' : (k + 1) % 2 = 0 := by omega
      simp only [h, h']
      rfl

/-- **C95.** Parsers of LL(1) grammars cannot be made to hang: whatever is written to the source while it is parsed, the call
returns (no terminal begins with NUL). -/
theorem C95_ll1_returns (order : Order) (g : Grammar) (tbl : Table) (names : Names)
    (h : fromGrammar order g = .ok (tbl, names)) (hz : g.NulStartFree) (hll : IsLL1 g) (nm : Option Names) (L : Nat)
    (mem : Nat → Str) (hL : ∀ r, (mem r).length = L) : ∃ o, Live.Returns (Parser.mk tbl nm) mem o := by
  have hc := fromGrammar_closedTable h
  have hok := TG.fromGrammar_ok hz h
  rcases Live.diverges_or_returns (Parser.mk tbl nm) mem with hd | hd
  · obtain ⟨n, _, h2⟩ := live_loop hc.hasEntry hc.public (fromGrammar_tableStartFree h hz) hL hd
    obtain ⟨i, _, h3⟩ := anyCorner_loop hok hc h2
    exact (ll1_no_firstCorner_loop hll i h3).elim
  · exact hd

/-- **C95.** Nor can parsers of grammars without left-recursive rules, LL(1) or not. -/
theorem C95_no_left_recursion (order : Order) (g : Grammar) (tbl : Table) (names : Names)
    (h : fromGrammar order g = .ok (tbl, names)) (hz : g.NulStartFree) (hl : ∀ i, ¬ LeftRecursive g i)
    (nm : Option Names) (L : Nat) (mem : Nat → Str) (hL : ∀ r, (mem r).length = L) :
    ∃ o, Live.Returns (Parser.mk tbl nm) mem o := by
  have hc := fromGrammar_closedTable h
  have hok := TG.fromGrammar_ok hz h
  rcases Live.diverges_or_returns (Parser.mk tbl nm) mem with hd | hd
  · obtain ⟨n, _, h2⟩ := live_loop hc.hasEntry hc.public (fromGrammar_tableStartFree h hz) hL hd
    obtain ⟨i, _, y, h3, h4⟩ := anyCorner_loop hok hc h2
    exact (hl i ⟨y, h3.mono fun _ _ h => h.left, h4.left⟩).elim
  · exact hd

end LL1
