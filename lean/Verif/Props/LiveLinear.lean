import Verif.Proofs.LiveLinear
import Verif.Props.Live
import Verif.Props.Bnf

/-!
# C95: the time `Parse` takes on a source that is written to while it runs
-/

namespace LL1

/-- One constant bounds the iterations on every source, whatever is written to it in the meantime. -/
def LiveLinearTime (tbl : Table) : Prop :=
  ∃ C, ∀ (names : Option Names) (L : Nat) (mem : Nat → Str), (∀ r, (mem r).length = L) →
    ∃ o, Live.parseFuel (Parser.mk tbl names) (C * (L + 1)) mem = some o

/-- **C95.** For every table whose literals are free of NUL: either a writer can make a call hang, or one constant bounds the
time of all calls, writers or not. -/
theorem C95_dichotomy (p : Parser) (he : p.table.HasEntry) (hpub : p.table.Public) (hnf : p.table.NulFree) :
    (∃ L mem, (∀ r, (mem r : Str).length = L) ∧ Live.Diverges p mem) ∨ LiveLinearTime p.table := by
  have hs : p.table.NulStartFree := fun n row b ops h1 h2 s hs hh => by
    cases s with
    | nil => simp at hh
    | cons c s => simp at hh; subst hh; exact hnf n row b ops h1 h2 _ hs List.mem_cons_self
  by_cases h : ∃ n, Steps (AnyEnters p.table) 0 n ∧ Steps1 (AnyCorner p.table) n n
  · exact .inl ((C95_hang_iff p he hpub hs).2 h)
  · exact .inr (LiveLin.linear he hpub hnf fun n h1 h2 => h ⟨n, h1, h2⟩)

/-- **C95.** So a parser that always returns is linear. -/
theorem C95_returns_iff_linear (p : Parser) (he : p.table.HasEntry) (hpub : p.table.Public) (hnf : p.table.NulFree) :
    (∀ L mem, (∀ r, (mem r : Str).length = L) → ∃ o, Live.Returns p mem o) ↔ LiveLinearTime p.table := by
  constructor
  · intro h
    refine (C95_dichotomy p he hpub hnf).resolve_left ?_
    rintro ⟨L, mem, hL, hd⟩
    obtain ⟨o, f, ho⟩ := h L mem hL
    rw [hd f] at ho
    cases ho
  · rintro ⟨C, hC⟩ L mem hL
    obtain ⟨o, ho⟩ := hC p.names L mem hL
    exact ⟨o, _, ho⟩

/-- **C95.** Parsers of LL(1) grammars, and of grammars without left-recursive rules, take linear time whatever is written to
the source (no terminal contains NUL). -/
theorem C95_linear (order : Order) (g : Grammar) (tbl : Table) (names : Names)
    (h : fromGrammar order g = .ok (tbl, names)) (hz : g.NulFree) (hl : IsLL1 g ∨ ∀ i, ¬ LeftRecursive g i) :
    LiveLinearTime tbl := by
  have hc := fromGrammar_closedTable h
  refine (C95_returns_iff_linear (Parser.mk tbl none) hc.hasEntry hc.public (fromGrammar_tableNulFree h hz)).1 fun L mem hL => ?_
  rcases hl with hl | hl
  · exact C95_ll1_returns order g tbl names h hz.start hl none L mem hL
  · exact C95_no_left_recursion order g tbl names h hz.start hl none L mem hL

/-- **C95, concrete case.** Reading a BNF text that is written to while it is read takes linear time; the table `seesaw` is not
linear, although it is on sources that stand still. -/
theorem C95_linear_examples :
    (∀ (order : Order) tbl names, fromGrammar order selfGrammar = .ok (tbl, names) → LiveLinearTime tbl) ∧
    ¬ LiveLinearTime seesaw := by
  refine ⟨fun order tbl names h => C95_linear order _ tbl names h self_nulFree (.inl self_ll1), ?_⟩
  rintro ⟨C, hC⟩
  obtain ⟨o, ho⟩ := hC none 1 (fun r => if r % 2 = 0 then [97] else [98]) (fun r => by split <;> rfl)
  rw [(C95_hang_example none).2] at ho
  cases ho

end LL1
