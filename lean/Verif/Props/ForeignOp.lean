import Verif.Model.ForeignOp
import Verif.Spec.Tree
import Verif.Props.Parser

/-!
# C80: operations of other types in a table
-/

namespace LL1
namespace XP

/-- An operation the package does not know: nil, or of a foreign type (a foreign value that embeds the end-of-source
operation, which no caller can obtain, is the exception). -/
def XOp.unknown : XOp → Bool
  | .own .nil => true
  | .foreign (some .eos) => false
  | .foreign _ => true
  | _ => false

/-- Two tables that agree except that unknown operations of the first may be anything in the second. -/
def SameBut (tbl tbl' : XTable) : Prop :=
  ∀ n, (tbl.get n = none ∧ tbl'.get n = none) ∨ ∃ row row', tbl.get n = some row ∧ tbl'.get n = some row' ∧
    ∀ b, (GoMap.get row b = none ∧ GoMap.get row' b = none) ∨ ∃ ops ops', GoMap.get row b = some ops ∧
      GoMap.get row' b = some ops' ∧ AllPairs (fun x y => x.unknown = true ∨ x = y) ops ops'

/-- The table as `Model/Parser.lean` sees it: every unknown operation is nil. -/
def XOp.erase : XOp → ParserOp
  | .own op => op
  | .foreign (some .eos) => .eos
  | .foreign _ => .nil

def eraseRow (row : XRow) : Row := row.map fun e => (e.1, e.2.map XOp.erase)
def eraseTable (tbl : XTable) : Table := tbl.map fun e => (e.1, eraseRow e.2)

/-- A table of known operations as a table of any operations. -/
def anyTable (tbl : Table) : XTable := tbl.map fun e => (e.1, e.2.map fun c => (c.1, c.2.map XOp.own))

/-- An outcome with the panic message of a failed type assertion replaced by the one of a nil dereference. -/
def XOutcome.erase : XOutcome → Outcome
  | .ok t m => .ok t m
  | .err e => .err e
  | .panic (.own p) => .panic p
  | .panic (.cast _) => .panic .nilOp

def Outcome.any : Outcome → XOutcome
  | .ok t m => .ok t m
  | .err e => .err e
  | .panic p => .panic (.own p)

def eraseState (s : XState) : PState := ⟨s.offset, s.opStack.map XOp.erase, s.prodStack⟩

def eraseRes : XStepRes → StepRes
  | .next s => .next (eraseState s)
  | .done o => .done o.erase

theorem eos_erase (names : Option Names) (src : Str) (s : XState) :
    (processEOS names src s).erase = LL1.processEOS names src (eraseState s) := by
  unfold processEOS LL1.processEOS eraseState
  split
  · rfl
  · cases s.prodStack with
    | nil => rfl
    | cons n ns => cases names <;> rfl

theorem step_erase (tbl : XTable) (names : Option Names) (src : Str) (s : XState) :
    eraseRes (step tbl names src s) = LL1.step (eraseTable tbl) names src (eraseState s) := by
  obtain ⟨off, ops, prods⟩ := s
  cases ops with
  | nil => rfl
  | cons op rest =>
    cases op with
    | foreign k =>
      rcases k with _ | k
      · rfl
      · cases k <;> first | rfl | exact congrArg StepRes.done (eos_erase names src _)
    | own op =>
      cases op with
      | nil => rfl
      | eos => exact congrArg StepRes.done (eos_erase names src _)
      | terminal v =>
        simp only [step, LL1.step, eraseState, List.map_cons, XOp.erase, eraseRes, processTerminal, LL1.processTerminal,
          List.map_append, List.map_map]
        rfl
      | char c =>
        simp only [step, LL1.step, eraseState, List.map_cons, XOp.erase, processChar, LL1.processChar]
        split <;> rfl
      | function n p a =>
        simp only [step, LL1.step, eraseState, List.map_cons, XOp.erase, processFunction, LL1.processFunction]
        split
        · rfl
        · generalize popChilds (decide (n = builtinTerminal)) a prods [] = x
          cases x <;> rfl
      | nonTerminal n =>
        simp only [step, LL1.step, eraseState, List.map_cons, XOp.erase, processNonTerminal, LL1.processNonTerminal]
        split
        · simp only [processBuiltinNonTerminal, LL1.processBuiltinNonTerminal]
          split
          · split
            · rfl
            · split <;> rfl
          · rfl
        · simp only [processTableNonTerminal, LL1.processTableNonTerminal, eraseTable]
          rw [GoMap.get_mapVal]
          cases tbl.get n with
          | none => rfl
          | some row =>
            simp only [Option.map_some, eraseRow]
            rw [GoMap.get_mapVal]
            cases GoMap.get row (peek src off) with
            | none => rfl
            | some cell => simp [eraseRes, eraseState, XOp.erase]

theorem run_erase (tbl : XTable) (names : Option Names) (src : Str) (fuel : Nat) (s : XState) :
    (runFuel tbl names src fuel s).map XOutcome.erase = LL1.runFuel (eraseTable tbl) names src fuel (eraseState s) := by
  induction fuel generalizing s with
  | zero => rfl
  | succ fuel ih =>
    have h := step_erase tbl names src s
    simp only [runFuel, LL1.runFuel, ← h]
    cases step tbl names src s with
    | next s' => exact ih s'
    | done o => rfl

/-- **C80.** `Parse` treats every unknown operation like nil (with another panic message). -/
theorem C80_like_nil (p : XParser) (fuel : Nat) (src : Source) :
    (p.parseFuel fuel src).map XOutcome.erase = (Parser.mk (eraseTable p.table) p.names).parseFuel fuel src := by
  unfold XParser.parseFuel Parser.parseFuel
  have hl : (eraseTable p.table).length = p.table.length := by simp [eraseTable]
  simp only [hl]
  split
  · rfl
  · have : (eraseTable p.table).get 0 = (p.table.get 0).map eraseRow := GoMap.get_mapVal _ _ _
    rw [this]
    cases p.table.get 0 with
    | none => rfl
    | some row =>
      simp only [Option.map_some]
      cases readSource src with
      | error e => rfl
      | ok text => exact run_erase _ _ _ _ _

/-! ## What is never reached does not matter -/

/-- The operations of `op'` may stand where the first table has `op`. -/
abbrev Fits (x y : XOp) : Prop := x.unknown = true ∨ x = y

theorem allPairs_refl {R : XOp → XOp → Prop} (h : ∀ x, R x x) : ∀ l, AllPairs R l l
  | [] => .nil
  | x :: l => .cons (h x) (allPairs_refl h l)

theorem allPairs_append {R : XOp → XOp → Prop} {a b c d : List XOp} (h : AllPairs R a b) (h' : AllPairs R c d) :
    AllPairs R (a ++ c) (b ++ d) := by
  induction h with
  | nil => exact h'
  | cons h _ ih => exact .cons h ih

theorem allPairs_length {R : XOp → XOp → Prop} {a b : List XOp} (h : AllPairs R a b) : a.length = b.length := by
  induction h with
  | nil => rfl
  | cons _ _ ih => simp [ih]

/-- The panics an unknown operation causes. -/
def XOutcome.blamed : XOutcome → Bool
  | .panic (.own .nilOp) => true
  | .panic (.cast _) => true
  | _ => false

inductive RelRes : XStepRes → XStepRes → Prop
  | blamed {o r} : o.blamed = true → RelRes (.done o) r
  | done {o} : RelRes (.done o) (.done o)
  | next {off ops ops' prods} : AllPairs Fits ops ops' → RelRes (.next ⟨off, ops, prods⟩) (.next ⟨off, ops', prods⟩)

theorem step_rel {tbl tbl' : XTable} (h : SameBut tbl tbl') (names : Option Names) (src : Str) (off : Nat)
    {ops ops' : List XOp} (prods : List Node) (ho : AllPairs Fits ops ops') :
    RelRes (step tbl names src ⟨off, ops, prods⟩) (step tbl' names src ⟨off, ops', prods⟩) := by
  have rf := allPairs_refl (R := Fits) (fun _ => .inr rfl)
  cases ho with
  | nil => exact .done
  | @cons x y rest rest' hxy hr =>
    rcases hxy with hu | rfl
    · cases x with
      | own op => cases op <;> first | cases hu; done | exact .blamed rfl
      | foreign k =>
        rcases k with _ | k
        · exact .blamed rfl
        · cases k <;> first | cases hu; done | exact .blamed rfl
    · cases x with
      | foreign k =>
        rcases k with _ | k
        · exact .blamed rfl
        · cases k <;> first | exact .blamed rfl | exact .done
      | own op =>
        cases op with
        | nil => exact .blamed rfl
        | eos => exact .done
        | terminal v => exact .next (allPairs_append (rf _) (.cons (.inr rfl) hr))
        | char c =>
          simp only [step, processChar]
          split
          · exact .done
          · exact .next hr
        | function n p a =>
          simp only [step, processFunction]
          split
          · exact .next hr
          · cases popChilds (decide (n = builtinTerminal)) a prods [] with
            | error p => exact .done
            | ok r => exact .next hr
        | nonTerminal n =>
          simp only [step, processNonTerminal]
          split
          · simp only [processBuiltinNonTerminal]
            split
            · split
              · exact .next (.cons (.inr rfl) (.cons (.inr rfl) hr))
              · split
                · exact .next (.cons (.inr rfl) (.cons (.inr rfl) (.cons (.inr rfl) hr)))
                · exact .done
            · exact .done
          · simp only [processTableNonTerminal]
            rcases h n with ⟨h1, h2⟩ | ⟨row, row', h1, h2, hb⟩
            · rw [h1, h2]; exact .done
            · rw [h1, h2]
              rcases hb (peek src off) with ⟨h3, h4⟩ | ⟨cell, cell', h3, h4, h5⟩
              · simp only [h3, h4]; exact .done
              · simp only [h3, h4]
                rw [allPairs_length h5]
                exact .next (allPairs_append h5 (.cons (.inr rfl) hr))

theorem run_rel {tbl tbl' : XTable} (h : SameBut tbl tbl') (names : Option Names) (src : Str) (fuel off : Nat)
    {ops ops' : List XOp} (prods : List Node) (ho : AllPairs Fits ops ops') :
    (∃ o, runFuel tbl names src fuel ⟨off, ops, prods⟩ = some o ∧ o.blamed = true) ∨
    runFuel tbl names src fuel ⟨off, ops, prods⟩ = runFuel tbl' names src fuel ⟨off, ops', prods⟩ := by
  induction fuel generalizing off ops ops' prods with
  | zero => exact .inr rfl
  | succ fuel ih =>
    have hs := step_rel h names src off prods ho
    simp only [runFuel]
    generalize step tbl names src ⟨off, ops, prods⟩ = x at hs ⊢
    generalize step tbl' names src ⟨off, ops', prods⟩ = y at hs ⊢
    cases hs with
    | blamed hb => exact .inl ⟨_, rfl, hb⟩
    | done => exact .inr rfl
    | next ho => exact ih _ _ ho

theorem SameBut.length {tbl tbl' : XTable} (h : SameBut tbl tbl') : tbl.length = 0 ↔ tbl'.length = 0 := by
  have key : ∀ t : XTable, t.length = 0 ↔ ∀ n, t.get n = none := by
    intro t
    cases t with
    | nil => simp
    | cons e t => simp only [List.length_cons, Nat.succ_ne_zero, false_iff]; intro hn; have := hn e.1; simp [GoMap.get] at this
  rw [key, key]
  constructor
  · intro h' n
    rcases h n with ⟨_, h2⟩ | ⟨row, _, h1, _⟩
    · exact h2
    · rw [h' n] at h1; cases h1
  · intro h' n
    rcases h n with ⟨h2, _⟩ | ⟨_, row, _, h1, _⟩
    · exact h2
    · rw [h' n] at h1; cases h1

/-- **C80.** A `Parse` call either panics because it reached an unknown operation, or it behaves (returns the same, or never
returns) as with any other operations in their places. -/
theorem C80_unreached (tbl tbl' : XTable) (h : SameBut tbl tbl') (names : Option Names) (src : Source) :
    (∃ fuel o, (XParser.mk tbl names).parseFuel fuel src = some o ∧ o.blamed = true) ∨
    ∀ fuel, (XParser.mk tbl names).parseFuel fuel src = (XParser.mk tbl' names).parseFuel fuel src := by
  rw [Classical.or_iff_not_imp_left]
  intro hb fuel
  have hb' : ¬ ∃ o, (XParser.mk tbl names).parseFuel fuel src = some o ∧ o.blamed = true := fun ⟨o, h⟩ => hb ⟨fuel, o, h⟩
  unfold XParser.parseFuel at hb' ⊢
  by_cases hl : tbl.length = 0
  · simp [hl, h.length.1 hl]
  · have hl' : ¬ tbl'.length = 0 := fun hh => hl (h.length.2 hh)
    simp only [hl, hl', if_false] at hb' ⊢
    rcases h 0 with ⟨h1, h2⟩ | ⟨row, row', h1, h2, _⟩
    · simp [h1, h2]
    · simp only [h1, h2] at hb' ⊢
      cases hr : readSource src with
      | error e => rfl
      | ok text =>
        simp only [hr] at hb' ⊢
        rcases run_rel h names text fuel 0 [] (ops := initState.opStack) (ops' := initState.opStack)
          (allPairs_refl (fun _ => .inr rfl) _) with hx | hx
        · exact absurd hx hb'
        · exact hx

/-! ## Such a panic points at an operation of the table -/

/-- `x` stands in some cell. -/
def InTable (tbl : XTable) (x : XOp) : Prop :=
  ∃ n row b ops, tbl.get n = some row ∧ GoMap.get row b = some ops ∧ x ∈ ops

theorem run_blame {tbl : XTable} (names : Option Names) (src : Str) (fuel : Nat) (s : XState)
    (hs : ∀ x ∈ s.opStack, x.unknown = true → InTable tbl x) (o : XOutcome) (h : runFuel tbl names src fuel s = some o)
    (hb : o.blamed = true) :
    ∃ x, InTable tbl x ∧ x.unknown = true ∧
      (o = .panic (.own .nilOp) ∧ (x = .own .nil ∨ x = .foreign none) ∨
        ∃ k, o = .panic (.cast k) ∧ x = .foreign (some k)) := by
  induction fuel generalizing s with
  | zero => cases h
  | succ fuel ih =>
    obtain ⟨off, ops, prods⟩ := s
    cases ops with
    | nil => cases h; cases hb
    | cons op rest =>
      have hop := hs op (by simp)
      have hrest : ∀ x ∈ rest, x.unknown = true → InTable tbl x := fun x hx => hs x (by simp [hx])
      have own : ∀ (o : ParserOp), o ≠ .nil → (XOp.own o).unknown = true → InTable tbl (.own o) := by
        intro o hn hu; cases o <;> first | cases hu; done | exact absurd rfl hn
      have eosNo : ∀ s : XState, (processEOS names src s).blamed = true → False := by
        intro s hb
        unfold processEOS at hb
        split at hb
        · cases hb
        · split at hb
          · cases hb
          · split at hb <;> cases hb
      have cons : ∀ {o : ParserOp} {l : List XOp}, o ≠ .nil → (∀ x ∈ l, x.unknown = true → InTable tbl x) →
          ∀ x ∈ XOp.own o :: l, x.unknown = true → InTable tbl x := by
        intro o l hn hl x hx hu
        rcases List.mem_cons.1 hx with rfl | hx
        · exact own _ hn hu
        · exact hl x hx hu
      cases op with
      | foreign k =>
        rcases k with _ | k
        · cases h; exact ⟨_, hop rfl, rfl, .inl ⟨rfl, .inr rfl⟩⟩
        · cases k with
          | eos => cases h; exact (eosNo _ hb).elim
          | _ => cases h; exact ⟨_, hop rfl, rfl, .inr ⟨_, rfl, rfl⟩⟩
      | own op =>
        cases op with
        | nil => cases h; exact ⟨_, hop rfl, rfl, .inl ⟨rfl, .inl rfl⟩⟩
        | eos => cases h; exact (eosNo _ hb).elim
        | terminal v =>
          refine ih _ ?_ h
          intro x hx hu
          rcases List.mem_append.1 hx with hx | hx
          · obtain ⟨c, _, rfl⟩ := List.mem_map.1 hx
            cases hu
          · exact cons (by simp) hrest x hx hu
        | char c =>
          simp only [runFuel, step, processChar] at h
          split at h
          · rename_i heq
            split at heq
            · cases heq
            · cases heq
              exact ih _ hrest h
          · rename_i heq
            split at heq
            · cases heq; cases h; cases hb
            · cases heq
        | function n p a =>
          simp only [runFuel, step, processFunction] at h
          split at h
          · rename_i heq
            split at heq
            · cases heq; exact ih _ hrest h
            · split at heq
              · cases heq
              · cases heq; exact ih _ hrest h
          · rename_i heq
            split at heq
            · cases heq
            · split at heq
              · rename_i p' hp'
                cases heq; cases h
                have : p' ≠ .nilOp := by
                  intro hh
                  subst hh
                  have pop : ∀ d k st acc, popChilds d k st acc ≠ .error .nilOp := by
                    intro d k
                    induction k with
                    | zero => intro st acc hh; cases hh
                    | succ k ih =>
                      intro st acc hh
                      cases st with
                      | nil => cases hh
                      | cons n st =>
                        simp only [popChilds] at hh
                        split at hh
                        · exact ih _ _ hh
                        · split at hh
                          · cases hh
                          · exact ih _ _ hh
                  exact pop _ _ _ _ hp'
                cases p' <;> first | cases hb; done | exact absurd rfl this
              · cases heq
        | nonTerminal n =>
          simp only [runFuel, step, processNonTerminal] at h
          by_cases hn : n < 0
          · simp only [hn, if_true, processBuiltinNonTerminal] at h
            by_cases h2 : n = -2
            · simp only [h2, if_true] at h
              by_cases h10 : peek src off = 10
              · simp only [h10, if_true] at h
                exact ih _ (cons (by simp) (cons (by simp) hrest)) h
              · by_cases h13 : peek src off = 13
                · simp only [h13, if_true] at h
                  exact ih _ (cons (by simp) (cons (by simp) (cons (by simp) hrest))) h
                · simp only [h10, h13, if_false] at h
                  cases h; cases hb
            · simp only [h2, if_false] at h
              cases h; cases hb
          · simp only [hn, if_false, processTableNonTerminal] at h
            cases h1 : tbl.get n with
            | none => simp only [h1] at h; cases h; cases hb
            | some row =>
              simp only [h1] at h
              cases h2 : GoMap.get row (peek src off) with
              | none => simp only [h2] at h; cases h; cases hb
              | some cell =>
                simp only [h2] at h
                refine ih _ ?_ h
                intro x hx hu
                rcases List.mem_append.1 hx with hx | hx
                · exact ⟨n, row, _, cell, h1, h2, hx⟩
                · exact cons (by simp) hrest x hx hu

/-- **C80.** The panic message of such a panic tells what is wrong: a nil dereference means that the table holds nil (or a
struct around nil), "can't cast ... op to it's type" that it holds a foreign operation of that kind. -/
theorem C80_blame (p : XParser) (fuel : Nat) (src : Source) (o : XOutcome) (h : p.parseFuel fuel src = some o)
    (hb : o.blamed = true) :
    ∃ x, InTable p.table x ∧ x.unknown = true ∧
      (o = .panic (.own .nilOp) ∧ (x = .own .nil ∨ x = .foreign none) ∨
        ∃ k, o = .panic (.cast k) ∧ x = .foreign (some k)) := by
  unfold XParser.parseFuel at h
  split at h
  · cases h; cases hb
  · split at h
    · cases h; cases hb
    · split at h
      · cases h; cases hb
      · refine run_blame _ _ _ _ ?_ o h hb
        intro x hx hu
        simp only [initState, List.mem_cons, List.not_mem_nil, or_false] at hx
        rcases hx with rfl | rfl <;> cases hu

/-- **C80.** On tables of the package's own operations this model of `Parse` is the one of all other properties. -/
theorem C80_known (p : Parser) (fuel : Nat) (src : Source) :
    (XParser.mk (anyTable p.table) p.names).parseFuel fuel src = (p.parseFuel fuel src).map Outcome.any := by
  have he : eraseTable (anyTable p.table) = p.table := by
    simp only [eraseTable, anyTable, eraseRow, List.map_map]
    refine List.map_id'' (fun e => ?_) _
    simp only [Function.comp, List.map_map]
    refine Prod.ext rfl ?_
    refine List.map_id'' (fun c => ?_) _
    refine Prod.ext rfl ?_
    simp only [Function.comp, List.map_map]
    exact List.map_id'' (fun _ => rfl) _
  have h := C80_like_nil (XParser.mk (anyTable p.table) p.names) fuel src
  rw [he] at h
  rw [← h]
  cases hx : (XParser.mk (anyTable p.table) p.names).parseFuel fuel src with
  | none => rfl
  | some o =>
    cases o with
    | ok t m => rfl
    | err e => rfl
    | panic q =>
      cases q with
      | own q => rfl
      | cast k =>
        exfalso
        obtain ⟨x, ⟨n, row, b, ops, h1, h2, h3⟩, _, h4 | ⟨k', _, rfl⟩⟩ := C80_blame _ fuel src _ hx rfl
        · cases h4.1
        · have : (anyTable p.table).get n = (p.table.get n).map fun r => r.map fun c => (c.1, c.2.map XOp.own) :=
            GoMap.get_mapVal _ _ _
          rw [this] at h1
          cases hr : p.table.get n with
          | none => rw [hr] at h1; cases h1
          | some r =>
            rw [hr] at h1
            cases h1
            have h2' := h2
            rw [GoMap.get_mapVal] at h2'
            cases hc : GoMap.get r b with
            | none => rw [hc] at h2'; cases h2'
            | some c =>
              rw [hc] at h2'
              cases h2'
              obtain ⟨y, _, hy⟩ := List.mem_map.1 h3
              cases hy

/-! ## A concrete case -/

/-- `S ::= "a"` on `a`, and a foreign non-terminal on `b`. -/
def Ex.foreignTable : XTable :=
  [(0, [(97, [.own (.terminal [97])]), (98, [.foreign (some .nonTerminal)])])]

/-- **C80, a concrete case.** The table above parses `a` as usual and panics on `b`. -/
theorem C80_example :
    (∃ t m, (XParser.mk Ex.foreignTable (some [])).parseFuel 9 (.string b!"a") = some (.ok t m)) ∧
    (XParser.mk Ex.foreignTable (some [])).parseFuel 9 (.string b!"b") = some (.panic (.cast .nonTerminal)) :=
  ⟨⟨_, _, rfl⟩, rfl⟩

end XP
end LL1
