import Verif.Proofs.Rename
import Verif.Props.TableGen

/-!
# Renaming non-terminals changes nothing but the names (C58)
-/

namespace LL1

/-! ## C58 -/

theorem refers_rename {ρ : Str → Str} (hi : ∀ a b, ρ a = ρ b → a = b) {g : Grammar} {name : Str} {i : Nat} :
    (g.rename ρ).Refers name i ↔ ∃ n, name = ρ n ∧ g.Refers n i := by
  have hd : ∀ j nm, (g.rename ρ).Head j nm ↔ ∃ n, nm = ρ n ∧ g.Head j n := by
    intro j nm
    constructor
    · rintro ⟨r, hr, he⟩
      simp only [Grammar.rename, List.getElem?_map, Option.map_eq_some_iff] at hr
      obtain ⟨r', hr', rfl⟩ := hr
      exact ⟨r'.head, he.symm, r', hr', rfl⟩
    · rintro ⟨n, rfl, r, hr, rfl⟩
      refine ⟨⟨ρ r.head, ⟨r.tail.sequences.map fun s => ⟨s.symbols.map (Symbol.rename ρ)⟩⟩⟩, ?_, rfl⟩
      simp only [Grammar.rename, List.getElem?_map, hr, Option.map_some]
  constructor
  · rintro ⟨h1, h2⟩
    obtain ⟨n, rfl, hn⟩ := (hd _ _).1 h1
    exact ⟨n, rfl, hn, fun j hj => h2 j ((hd _ _).2 ⟨n, rfl, hj⟩)⟩
  · rintro ⟨n, rfl, h1, h2⟩
    refine ⟨(hd _ _).2 ⟨n, rfl, h1⟩, fun j hj => ?_⟩
    obtain ⟨n', he, hj⟩ := (hd _ _).1 hj
    cases hi _ _ he
    exact h2 j hj

/-- **C58.** Consistently renaming the non-terminals of a grammar (different names stay different) changes
nothing in the table: the run on the renamed grammar gives the same table with the rows renamed, or the
same error (about the renamed non-terminal), or the same panic. -/
theorem C58_table (o₁ o₂ : Order) (h₁ : ∀ l, (o₁ l).Perm l) (h₂ : ∀ l, (o₂ l).Perm l) (ρ : Str → Str)
    (hi : ∀ a b, ρ a = ρ b → a = b) (g : Grammar) :
    (∃ tbl n₁ n₂, fromGrammar o₁ g = .ok (tbl, n₁) ∧ fromGrammar o₂ (g.rename ρ) = .ok (tbl, n₂) ∧
      ∀ k, n₂.get k = (n₁.get k).map ρ) ∨
    (∃ e, fromGrammar o₁ g = .err e ∧ fromGrammar o₂ (g.rename ρ) = .err (e.rename ρ)) ∨
    (∃ p, fromGrammar o₁ g = .panic p ∧ fromGrammar o₂ (g.rename ρ) = .panic p) := by
  have hrn := TG.run_rename hi g
  cases hr : TG.run (TG.newGen g) (TG.newSets (TG.newGen g).ruleCount) (TG.newSets (TG.newGen g).ruleCount) with
  | ok tbl =>
    rw [hr] at hrn
    have e₁ : fromGrammar o₁ g = .ok (tbl, TG.rowNames (o₁ (TG.newGen g).ruleMap) []) := by
      unfold fromGrammar; simp only [hr, Res.ok_bind, Res.pure_eq]
    have e₂ : fromGrammar o₂ (g.rename ρ) = .ok (tbl, TG.rowNames (o₂ (TG.newGen (g.rename ρ)).ruleMap) []) := by
      unfold fromGrammar; simp only [hrn, TG.mapErr_ok, Res.ok_bind, Res.pure_eq]
    refine .inl ⟨tbl, _, _, e₁, e₂, fun k => ?_⟩
    apply Option.ext
    intro name
    rw [TG.fromGrammar_names h₂ e₂, Option.map_eq_some_iff]
    constructor
    · rintro ⟨i, rfl, hi'⟩
      obtain ⟨n, rfl, hn⟩ := (refers_rename hi).1 hi'
      exact ⟨n, (TG.fromGrammar_names h₁ e₁ _ _).2 ⟨i, rfl, hn⟩, rfl⟩
    · rintro ⟨n, hn, rfl⟩
      obtain ⟨i, rfl, hn'⟩ := (TG.fromGrammar_names h₁ e₁ _ _).1 hn
      exact ⟨i, rfl, (refers_rename hi).2 ⟨n, rfl, hn'⟩⟩
  | err e =>
    rw [hr] at hrn
    refine .inr (.inl ⟨e, ?_, ?_⟩)
    · unfold fromGrammar; simp only [hr]; rfl
    · unfold fromGrammar; simp only [hrn]; rfl
  | panic p =>
    rw [hr] at hrn
    refine .inr (.inr ⟨p, ?_, ?_⟩)
    · unfold fromGrammar; simp only [hr]; rfl
    · unfold fromGrammar; simp only [hrn]; rfl
  | diverge =>
    rcases C25_order_irrelevant o₁ o₁ h₁ h₁ g with ⟨_, _, _, h, _⟩ | ⟨_, h, _⟩ | ⟨_, h, _⟩ <;>
    · unfold fromGrammar at h
      simp only [hr] at h
      cases h

theorem finish_renamed {ρ : Str → Str} {m m' : Names} (hm : ∀ k, m'.get k = (m.get k).map ρ) (k : Int) :
    (k ≠ builtinTerminal → k ≠ builtinNothing →
      (addBuiltinNames m').get k = ((addBuiltinNames m).get k).map ρ) ∧
    (k = builtinTerminal ∨ k = builtinNothing → (addBuiltinNames m').get k = (addBuiltinNames m).get k) := by
  unfold addBuiltinNames
  simp only [GoMap.get_set]
  constructor
  · intro h1 h2
    simp [h1, h2, hm]
  · rintro (rfl | rfl)
    · simp only [show (builtinTerminal : Int) ≠ builtinNothing by decide, if_false, if_true]
    · simp only [if_true]

theorem nodeTypeName_renamed {ρ : Str → Str} {m m' : Names} (hm : ∀ k, m'.get k = (m.get k).map ρ) (k : Int) :
    nodeTypeName (some m') k = match nodeTypeName (some m) k with
      | .known s => .known (ρ s)
      | .unknown i => .unknown i := by
  unfold nodeTypeName
  simp only [Option.getD_some, hm]
  cases m.get k <;> rfl

inductive StepRenamed (ρ : Str → Str) : StepRes → StepRes → Prop
  | next {s : PState} : StepRenamed ρ (.next s) (.next s)
  | done {o o' : Outcome} : Outcome.Renamed ρ o o' → StepRenamed ρ (.done o) (.done o')

theorem stepRenamed_refl {ρ : Str → Str} {x : StepRes} (h : ∀ o, x = .done o → (∃ e, o = .err e ∧ e.rename ρ = e) ∨
    ∃ p, o = .panic p) : StepRenamed ρ x x := by
  cases x with
  | next s => exact .next
  | done o =>
    rcases h o rfl with ⟨e, rfl, he⟩ | ⟨p, rfl⟩
    · have := Outcome.Renamed.err (ρ := ρ) (e := e)
      rw [he] at this
      exact .done this
    · exact .done .panic

theorem step_renamed {ρ : Str → Str} {m m' : Names} (hm : ∀ k, m'.get k = (m.get k).map ρ) (table : Table)
    (src : Str) (s : PState) : StepRenamed ρ (step table (some m) src s) (step table (some m') src s) := by
  unfold step
  cases s.opStack with
  | nil => exact .done .panic
  | cons op rest =>
    cases op with
    | nonTerminal name =>
      simp only [processNonTerminal]
      split
      · refine stepRenamed_refl fun o ho => ?_
        unfold processBuiltinNonTerminal at ho
        split at ho
        · simp only [] at ho
          split at ho
          · cases ho
          · split at ho
            · cases ho
            · cases ho; exact .inl ⟨_, rfl, rfl⟩
        · cases ho; exact .inl ⟨_, rfl, rfl⟩
      · simp only [processTableNonTerminal]
        cases table.get name with
        | none =>
          simp only [nodeTypeName_renamed hm]
          refine .done ?_
          cases nodeTypeName (some m) name <;> exact .err (e := .noRulesFor _)
        | some row =>
          cases hg : GoMap.get row (peek src s.offset) with
          | none =>
            simp only [hg, nodeTypeName_renamed hm]
            refine .done ?_
            cases nodeTypeName (some m) name <;> exact .err (e := .noRule _ _)
          | some ops => simp only [hg]; exact .next
    | terminal value => exact .next
    | function name pos amount =>
      refine stepRenamed_refl fun o ho => ?_
      simp only [processFunction] at ho
      split at ho
      · cases ho
      · split at ho
        · cases ho; exact .inr ⟨_, rfl⟩
        · cases ho
    | eos =>
      simp only [processEOS]
      refine .done ?_
      split
      · exact .err (e := .expectedEnd _)
      · cases s.prodStack with
        | nil => exact .err (e := .prodStackEmpty)
        | cons n _ =>
          exact .ok (fun k h1 h2 => (finish_renamed hm k).1 h1 h2) ((finish_renamed hm _).2 (.inl rfl))
            ((finish_renamed hm _).2 (.inr rfl))
    | char c =>
      refine stepRenamed_refl fun o ho => ?_
      simp only [processChar] at ho
      split at ho
      · cases ho; exact .inl ⟨_, rfl, rfl⟩
      · cases ho
    | nil => exact .done .panic

theorem runFuel_renamed {ρ : Str → Str} {m m' : Names} (hm : ∀ k, m'.get k = (m.get k).map ρ) (table : Table)
    (src : Str) : ∀ (fuel : Nat) (s : PState), (runFuel table (some m) src fuel s = none ∧
      runFuel table (some m') src fuel s = none) ∨ ∃ o o', runFuel table (some m) src fuel s = some o ∧
      runFuel table (some m') src fuel s = some o' ∧ Outcome.Renamed ρ o o'
  | 0, _ => .inl ⟨rfl, rfl⟩
  | fuel + 1, s => by
    have h := step_renamed hm table src s
    unfold runFuel
    generalize step table (some m) src s = x at h
    generalize step table (some m') src s = y at h
    cases h with
    | next => exact runFuel_renamed hm table src fuel _
    | done h => exact .inr ⟨_, _, rfl, rfl, h⟩

/-- **C58.** Two parsers with the same table whose maps of names differ by a renaming do the same on every
source: both return with outcomes that differ by the renaming only, or neither returns. -/
theorem C58_parse (ρ : Str → Str) (tbl : Table) (m m' : Names) (hm : ∀ k, m'.get k = (m.get k).map ρ) (src : Source) :
    (∃ o o', (Parser.mk tbl (some m)).Returns src o ∧ (Parser.mk tbl (some m')).Returns src o' ∧
      Outcome.Renamed ρ o o') ∨
    ((Parser.mk tbl (some m)).Diverges src ∧ (Parser.mk tbl (some m')).Diverges src) := by
  have key : ∀ fuel, ((Parser.mk tbl (some m)).parseFuel fuel src = none ∧
      (Parser.mk tbl (some m')).parseFuel fuel src = none) ∨
      ∃ o o', (Parser.mk tbl (some m)).parseFuel fuel src = some o ∧
        (Parser.mk tbl (some m')).parseFuel fuel src = some o' ∧ Outcome.Renamed ρ o o' := by
    intro fuel
    unfold Parser.parseFuel
    simp only []
    split
    · exact .inr ⟨_, _, rfl, rfl, .err (e := .emptyTable)⟩
    · cases tbl.get 0 with
      | none => exact .inr ⟨_, _, rfl, rfl, .err (e := .noEntry)⟩
      | some _ =>
        cases hs : readSource src with
        | error e =>
          refine .inr ⟨_, _, rfl, rfl, ?_⟩
          have : e.rename ρ = e := by
            unfold readSource at hs
            split at hs <;> cases hs <;> rfl
          have h := Outcome.Renamed.err (ρ := ρ) (e := e)
          rwa [this] at h
        | ok text => exact runFuel_renamed hm tbl text fuel initState
  by_cases h : ∃ fuel o, (Parser.mk tbl (some m)).parseFuel fuel src = some o
  · obtain ⟨fuel, o, ho⟩ := h
    rcases key fuel with ⟨hn, _⟩ | ⟨o₁, o₂, h1, h2, hr⟩
    · rw [hn] at ho; cases ho
    · exact .inl ⟨o₁, o₂, ⟨fuel, h1⟩, ⟨fuel, h2⟩, hr⟩
  · refine .inr ⟨fun fuel => ?_, fun fuel => ?_⟩
    · cases hp : (Parser.mk tbl (some m)).parseFuel fuel src with
      | none => rfl
      | some o => exact absurd ⟨fuel, o, hp⟩ h
    · rcases key fuel with ⟨_, hn⟩ | ⟨o₁, o₂, h1, _, _⟩
      · exact hn
      · exact absurd ⟨fuel, o₁, h1⟩ h

/-- **C58.** So the parsers made from a grammar and from its renaming accept the same sources and return
the same trees. -/
theorem C58_trees (o₁ o₂ : Order) (h₁ : ∀ l, (o₁ l).Perm l) (h₂ : ∀ l, (o₂ l).Perm l) (ρ : Str → Str)
    (hi : ∀ a b, ρ a = ρ b → a = b) (g : Grammar) (tbl tbl' : Table) (m m' : Names)
    (h : fromGrammar o₁ g = .ok (tbl, m)) (h' : fromGrammar o₂ (g.rename ρ) = .ok (tbl', m')) (src : Source)
    (t : Node) :
    (∃ n, (Parser.mk tbl (some m)).Returns src (.ok t n)) ↔ ∃ n, (Parser.mk tbl' (some m')).Returns src (.ok t n) := by
  rcases C58_table o₁ o₂ h₁ h₂ ρ hi g with ⟨tb, n₁, n₂, e₁, e₂, hn⟩ | ⟨e, he, _⟩ | ⟨p, hp, _⟩
  · rw [h] at e₁; cases e₁
    rw [h'] at e₂; cases e₂
    rcases C58_parse ρ tbl m m' hn src with ⟨o, o', r, r', hr⟩ | ⟨d, d'⟩
    · constructor
      · rintro ⟨n, hs⟩
        cases returns_det hs r
        cases hr with
        | ok _ _ _ => exact ⟨_, r'⟩
      · rintro ⟨n, hs⟩
        cases returns_det hs r'
        cases hr with
        | ok _ _ _ => exact ⟨_, r⟩
    · constructor
      · rintro ⟨n, hs⟩; exact (diverges_iff.1 d _ hs).elim
      · rintro ⟨n, hs⟩; exact (diverges_iff.1 d' _ hs).elim
  · rw [h] at he; cases he
  · rw [h] at hp; cases hp

/-- The renaming that puts a `_` in front of every name; the nested-brackets grammar under it. -/
example : (∀ a b : Str, (95 :: a : Str) = 95 :: b → a = b) ∧
    Ex.nested.rename (95 :: ·) = ⟨[
      rule b!"_S" [[.terminal b!"(", .nonTerminal b!"_S", .terminal b!")", .nonTerminal b!"_T"],
        [.terminal b!"x", .nonTerminal b!"_T"]],
      rule b!"_T" [[.terminal b!",", .nonTerminal b!"_S"], [.nothing]]]⟩ ∧
    (∃ tbl names, fromGrammar id Ex.nested = .ok (tbl, names)) ∧
    (∃ tbl names, fromGrammar id (Ex.nested.rename (95 :: ·)) = .ok (tbl, names)) :=
  ⟨fun a b h => by cases h; rfl, by decide +kernel, succeeds_iff.1 (by decide +kernel),
    succeeds_iff.1 (by decide +kernel)⟩

end LL1
