import Verif.Spec.TestDriver
import Verif.Proofs.TestDriver
import Verif.Props.TestTools

/-!
# C111: what the reference files of the parser tests tell
-/

namespace LL1
namespace TestTools

/-- **C111.** The printed form of a tree determines the tree, and no printed tree begins another: what follows does not
matter. -/
theorem C111_tree_code (t t' : Node) (x y : Str) : fmtNode t ++ x = fmtNode t' ++ y ↔ t = t' ∧ x = y := by
  constructor
  · exact fmtNode_code t t' x y
  · rintro ⟨rfl, rfl⟩; rfl

theorem tree_compare (t t' : Node) : contentFails (fmtNode t) (fmtNode t') = false ↔ t = t' := by
  constructor
  · intro h
    rcases contentFails_prefix h with ⟨z, hz⟩ | ⟨z, hz⟩
    · exact (fmtNode_code t t' z [] (by rw [hz, List.append_nil])).1
    · exact (fmtNode_code t' t z [] (by rw [hz, List.append_nil])).1.symm
  · rintro rfl
    exact contentFails_refl _

/-- **C111.** So the comparison of printed trees is exact, although the comparison of contents behind it is not (C66):
it passes exactly for equal trees. -/
theorem C111_tree_compare (t t' : Node) (fuel : Nat) (hf : (fmtNode t).length + (fmtNode t').length < fuel) :
    readerContentMustBeEqual contentReader contentReader fuel (fmtNode t) (fmtNode t') = some true ↔ t = t' := by
  constructor
  · intro h
    rcases (C66_pass _ _ fuel hf h).1 with ⟨z, hz⟩ | ⟨z, hz⟩
    · exact (fmtNode_code t t' z [] (by rw [hz, List.append_nil])).1
    · exact (fmtNode_code t' t z [] (by rw [hz, List.append_nil])).1.symm
  · rintro rfl
    exact C66_equal_passes _ _ hf

/-- **C111.** A names map is printed the same in whatever order its entries lie. -/
theorem C111_names_order (m m' : Names) (hm : IsGoMap m) (hm' : IsGoMap m') (h : ∀ k, m.get k = m'.get k) :
    fmtNames m = fmtNames m' := by
  have e := sortedNames_eq m m' hm (names_perm m m' hm hm' h)
  unfold fmtNames
  rw [show m.foldr insertKey [] = m'.foldr insertKey [] from e]

/-- **C111.** The entries are printed in ascending order of their numbers. -/
theorem C111_names_ascending (m : Names) (hm : IsGoMap m) : ∃ l : Names, l.Perm m ∧
    l.Pairwise (fun a b => a.1 < b.1) ∧
    fmtNames m = b!"map[" ++ (List.intercalate [32] (l.map fun e => decimalInt e.1 ++ (58 :: e.2)) ++ b!"]") := by
  refine ⟨sortedNames m, sortedNames_perm m, ?_, ?_⟩
  · have hn : ((sortedNames m).map (·.1)).Nodup := ((sortedNames_perm m).map _).nodup_iff.2 hm
    have hn' : (sortedNames m).Pairwise fun a b => a.1 ≠ b.1 := List.Pairwise.of_map (·.1) (fun _ _ h => h) hn
    exact ((sortedNames_sorted m).and hn').imp fun h => by omega
  · unfold fmtNames
    simp only [fmtInt_eq]

theorem plain_sorted {m : Names} (hm : IsGoMap m) (hp : PlainNames m) :
    ∀ e ∈ sortedNames m, ∀ c ∈ e.2, c ≠ 32 ∧ c ≠ 93 := by
  intro e he c hc
  obtain ⟨h1, h2⟩ := hp e.1 e.2 ((get_iff_mem m hm e.1 e.2).2 ((sortedNames_perm m).mem_iff.1 he))
  exact ⟨fun e => h1 (e ▸ hc), fun e => h2 (e ▸ hc)⟩

/-- **C111.** If no name contains a blank or a closing bracket, the printed form of a names map determines the map, and
no printed map begins another. -/
theorem C111_names_plain (m m' : Names) (hm : IsGoMap m) (hm' : IsGoMap m') (hp : PlainNames m) (hp' : PlainNames m')
    (x y : Str) : fmtNames m ++ x = fmtNames m' ++ y ↔ (∀ k, m.get k = m'.get k) ∧ x = y := by
  constructor
  · intro h
    unfold fmtNames at h
    rw [show (b!"]" : Str) = [93] by decide] at h
    simp only [List.append_assoc] at h
    have h := List.append_cancel_left h
    simp only [List.cons_append, List.nil_append] at h
    obtain ⟨e, hx⟩ := entries_code (sortedNames m) (sortedNames m') (plain_sorted hm hp) (plain_sorted hm' hp') x y h
    refine ⟨names_get_of_perm m m' hm ?_, hx⟩
    exact (sortedNames_perm m).symm.trans (e ▸ sortedNames_perm m')
  · rintro ⟨h, rfl⟩
    rw [C111_names_order m m' hm hm' h]

theorem names_compare (m m' : Names) (hm : IsGoMap m) (hm' : IsGoMap m') (hp : PlainNames m) (hp' : PlainNames m') :
    contentFails (fmtNames m) (fmtNames m') = false ↔ ∀ k, m.get k = m'.get k := by
  constructor
  · intro h
    rcases contentFails_prefix h with ⟨z, hz⟩ | ⟨z, hz⟩
    · exact ((C111_names_plain m m' hm hm' hp hp' z []).1 (by rw [hz, List.append_nil])).1
    · exact fun k => (((C111_names_plain m' m hm' hm hp' hp z []).1 (by rw [hz, List.append_nil])).1 k).symm
  · intro h
    rw [C111_names_order m m' hm hm' h]
    exact contentFails_refl _

/-- **C111.** Without that the printed form does not determine the map: a name with a blank in it reads like a further
entry, and the driver's comparison passes. -/
theorem C111_names_ambiguous : ∃ m m' : Names, IsGoMap m ∧ IsGoMap m' ∧ m.get 2 ≠ m'.get 2 ∧ fmtNames m = fmtNames m' :=
  ⟨[(1, b!"a 2:b")], [(1, b!"a"), (2, b!"b")], by unfold IsGoMap; decide +kernel, by unfold IsGoMap; decide +kernel,
    by decide +kernel, by decide +kernel⟩

/-- **C111.** Exactly when `performTestsOnParser` comes to its end without marking the test: every case that expects an
error gets one with that message, and for every other case both files are there, the parse succeeds, and
`ReaderContentMustBeEqual` passes for the printed tree and the printed names. -/
theorem C111_perform (parse : Str → Outcome) (fs : Files) (tests : List ParserTestCase) :
    performTestsOnParser parse fs tests false = .finished false ↔ ∀ test ∈ tests,
      (test.err = none → ∃ reft refnt t m, fs test.parseTreeFile = some reft ∧ fs test.namingMapFile = some refnt ∧
        parse test.input = .ok t m ∧
        readerContentMustBeEqual contentReader contentReader (reft.length + (fmtNode t).length + 1) reft (fmtNode t) =
          some true ∧
        readerContentMustBeEqual contentReader contentReader (refnt.length + (fmtNames m).length + 1) refnt
          (fmtNames m) = some true) ∧
      ∀ msg, test.err = some msg → ∃ e, parse test.input = .err e ∧ e.render = msg := by
  rw [performTests_iff]
  simp only [true_and, contentFails, decide_eq_false_iff_not, Decidable.not_not]

theorem update_other (parse : Str → Outcome) (tests : List ParserTestCase) (fs : Files) (q : Str)
    (hq : q ∉ refFiles tests) : (updateTestsOnParser parse tests fs).1 q = fs q := by
  induction tests generalizing fs with
  | nil => rfl
  | cons test tests ih =>
    unfold updateTestsOnParser
    by_cases he : test.err = none
    · have hq' : q ≠ test.parseTreeFile ∧ q ≠ test.namingMapFile ∧ q ∉ refFiles tests := by
        simp only [refFiles, List.filter_cons, he, decide_true, if_true, List.flatMap_cons, List.mem_append,
          List.mem_cons, List.not_mem_nil, or_false, not_or] at hq
        exact ⟨hq.1.1, hq.1.2, hq.2⟩
      simp only [he, ne_eq, not_true_eq_false, if_false]
      cases parse test.input with
      | ok t m =>
        simp only
        rw [ih _ hq'.2.2]
        simp [Files.write, Files.create, hq'.1, hq'.2.1]
      | err e => simp [Files.create, hq'.1, hq'.2.1]
      | panic p => simp [Files.create, hq'.1, hq'.2.1]
    · have hq' : q ∉ refFiles tests := by simpa [refFiles, he] using hq
      simp only [ne_eq, he, not_false_eq_true, if_true]
      exact ih fs hq'

/-- **C111.** `updateTestsOnParser` on cases with files of their own comes to its end unmarked exactly when every case
that expects no error parses; then each of their files holds the printed tree or names, and no other file is touched. -/
theorem C111_update (parse : Str → Outcome) (tests : List ParserTestCase) (hd : (refFiles tests).Nodup) (fs fs' : Files) :
    (updateTestsOnParser parse tests fs = (fs', .finished false) ↔
      (∀ q, q ∉ refFiles tests → fs' q = fs q) ∧
      ∀ test ∈ tests, test.err = none → ∃ t m, parse test.input = .ok t m ∧
        fs' test.parseTreeFile = some (fmtNode t) ∧ fs' test.namingMapFile = some (fmtNames m)) := by
  induction tests generalizing fs with
  | nil =>
    simp only [updateTestsOnParser, Prod.mk.injEq, and_true, refFiles, List.filter_nil, List.flatMap_nil,
      List.not_mem_nil, not_false_eq_true, true_implies, false_implies, implies_true]
    exact ⟨fun h q => by rw [h], fun h => (funext h).symm⟩
  | cons test tests ih =>
    rw [List.forall_mem_cons]
    unfold updateTestsOnParser
    by_cases he : test.err = none
    · have hR : refFiles (test :: tests) = test.parseTreeFile :: test.namingMapFile :: refFiles tests := by
        simp [refFiles, he]
      rw [hR, List.nodup_cons, List.nodup_cons] at hd
      obtain ⟨hd1, hd2, hd3⟩ := hd
      simp only [List.mem_cons, not_or] at hd1
      simp only [he, ne_eq, not_true_eq_false, if_false, true_implies]
      cases hpar : parse test.input with
      | err e => simp
      | panic p => simp
      | ok t m =>
        simp only
        rw [ih hd3]
        have key : ∀ q, ((((fs.create test.parseTreeFile).create test.namingMapFile).write test.parseTreeFile
            (fmtNode t)).write test.namingMapFile (fmtNames m)) q =
            if q = test.namingMapFile then some (fmtNames m) else if q = test.parseTreeFile then some (fmtNode t)
            else fs q := by
          intro q
          by_cases h1 : q = test.namingMapFile
          · subst h1
            simp [Files.write, Files.create, Ne.symm hd1.1]
          · by_cases h2 : q = test.parseTreeFile
            · subst h2
              simp [Files.write, Files.create, h1]
            · simp [Files.write, Files.create, h1, h2]
        constructor
        · rintro ⟨h1, h2⟩
          refine ⟨?_, ⟨t, m, rfl, ?_, ?_⟩, h2⟩
          · intro q hq
            rw [hR] at hq
            simp only [List.mem_cons, not_or] at hq
            rw [h1 q hq.2.2, key, if_neg hq.2.1, if_neg hq.1]
          · rw [h1 _ hd1.2, key, if_neg hd1.1, if_pos rfl]
          · rw [h1 _ hd2, key, if_pos rfl]
        · rintro ⟨h1, ⟨t', m', hp, h2, h3⟩, h4⟩
          cases hp
          refine ⟨fun q hq => ?_, h4⟩
          rw [key]
          by_cases e1 : q = test.namingMapFile
          · rw [if_pos e1, e1, h3]
          · by_cases e2 : q = test.parseTreeFile
            · rw [if_neg e1, if_pos e2, e2, h2]
            · rw [if_neg e1, if_neg e2]
              refine h1 q ?_
              rw [hR]
              simp [e1, e2, hq]
    · have hR : refFiles (test :: tests) = refFiles tests := by simp [refFiles, he]
      rw [hR] at hd ⊢
      simp only [ne_eq, he, not_false_eq_true, if_true, false_implies, true_and]
      exact ih hd fs

/-- **C111.** What the parser tests guard: the reference files were written with one parser (`parse`) and the driver is
run with another (`parse'`); each case has files of its own.  The driver passes exactly if every case that expects
an error gets one with that message and every other case gives the very tree it gave before, and names that the
comparison of contents does not tell from the earlier ones. -/
theorem C111_regression (parse parse' : Str → Outcome) (tests : List ParserTestCase) (hd : (refFiles tests).Nodup)
    (fs fs' : Files) (hu : updateTestsOnParser parse tests fs = (fs', .finished false)) :
    performTestsOnParser parse' fs' tests false = .finished false ↔ ∀ test ∈ tests,
      (test.err = none → ∃ t m m', parse test.input = .ok t m ∧ parse' test.input = .ok t m' ∧
        readerContentMustBeEqual contentReader contentReader ((fmtNames m).length + (fmtNames m').length + 1)
          (fmtNames m) (fmtNames m') = some true) ∧
      ∀ msg, test.err = some msg → ∃ e, parse' test.input = .err e ∧ e.render = msg := by
  obtain ⟨-, hu⟩ := (C111_update parse tests hd fs fs').1 hu
  rw [performTests_iff]
  simp only [true_and]
  refine forall_congr' fun test => forall_congr' fun ht => and_congr_left' (forall_congr' fun he => ?_)
  obtain ⟨t, m, hp, h1, h2⟩ := hu test ht he
  constructor
  · rintro ⟨reft, refnt, t', m', g1, g2, g3, g4, g5⟩
    rw [h1] at g1
    rw [h2] at g2
    cases g1; cases g2
    cases (tree_compare t t').1 g4
    refine ⟨t, m, m', hp, g3, ?_⟩
    simpa only [contentFails, decide_eq_false_iff_not, Decidable.not_not] using g5
  · rintro ⟨t', m₁, m', g1, g2, g3⟩
    rw [hp] at g1
    cases g1
    refine ⟨_, _, t, m', h1, h2, g2, (tree_compare t t).2 rfl, ?_⟩
    simpa only [contentFails, decide_eq_false_iff_not, Decidable.not_not] using g3

/-- **C111.** With plain names the driver passes exactly if nothing changed: same trees, same names, same messages. -/
theorem C111_regression_plain (parse parse' : Str → Outcome) (tests : List ParserTestCase) (hd : (refFiles tests).Nodup)
    (hn : ∀ input t m, parse input = .ok t m → IsGoMap m ∧ PlainNames m)
    (hn' : ∀ input t m, parse' input = .ok t m → IsGoMap m ∧ PlainNames m)
    (fs fs' : Files) (hu : updateTestsOnParser parse tests fs = (fs', .finished false)) :
    performTestsOnParser parse' fs' tests false = .finished false ↔ ∀ test ∈ tests,
      (test.err = none → ∃ t m m', parse test.input = .ok t m ∧ parse' test.input = .ok t m' ∧ ∀ k, m.get k = m'.get k) ∧
      ∀ msg, test.err = some msg → ∃ e, parse' test.input = .err e ∧ e.render = msg := by
  rw [C111_regression parse parse' tests hd fs fs' hu]
  refine forall_congr' fun test => forall_congr' fun ht => and_congr_left' (forall_congr' fun he =>
    exists_congr fun t => exists_congr fun m => exists_congr fun m' => and_congr_right fun h1 => and_congr_right fun h2 => ?_)
  obtain ⟨a, b⟩ := hn _ _ _ h1
  obtain ⟨a', b'⟩ := hn' _ _ _ h2
  rw [← names_compare m m' a a' b b']
  simp only [contentFails, decide_eq_false_iff_not, Decidable.not_not]

/-- `Parse` of the parser made from a grammar, cut off after 200 steps (the test inputs need fewer). -/
def refParse (g : Grammar) (input : Str) : Outcome :=
  match fromGrammar id g with
  | .ok (tbl, names) =>
    match (Parser.mk tbl (some names)).parseFuel 200 (.string input) with
    | some o => o
    | none => .err .emptyTable
  | _ => .err .emptyTable

/-- The cases of `TestLinearMultiRuleParserParse` (parser_test.go:183-330) with made-up file names. -/
def refCases : List ParserTestCase :=
  (Golden.parserRefs.filter fun r => r.1 = "linearMultiRule").zipIdx.map (fun r =>
    ⟨r.1.2.1, [UInt8.ofNat r.2, 116], [UInt8.ofNat r.2, 110], none⟩) ++
  Golden.parserErrors.map fun r => ⟨r.1, [], [], some r.2⟩

/-- Did a driver come to its end unmarked? -/
def DriverEnd.passed : DriverEnd → Bool
  | .finished false => true
  | _ => false

theorem refCases_update :
    (updateTestsOnParser (refParse Golden.linearMultiRule) refCases (fun _ => none)).2.passed = true := by
  decide +kernel

theorem refCases_nodup : (refFiles refCases).Nodup := by decide +kernel

theorem refCases_errors : (refCases.all fun test => match test.err, refParse Golden.linearMultiRule test.input with
    | none, _ => true
    | some msg, .err e => e.render = msg
    | _, _ => false) = true := by
  decide +kernel

/-- The hypotheses are met by the repository's own cases: the files are distinct, writing them passes, and running
against them passes with the same parser and not with a parser that answers every input with one leaf. -/
example : 2 ≤ (refFiles refCases).length ∧ ∃ fs', updateTestsOnParser (refParse Golden.linearMultiRule) refCases
      (fun _ => none) = (fs', .finished false) ∧
    performTestsOnParser (refParse Golden.linearMultiRule) fs' refCases false = .finished false ∧
    performTestsOnParser (fun _ => .ok (.mk 0 0 0 []) []) fs' refCases false ≠ .finished false := by
  refine ⟨by decide +kernel, ?_⟩
  have hu := refCases_update
  generalize hU : updateTestsOnParser (refParse Golden.linearMultiRule) refCases (fun _ => none) = U at hu
  obtain ⟨fs', e⟩ := U
  match e, hu with
  | .finished false, _ =>
    refine ⟨fs', rfl, ?_, ?_⟩
    · rw [C111_regression _ _ _ refCases_nodup _ _ hU]
      intro test ht
      constructor
      · intro he
        obtain ⟨t, m, hp, -⟩ := ((C111_update _ _ refCases_nodup _ _).1 hU).2 test ht he
        exact ⟨t, m, m, hp, hp, C66_equal_passes _ _ (by omega)⟩
      · intro msg hm
        have h := List.all_eq_true.1 refCases_errors test ht
        rw [hm] at h
        cases hp : refParse Golden.linearMultiRule test.input with
        | err e => rw [hp] at h; exact ⟨e, rfl, of_decide_eq_true h⟩
        | ok t m => rw [hp] at h; cases h
        | panic q => rw [hp] at h; cases h
    · rw [ne_eq, C111_regression _ _ _ refCases_nodup _ _ hU]
      intro h
      have hx : (refCases.any fun test => test.err.isSome) = true := by decide +kernel
      obtain ⟨test, ht, hs⟩ := List.any_eq_true.1 hx
      obtain ⟨msg, hm⟩ := Option.isSome_iff_exists.1 hs
      obtain ⟨e, he, -⟩ := (h test ht).2 msg hm
      cases he

end TestTools
end LL1
