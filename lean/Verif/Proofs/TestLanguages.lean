import Verif.Spec.TestLanguages
import Verif.Proofs.SelfTable
import Verif.Props.Parser

/-! # The languages of the repository's test grammars: proofs -/

namespace LL1

theorem litAt_drop {w s : Str} {i : Nat} (h0 : (0 : UInt8) ∉ s) (h : LitAt w s i) :
    w.drop i = s ++ w.drop (i + s.length) := by
  induction s generalizing i with
  | nil => simp
  | cons c s ih =>
    have h1 := h 0 (by simp)
    simp only [List.getElem?_cons_zero, Option.some.injEq, Nat.add_zero] at h1
    have h2 : LitAt w s (i + 1) := by
      intro k hk
      have := h (k + 1) (by simpa using hk)
      rw [List.getElem?_cons_succ, show i + (k + 1) = i + 1 + k by omega] at this
      exact this
    have h3 := ih (by simp_all) h2
    have hlt : i < w.length := by
      refine Nat.lt_of_not_le fun hge => h0 ?_
      rw [byteAt_ge hge] at h1
      simp [h1]
    rw [List.drop_eq_getElem_cons hlt, h3]
    simp only [byteAt, List.getD_eq_getElem?_getD, List.getElem?_eq_getElem hlt, Option.getD_some] at h1
    simp only [List.length_cons, List.cons_append, ← h1, Nat.add_comm s.length 1, Nat.add_assoc]

theorem drop_nil_of_byte {w : Str} {i : Nat} (h0 : (0 : UInt8) ∉ w) (h : byteAt w i = 0) : w.drop i = [] := by
  rw [List.drop_eq_nil_iff]
  refine Nat.le_of_not_lt fun hlt => h0 ?_
  simp only [byteAt, List.getD_eq_getElem?_getD, List.getElem?_eq_getElem hlt, Option.getD_some] at h
  rw [← h]; exact List.getElem_mem _

/-- A table whose cells hold no non-terminal in front of a literal that makes progress: its parsers return. -/
def Sharp (tbl : Table) : Prop :=
  ∀ e ∈ tbl, ∀ c ∈ e.2, untilProgress c.1 c.2 = []

instance (tbl : Table) : Decidable (Sharp tbl) := by unfold Sharp; infer_instance

theorem SameTable.get {a b : Table} (h : SameTable a b) {n : Int} {row : Row} (hn : a.get n = some row) {c : UInt8}
    {ops : List ParserOp} (hc : GoMap.get row c = some ops) :
    ∃ row', b.get n = some row' ∧ GoMap.get row' c = some ops := by
  obtain ⟨h1, h2⟩ := h n
  obtain ⟨row', h'⟩ := h1.1 ⟨row, hn⟩
  exact ⟨row', h', by rw [← h2 row row' hn h']; exact hc⟩

theorem Sharp.returns {tbl gold : Table} (hs : SameTable tbl gold) (h : Sharp gold) (he : tbl.HasEntry)
    (hp : tbl.Public) (nm : Option Names) (src : Source) : ∃ o, (Parser.mk tbl nm).Returns src o := by
  refine C20_terminates_any (Parser.mk tbl nm) he hp (fun _ _ => 0) (fun n row b body h1 h2 m _ hm => ?_) src
  obtain ⟨row', h1', h2'⟩ := hs.get h1 h2
  have := h _ (GoMap.mem_of_get_eq_some h1') _ (GoMap.mem_of_get_eq_some h2')
  simp only at this
  rw [this] at hm
  cases hm

/-- From the parses of the recorded table to what the parser of an equal table does on every source. -/
theorem returns_of_gold {tbl gold : Table} (hs : SameTable tbl gold) (hsh : Sharp gold) (he : tbl.HasEntry)
    (hp : tbl.Public) {P : Str → Node → Prop} (hP : ∀ w t, (0 : UInt8) ∉ w → (IsParse gold w t ↔ P w t))
    (m : Names) (src : Source) (w : Str) (hr : readSource src = .ok w) (h0 : (0 : UInt8) ∉ w) :
    (∀ t m', (Parser.mk tbl (some m)).Returns src (.ok t m') ↔ P w t ∧ m' = addBuiltinNames m) ∧
    ((∃ e, (Parser.mk tbl (some m)).Returns src (.err e)) ↔ ∀ t, ¬ P w t) := by
  have h1 : ∀ t m', (Parser.mk tbl (some m)).Returns src (.ok t m') ↔ P w t ∧ m' = addBuiltinNames m := by
    intro t m'
    rw [returns_ok_iff (p := Parser.mk tbl (some m)) he hp hr, ← hP w t h0]
    constructor
    · rintro ⟨hi, m₀, h, h'⟩; cases h; exact ⟨hi.congr hs, h'⟩
    · rintro ⟨hi, h'⟩; exact ⟨hi.congr hs.symm, m, rfl, h'⟩
  refine ⟨h1, ?_, ?_⟩
  · rintro ⟨e, he'⟩ t ht
    have := returns_det he' ((h1 t _).2 ⟨ht, rfl⟩)
    cases this
  · intro hn
    obtain ⟨o, ho⟩ := hsh.returns hs he hp (some m) src
    rcases returns_cases (p := Parser.mk tbl (some m)) he hp hr ho with ⟨t, ht, rfl⟩ | ⟨k, e, _, rfl⟩
    · exact (hn t ((hP w t h0).1 (ht.congr hs))).elim
    · exact ⟨e, ho⟩

theorem litAt_prefix (p s q : Str) : LitAt (p ++ (s ++ q)) s p.length := by
  intro k hk
  simp [byteAt, List.getD_eq_getElem?_getD, List.getElem?_append_left hk, List.getElem?_append_right, List.getElem?_eq_getElem hk]

namespace TestLang
open Golden

theorem linear_isParse (w : Str) (t : Node) (h0 : (0 : UInt8) ∉ w) :
    IsParse linearMultiRuleTable w t ↔ w = linear ∧ t = linearTree := by
  constructor
  · rintro ⟨j, h, hj⟩
    have hend := drop_nil_of_byte h0 hj
    cases h with
    | nt hb h h' =>
    cases h'
    simp [bodyFor, linearMultiRuleTable, GoMap.get_cons, GoMap.get_nil] at hb
    obtain ⟨_, rfl⟩ := hb
    cases h with
    | lit l1 h =>
    cases h with
    | lit l2 h =>
    cases h with
    | nt hb h h' =>
    cases h'
    simp [bodyFor, linearMultiRuleTable, GoMap.get_cons, GoMap.get_nil] at hb
    obtain ⟨_, rfl⟩ := hb
    cases h with
    | lit l3 h =>
    cases h
    have e1 := litAt_drop (by decide) l1
    have e2 := litAt_drop (by decide) l2
    have e3 := litAt_drop (by decide) l3
    rw [e2, e3, hend] at e1
    exact ⟨by simpa [linear] using e1, rfl⟩
  · rintro ⟨rfl, rfl⟩
    refine ⟨5, ?_, rfl⟩
    exact Derives.nt (tbl := linearMultiRuleTable) (src := linear) (n := 0) (i := 0) (j := 5) (k := 5) rfl
      (.lit (litAt_prefix [] b!"A" b!"::=C") (.lit (litAt_prefix b!"A" b!"::=" b!"C")
        (.nt rfl (.lit (litAt_prefix b!"A::=" b!"C" []) (.nil _)) (.nil _)))) (.nil _)

theorem or_isParse (w : Str) (t : Node) (h0 : (0 : UInt8) ∉ w) : IsParse orTable w t ↔ IsOr w t := by
  constructor
  · rintro ⟨j, h, hj⟩
    have hend := drop_nil_of_byte h0 hj
    cases h with
    | nt hb h h' =>
    cases h'
    simp [bodyFor, orTable, GoMap.get_cons, GoMap.get_nil] at hb
    obtain ⟨_, rfl⟩ := hb
    cases h with
    | lit l1 h =>
    cases h with
    | nt hb hT h =>
    cases h with
    | lit l3 h =>
    cases h
    have e1 := litAt_drop (by decide) l1
    have e3 := litAt_drop (by decide) l3
    rw [hend] at e3
    simp [bodyFor, orTable, GoMap.get_cons, GoMap.get_nil] at hb
    split at hb
    · cases hb
      cases hT with
      | lit l2 h =>
      cases h
      have e2 := litAt_drop (by decide) l2
      rw [e2, e3] at e1
      cases (show w = b!"\"B^" by simpa using e1)
      exact .b
    · split at hb
      · cases hb
        cases hT with
        | lit l2 h =>
        cases h
        have e2 := litAt_drop (by decide) l2
        rw [e2, e3] at e1
        cases (show w = b!"\"C^" by simpa using e1)
        exact .c
      · split at hb
        · cases hb
          cases hT
          rw [e3] at e1
          cases (show w = b!"\"^" by simpa using e1)
          exact .none
        · cases hb
  · intro h
    cases h with
    | b =>
      exact ⟨3, Derives.nt (tbl := orTable) (n := 0) (i := 0) (j := 3) (k := 3) rfl
        (.lit (litAt_prefix [] b!"\"" b!"B^") (.nt rfl (.lit (litAt_prefix b!"\"" b!"B" b!"^") (.nil _))
          (.lit (litAt_prefix b!"\"B" b!"^" []) (.nil _)))) (.nil _), rfl⟩
    | c =>
      exact ⟨3, Derives.nt (tbl := orTable) (n := 0) (i := 0) (j := 3) (k := 3) rfl
        (.lit (litAt_prefix [] b!"\"" b!"C^") (.nt rfl (.lit (litAt_prefix b!"\"" b!"C" b!"^") (.nil _))
          (.lit (litAt_prefix b!"\"C" b!"^" []) (.nil _)))) (.nil _), rfl⟩
    | none =>
      exact ⟨2, Derives.nt (tbl := orTable) (n := 0) (i := 0) (j := 2) (k := 2) rfl
        (.lit (litAt_prefix [] b!"\"" b!"^") (.nt rfl (.nil _)
          (.lit (litAt_prefix b!"\"" b!"^" []) (.nil _)))) (.nil _), rfl⟩

theorem custom_isParse (w : Str) (t : Node) (h0 : (0 : UInt8) ∉ w) : IsParse customTable w t ↔ IsCustom w t := by
  constructor
  · rintro ⟨j, h, hj⟩
    have hend := drop_nil_of_byte h0 hj
    cases h with
    | nt hb h h' =>
    cases h'
    simp [bodyFor, customTable, GoMap.get_cons, GoMap.get_nil] at hb
    obtain ⟨_, rfl⟩ := hb
    cases h with
    | lit l1 h =>
    cases h with
    | nt hb hT h =>
    cases h with
    | lit l3 h =>
    cases h with
    | nt hb' hE h =>
    cases h
    simp [bodyFor, customTable, GoMap.get_cons, GoMap.get_nil] at hb'
    obtain ⟨_, rfl⟩ := hb'
    cases hE with
    | lit l4 h =>
    cases h
    have e1 := litAt_drop (by decide) l1
    have e3 := litAt_drop (by decide) l3
    have e4 := litAt_drop (by decide) l4
    rw [e4, hend] at e3
    simp [bodyFor, customTable, GoMap.get_cons, GoMap.get_nil] at hb
    split at hb
    · cases hb
      cases hT with
      | lit l2 h =>
      cases h
      have e2 := litAt_drop (by decide) l2
      rw [e2, e3] at e1
      exact ⟨.inl (by simpa using e1), rfl⟩
    · split at hb
      · cases hb
        cases hT with
        | lit l2 h =>
        cases h
        have e2 := litAt_drop (by decide) l2
        rw [e2, e3] at e1
        exact ⟨.inr (by simpa using e1), rfl⟩
      · cases hb
  · rintro ⟨rfl | rfl, rfl⟩
    · exact ⟨4, Derives.nt (tbl := customTable) (n := 0) (i := 0) (j := 4) (k := 4) rfl
        (.lit (litAt_prefix [] b!"\"" b!"B^\n") (.nt rfl (.lit (litAt_prefix b!"\"" b!"B" b!"^\n") (.nil _))
          (.lit (litAt_prefix b!"\"B" b!"^" b!"\n") (.nt rfl (.lit (litAt_prefix b!"\"B^" b!"\n" []) (.nil _))
            (.nil _))))) (.nil _), rfl⟩
    · exact ⟨4, Derives.nt (tbl := customTable) (n := 0) (i := 0) (j := 4) (k := 4) rfl
        (.lit (litAt_prefix [] b!"\"" b!"C^\n") (.nt rfl (.lit (litAt_prefix b!"\"" b!"C" b!"^\n") (.nil _))
          (.lit (litAt_prefix b!"\"C" b!"^" b!"\n") (.nt rfl (.lit (litAt_prefix b!"\"C^" b!"\n" []) (.nil _))
            (.nil _))))) (.nil _), rfl⟩

theorem chain_derives {w : Str} : ∀ {n i : Nat}, w.drop i = List.replicate n 66 →
    Derives resolvedLRecursiveTable w [.nonTerminal 1] i (i + n) [chain i n]
  | 0, i, h => by
    have hb : byteAt w i = 0 := byteAt_ge (by simpa using h)
    exact Derives.nt (tbl := resolvedLRecursiveTable) (n := 1) (j := i) (by rw [hb]; rfl) (.nil _) (.nil _)
  | n + 1, i, h => by
    have hlt : i < w.length := by
      have := congrArg List.length h
      simp only [List.length_drop, List.length_replicate] at this
      omega
    rw [List.drop_eq_getElem_cons hlt, List.replicate_succ] at h
    injection h with h1 h2
    have hb : byteAt w i = 66 := by
      simp only [byteAt, List.getD_eq_getElem?_getD, List.getElem?_eq_getElem hlt, Option.getD_some, h1]
    have ih := chain_derives h2
    have hl : LitAt w b!"B" i := by
      intro k hk
      obtain rfl : k = 0 := by simpa using hk
      simp [hb]
    have := Derives.nt (tbl := resolvedLRecursiveTable) (n := 1) (i := i) (j := i + 1 + n) (k := i + 1 + n)
      (by rw [hb]; rfl) (.lit hl ih) (.nil _)
    rw [show i + 1 + n = i + (n + 1) by omega] at this
    exact this

theorem chain_text {w : Str} (h0 : (0 : UInt8) ∉ w) {ops : List ParserOp} {i j : Nat} {cs : List Node}
    (h : Derives resolvedLRecursiveTable w ops i j cs) :
    ops = [.nonTerminal 1] ∨ ops = [.terminal b!"B", .nonTerminal 1] → ∃ n, w.drop i = List.replicate n 66 ++ w.drop j := by
  induction h with
  | nil i => exact fun _ => ⟨0, by simp⟩
  | lit hl _ ih =>
    rintro (h | h)
    · cases h
    · cases h
      obtain ⟨n, hn⟩ := ih (.inl rfl)
      exact ⟨n + 1, by rw [litAt_drop (by decide) hl, hn]; rfl⟩
  | nt hb _ h2 ih1 ih2 =>
    rintro (h | h)
    · cases h
      cases h2
      simp [bodyFor, resolvedLRecursiveTable, GoMap.get_cons, GoMap.get_nil] at hb
      split at hb
      · cases hb
        rename_i h1
        cases h1
        exact ⟨0, by simp⟩
      · split at hb
        · cases hb
          exact ih1 (.inr rfl)
        · cases hb
    · cases h

theorem resolved_isParse (w : Str) (t : Node) (h0 : (0 : UInt8) ∉ w) :
    IsParse resolvedLRecursiveTable w t ↔ ∃ n, w = resolved n ∧ t = resolvedTree n := by
  have back : ∀ n, w = resolved n →
      Derives resolvedLRecursiveTable w [.nonTerminal 0] 0 (n + 1) [resolvedTree n] := by
    rintro n rfl
    have := Derives.nt (tbl := resolvedLRecursiveTable) (n := 0) (i := 0) (j := 1 + n) (k := 1 + n) rfl
      (.lit (litAt_prefix [] b!"_" (List.replicate n 66)) (chain_derives (w := resolved n) (i := 1) rfl)) (.nil _)
    rw [Nat.add_comm] at this
    exact this
  constructor
  · rintro ⟨j, h, hj⟩
    have hend := drop_nil_of_byte h0 hj
    obtain ⟨n, hn⟩ : ∃ n, w = resolved n := by
      cases h with
      | nt hb h h' =>
      cases h'
      simp [bodyFor, resolvedLRecursiveTable, GoMap.get_cons, GoMap.get_nil] at hb
      obtain ⟨_, rfl⟩ := hb
      cases h with
      | lit l1 h =>
      obtain ⟨n, hn⟩ := chain_text h0 h (.inl rfl)
      have e1 := litAt_drop (by decide) l1
      rw [hn, hend] at e1
      exact ⟨n, by simpa [resolved] using e1⟩
    refine ⟨n, hn, ?_⟩
    have := ((back n hn).det h).2
    simp_all
  · rintro ⟨n, hw, rfl⟩
    refine ⟨_, back n hw, ?_⟩
    rw [hw]
    exact byteAt_ge (by simp [resolved])

/-- The table built from `LRecursive`: both alternatives end up in one cell. -/
def lRecursiveTable : Table := [(0, [(95, [.terminal b!"_", .nonTerminal 0, .terminal b!"B"])])]

theorem lRecursive_noDerivation {w : Str} {ops : List ParserOp} {i j : Nat} {cs : List Node}
    (h : Derives lRecursiveTable w ops i j cs) : .nonTerminal 0 ∉ ops := by
  induction h with
  | nil => simp
  | lit _ _ ih => simpa using ih
  | nt hb _ _ ih1 ih2 =>
    intro hm
    rcases List.mem_cons.1 hm with h | h
    · cases h
      simp [bodyFor, lRecursiveTable, GoMap.get_cons, GoMap.get_nil] at hb
      obtain ⟨_, rfl⟩ := hb
      simp at ih1
    · exact ih2 h

end TestLang

end LL1
