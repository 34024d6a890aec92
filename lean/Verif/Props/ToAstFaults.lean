import Verif.Spec.ToAstFaults
import Verif.Props.FromCst
import Verif.Model.Examples

/-!
# C91: what `ToAST`'s errors say
-/

namespace LL1
open FC Read

section
variable {skip : Int → Bool} {b : Bindings} {str : Str}

theorem text_ok {n : Node} {s : Str} (h : Read.text n str = .ok s) : s = slice str n.pos n.stop := by
  unfold Read.text at h
  split at h
  · simpa [slice] using h.symm
  · cases h

theorem text_not_err {n : Node} {e : Err} : Read.text n str ≠ .err e := by
  unfold Read.text
  split <;> simp

theorem terminalNode_iff {k c : Node} :
    b.symbolTerminalTypes.findSome? (fun ty => firstOf skip ty k) = some c ↔ TerminalNode skip b k c := by
  unfold TerminalNode
  rw [List.findSome?_eq_some_iff]
  constructor
  · rintro ⟨pre, ty, post, h1, h2, h3⟩
    exact ⟨pre, ty, post, h1, h3, h2⟩
  · rintro ⟨pre, ty, post, h1, h2, h3⟩
    exact ⟨pre, ty, post, h1, h3, h2⟩

theorem noTerminal_iff {k : Node} :
    b.symbolTerminalTypes.findSome? (fun ty => firstOf skip ty k) = none ↔
      ∀ ty ∈ b.symbolTerminalTypes, firstOf skip ty k = none := List.findSome?_eq_none_iff

theorem topmost_hit {sk hit : Int → Bool} (t n : Node) (h : n ∈ topmost sk hit t) : hit n.type = true := by
  exact ((C43_topmost sk hit t n).1 h).choose_spec.2.1

theorem piece_type {c x : Node} (h : x ∈ topmost (fun _ => false) (fun t => decide (t = 16) || decide (t = -1)) c)
    (hx : x.type ≠ -1) : x.type = 16 := by
  have := topmost_hit _ _ h
  simpa [hx] using this

theorem symbol_err {n k : Node} {e : Err} (hk : SymbolNode skip b n k) (h : Read.symbol skip b str k = .err e) :
    RuleFault skip b str n (Prog.fcError e) := by
  unfold Read.symbol at h
  split at h
  · rename_i c hc
    rcases Res.bind_eq_err.1 h with h | ⟨_, _, h⟩
    · unfold Read.terminalName at h
      rcases Res.bind_eq_err.1 h with h | ⟨_, _, h⟩
      · obtain ⟨pre, x, post, hx, _, h⟩ := each_eq_err.1 h
        have hm : x ∈ topmost (fun _ => false) (fun t => decide (t = 16) || decide (t = -1)) c := by rw [hx]; simp
        split at h
        · exact (text_not_err h).elim
        · rename_i hty
          have hE : EscapeNode c x := ⟨hm, piece_type hm hty⟩
          unfold Read.escape at h
          split at h
          · rename_i hn
            cases h
            exact .noEscape hk (terminalNode_iff.1 hc) hE hn
          · rename_i y hy
            rcases Res.bind_eq_err.1 h with h | ⟨s, hs, h⟩
            · exact (text_not_err h).elim
            · have := text_ok hs
              subst this
              split at h
              · rename_i hg
                cases h
                exact .unknownEscape hk (terminalNode_iff.1 hc) hE hy hg
              · cases h
      · cases h
    · cases h
  · rename_i hn
    split at h
    · rcases Res.bind_eq_err.1 h with h | ⟨_, _, h⟩
      · exact (text_not_err h).elim
      · cases h
    · rename_i hn2
      rcases Res.bind_eq_err.1 h with h | ⟨s, hs, h⟩
      · exact (text_not_err h).elim
      · have := text_ok hs
        subst this
        cases h
        exact .noSymbol hk (noTerminal_iff.1 hn) hn2

theorem rule_err {n : Node} {e : Err} (h : Read.rule skip b str n = .err e) :
    RuleFault skip b str n (Prog.fcError e) := by
  unfold Read.rule at h
  split at h
  · rename_i hn
    rcases Res.bind_eq_err.1 h with h | ⟨s, hs, h⟩
    · exact (text_not_err h).elim
    · have := text_ok hs
      subst this
      cases h
      exact .noHead hn
  · rcases Res.bind_eq_err.1 h with h | ⟨_, _, h⟩
    · exact (text_not_err h).elim
    · split at h
      · rename_i hn
        rcases Res.bind_eq_err.1 h with h | ⟨s, hs, h⟩
        · exact (text_not_err h).elim
        · have := text_ok hs
          subst this
          cases h
          exact .noTail hn
      · rename_i t ht
        rcases Res.bind_eq_err.1 h with h | ⟨_, _, h⟩
        · unfold Read.substitution at h
          rcases Res.bind_eq_err.1 h with h | ⟨_, _, h⟩
          · obtain ⟨pre, m, post, hm, _, h⟩ := each_eq_err.1 h
            unfold Read.sequence at h
            rcases Res.bind_eq_err.1 h with h | ⟨_, _, h⟩
            · obtain ⟨pre', k, post', hk, _, h⟩ := each_eq_err.1 h
              exact symbol_err ⟨t, m, ht, by rw [hm]; simp, by rw [hk]; simp⟩ h
            · cases h
          · cases h
        · cases h

theorem allPairs_left {α β : Type} {R : α → β → Prop} {as : List α} {bs : List β} (h : AllPairs R as bs) :
    ∀ a ∈ as, ∃ b, R a b := by
  induction h with
  | nil => simp
  | cons hr _ ih =>
    intro a ha
    rcases List.mem_cons.1 ha with rfl | ha
    · exact ⟨_, hr⟩
    · exact ih a ha

theorem symbol_of_rule {n k : Node} {r : Rule} (h : Read.rule skip b str n = .ok r) (hk : SymbolNode skip b n k) :
    ∃ y, Read.symbol skip b str k = .ok y := by
  obtain ⟨hd, e, _, _, he, hs⟩ := (rule_ok_iff skip b str n r).1 h
  obtain ⟨e', m, he', hm, hk⟩ := hk
  rw [he] at he'
  cases he'
  obtain ⟨s, hs⟩ := allPairs_left ((substitution_ok_iff skip b str e r.tail).1 hs) m hm
  exact allPairs_left ((sequence_ok_iff skip b str m s).1 hs) k hk

theorem escape_of_rule {n k c x : Node} {r : Rule} (h : Read.rule skip b str n = .ok r) (hk : SymbolNode skip b n k)
    (hc : TerminalNode skip b k c) (hx : EscapeNode c x) : ∃ s, Read.escape skip b str x = .ok s := by
  obtain ⟨y, hy⟩ := symbol_of_rule h hk
  unfold Read.symbol at hy
  rw [terminalNode_iff.2 hc] at hy
  obtain ⟨nm, hnm, _⟩ := Res.bind_eq_ok.1 hy
  unfold Read.terminalName at hnm
  obtain ⟨ps, hps, _⟩ := Res.bind_eq_ok.1 hnm
  obtain ⟨s, hs⟩ := allPairs_left (each_eq_ok.1 hps) x hx.1
  rw [if_neg (by rw [hx.2]; decide)] at hs
  exact ⟨s, hs⟩

theorem rule_ok_no_fault {n : Node} {r : Rule} (h : Read.rule skip b str n = .ok r) (msg : Str) :
    ¬ RuleFault skip b str n msg := by
  intro hf
  obtain ⟨hd, e, hhd, _, he, _⟩ := (rule_ok_iff skip b str n r).1 h
  cases hf with
  | noHead h1 => rw [h1] at hhd; cases hhd
  | noTail h1 => rw [h1] at he; cases he
  | noSymbol hk h1 h2 =>
    obtain ⟨y, hy⟩ := symbol_of_rule h hk
    unfold Read.symbol at hy
    rw [noTerminal_iff.2 h1, h2] at hy
    obtain ⟨_, _, hy⟩ := Res.bind_eq_ok.1 hy
    cases hy
  | noEscape hk hc hx h1 =>
    obtain ⟨s, hs⟩ := escape_of_rule h hk hc hx
    unfold Read.escape at hs
    rw [h1] at hs
    cases hs
  | unknownEscape hk hc hx h1 h2 =>
    obtain ⟨s, hs⟩ := escape_of_rule h hk hc hx
    unfold Read.escape at hs
    rw [h1] at hs
    obtain ⟨s', hs', hs⟩ := Res.bind_eq_ok.1 hs
    have := text_ok hs'
    subst this
    rw [h2] at hs
    cases hs
end

/-- **C91.** What an error of `ToAST` says is true of the tree: the error comes from the first of the topmost rule nodes
that has a fault, and its text describes a fault of that node - no head, no tail, a symbol of no known type, an
escape without escape character or with an unknown one - and quotes the text of the node at fault. -/
theorem C91_error_true (b : Bindings) (root : Node) (str : Str) (e : Err) (h : b.toAST root str = .err e) :
    let skip : Int → Bool := fun t => decide (t ∈ b.ignoreNodeTypes)
    ∃ pre n post, Read.allOf skip b.ruleType root = pre ++ n :: post ∧ (∀ m ∈ pre, ∀ msg, ¬ RuleFault skip b str m msg) ∧
      RuleFault skip b str n (Prog.fcError e) := by
  intro skip
  obtain ⟨pre, n, post, h1, h2, h3⟩ := (C44_first_error b root str e).1 h
  refine ⟨pre, n, post, h1, fun m hm msg => ?_, rule_err h3⟩
  obtain ⟨r, hr⟩ := h2 m hm
  exact rule_ok_no_fault hr msg

/-- **C91.** No fault goes unnoticed, and only faults are complained about: for a tree whose nodes lie in the text `ToAST`
returns a grammar iff no topmost rule node has a fault, and an error iff one has. -/
theorem C91_ok_iff (b : Bindings) (root : Node) (str : Str)
    (hin : ∀ n ∈ preorder root, n.pos ≤ n.stop ∧ n.stop ≤ str.length) :
    let skip : Int → Bool := fun t => decide (t ∈ b.ignoreNodeTypes)
    ((∃ g, b.toAST root str = .ok g) ↔ ∀ n ∈ Read.allOf skip b.ruleType root, ∀ msg, ¬ RuleFault skip b str n msg) ∧
    ((∃ e, b.toAST root str = .err e) ↔ ∃ n ∈ Read.allOf skip b.ruleType root, ∃ msg, RuleFault skip b str n msg) := by
  intro skip
  have h1 : ∀ g, b.toAST root str = .ok g → ∀ n ∈ Read.allOf skip b.ruleType root, ∀ msg, ¬ RuleFault skip b str n msg := by
    intro g hg n hn msg
    rw [C44_reads, grammar_ok_iff] at hg
    obtain ⟨r, hr⟩ := allPairs_left hg n hn
    exact rule_ok_no_fault hr msg
  have h2 : ∀ e, b.toAST root str = .err e → ∃ n ∈ Read.allOf skip b.ruleType root, ∃ msg, RuleFault skip b str n msg := by
    intro e he
    obtain ⟨pre, n, post, a1, _, a3⟩ := C91_error_true b root str e he
    exact ⟨n, by rw [a1]; simp, _, a3⟩
  cases hres : b.toAST root str with
  | ok g =>
    refine ⟨⟨fun _ => h1 g hres, fun _ => ⟨g, rfl⟩⟩, ⟨fun ⟨e, he⟩ => by (cases he), ?_⟩⟩
    rintro ⟨n, hn, msg, hm⟩
    exact (h1 g hres n hn msg hm).elim
  | err e =>
    obtain ⟨n, hn, msg, hm⟩ := h2 e hres
    exact ⟨⟨fun ⟨g, hg⟩ => by (cases hg), fun h => (h n hn msg hm).elim⟩, ⟨fun _ => ⟨n, hn, msg, hm⟩, fun _ => ⟨e, rfl⟩⟩⟩
  | panic p => exact (C48_no_panic b root str hin p hres).elim
  | diverge => exact ((C44_returns b root str).1 hres).elim

/-- **C91.** Different errors of `ToAST` have different texts. -/
theorem C91_texts_differ (e e' : Err) (h : Prog.fcError e = Prog.fcError e') : e = e' := by
  cases e <;> cases e' <;> simp_all [Prog.fcError]

/-- A rule node over a text, with a head `a` and one symbol node with the given nodes below it. -/
def Ex.ruleWith (below : List Node) : Node :=
  .mk 4 0 9 [.mk 18 1 2 [], .mk 5 6 9 [.mk 7 6 9 [.mk 9 6 9 below]]]

/-- All five complaints occur (the text is `<a>::="\q"` and the second rule node is the one at fault). -/
example :
    (selfBindings.toAST (.mk 0 0 10 [Ex.ruleWith [.mk 18 7 8 []], .mk 4 0 6 []]) b!"<a>::=\"\\q\"" =
      .err (.noRuleName b!"<a>::=")) ∧
    (selfBindings.toAST (.mk 0 0 10 [Ex.ruleWith [.mk 18 7 8 []], .mk 4 0 6 [.mk 18 1 2 []]]) b!"<a>::=\"\\q\"" =
      .err (.noSubstitution b!"<a>::=")) ∧
    (selfBindings.toAST (Ex.ruleWith []) b!"<a>::=\"\\q\"" = .err (.noSymbolType b!"\"\\q")) ∧
    (selfBindings.toAST (Ex.ruleWith [.mk 11 7 9 [.mk 16 7 9 []]]) b!"<a>::=\"\\q\"" = .err .noEscape) ∧
    (selfBindings.toAST (Ex.ruleWith [.mk 11 7 9 [.mk 16 7 9 [.mk 17 8 9 []]]]) b!"<a>::=\"\\q\"" =
      .err (.unknownEscape b!"q")) := by
  decide +kernel

end LL1
