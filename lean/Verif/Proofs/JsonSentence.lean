import Verif.Proofs.JsonLex

/-!
# JSON documents are sentences of the JSON grammar, and denote one value
-/

namespace LL1
namespace JsonLex
open Golden

/-- What a text for a part derives. -/
def Deriv : JsonPart → Str → Prop
  | .value _, w => R 8 w
  | .elements _, w => ∃ u t, w = u ++ t ∧ R 7 u ∧ R 3 t
  | .members _, w => ∃ u c t, w = u ++ (c ++ t) ∧ R 6 u ∧ R 30 c ∧ R 5 t

theorem mk_owv {a x b : Str} (ha : Ws a) (hx : R 8 x) (hb : Ws b) : R 7 (a ++ (x ++ b)) :=
  mk_alt 7 ⟨[.nonTerminal b!"opt-whitespace", .nonTerminal b!"value", .nonTerminal b!"opt-whitespace"]⟩
    (by decide +kernel)
    (mk_nt 30 (by decide +kernel) (ws.2 ha) (mk_nt 8 (by decide +kernel) hx
      (mk_one 30 (by decide +kernel) (ws.2 hb))))

theorem mk_kv {k a b x : Str} (hk : StringBody k) (ha : Ws a) (hb : Ws b) (hx : R 8 x) :
    R 6 (34 :: (k ++ [34]) ++ (a ++ 58 :: (b ++ x))) :=
  mk_alt 6 ⟨[.nonTerminal b!"string", .nonTerminal b!"opt-whitespace", .terminal b!":",
      .nonTerminal b!"opt-whitespace", .nonTerminal b!"value"]⟩ (by decide +kernel)
    (mk_nt 11 (by decide +kernel) (string.2 ⟨k, rfl, hk⟩) (mk_nt 30 (by decide +kernel) (ws.2 ha)
      (mk_term (t := [58]) (mk_nt 30 (by decide +kernel) (ws.2 hb) (mk_one 8 (by decide +kernel) hx)))))

theorem mk_nil {i : Nat} (h : (⟨[.nothing]⟩ : Sequence) ∈ altsOf i) : R i [] := mk_alt i _ h mk_nothing

theorem mk_object {a x : Str} (ha : Ws a) (hx : R 4 x) : R 8 (123 :: (a ++ (x ++ [125]))) :=
  mk_alt 8 ⟨[.nonTerminal b!"object"]⟩ (by decide +kernel) (mk_one 9 (by decide +kernel)
    (mk_alt 9 ⟨[.terminal b!"{", .nonTerminal b!"opt-whitespace", .nonTerminal b!"opt-key-value-list",
      .terminal b!"}"]⟩ (by decide +kernel)
      (mk_term (t := [123]) (mk_nt 30 (by decide +kernel) (ws.2 ha) (mk_nt 4 (by decide +kernel) hx mk_word)))))

theorem mk_array {x : Str} (hx : R 2 x) : R 8 (91 :: (x ++ [93])) :=
  mk_alt 8 ⟨[.nonTerminal b!"array"]⟩ (by decide +kernel) (mk_one 10 (by decide +kernel)
    (mk_alt 10 ⟨[.terminal b!"[", .nonTerminal b!"opt-value-list", .terminal b!"]"]⟩ (by decide +kernel)
      (mk_term (t := [91]) (mk_nt 2 (by decide +kernel) hx mk_word))))

theorem deriv_of {p : JsonPart} {w : Str} (h : JsonText p w) : Deriv p w := by
  induction h with
  | string hs =>
    exact mk_alt 8 ⟨[.nonTerminal b!"string"]⟩ (by decide +kernel)
      (mk_one 11 (by decide +kernel) (string.2 ⟨_, rfl, hs⟩))
  | number hs =>
    exact mk_alt 8 ⟨[.nonTerminal b!"number"]⟩ (by decide +kernel) (mk_one 17 (by decide +kernel) (number.2 hs))
  | word hs =>
    rcases hs with rfl | rfl | rfl
    · exact mk_alt 8 ⟨[.terminal b!"true"]⟩ (by decide +kernel) mk_word
    · exact mk_alt 8 ⟨[.terminal b!"false"]⟩ (by decide +kernel) mk_word
    · exact mk_alt 8 ⟨[.terminal b!"null"]⟩ (by decide +kernel) mk_word
  | emptyArray => exact mk_array (x := []) (mk_nil (by decide +kernel))
  | array _ ih =>
    obtain ⟨u, t, rfl, hu, ht⟩ := ih
    exact mk_array (mk_alt 2 ⟨[.nonTerminal b!"opt-whitespaced-value", .nonTerminal b!"opt-value-list-tail"]⟩
      (by decide +kernel) (mk_nt 7 (by decide +kernel) hu (mk_one 3 (by decide +kernel) ht)))
  | emptyObject ha => exact mk_object (x := []) ha (mk_nil (by decide +kernel))
  | object ha _ ih =>
    obtain ⟨u, c, t, rfl, hu, hc, ht⟩ := ih
    exact mk_object ha (mk_alt 4 ⟨[.nonTerminal b!"key-value", .nonTerminal b!"opt-whitespace",
      .nonTerminal b!"opt-key-value-list-tail"]⟩ (by decide +kernel)
      (mk_nt 6 (by decide +kernel) hu (mk_nt 30 (by decide +kernel) hc (mk_one 5 (by decide +kernel) ht))))
  | element ha _ hb ih => exact ⟨_, [], by simp, mk_owv ha ih hb, mk_nil (by decide +kernel)⟩
  | @elements v vs a x b y ha _ hb _ ih1 ih2 =>
    obtain ⟨u, t, rfl, hu, ht⟩ := ih2
    exact ⟨a ++ (x ++ b), [44] ++ (u ++ t), by simp, mk_owv ha ih1 hb,
      mk_alt 3 ⟨[.terminal b!",", .nonTerminal b!"opt-whitespaced-value", .nonTerminal b!"opt-value-list-tail"]⟩
        (by decide +kernel)
        (mk_term (mk_nt 7 (by decide +kernel) hu (mk_one 3 (by decide +kernel) ht)))⟩
  | @member k v a b x c hk ha hb _ hc ih =>
    exact ⟨_, c, [], by simp, mk_kv hk ha hb ih, ws.2 hc, mk_nil (by decide +kernel)⟩
  | @members k v ms a b x c d y hk ha hb _ hc hd _ ih1 ih2 =>
    obtain ⟨u, e, t, rfl, hu, he, ht⟩ := ih2
    exact ⟨_, c, [44] ++ (d ++ (u ++ (e ++ t))), by simp, mk_kv hk ha hb ih1, ws.2 hc,
      mk_alt 5 ⟨[.terminal b!",", .nonTerminal b!"opt-whitespace", .nonTerminal b!"key-value",
        .nonTerminal b!"opt-whitespace", .nonTerminal b!"opt-key-value-list-tail"]⟩ (by decide +kernel)
        (mk_term (mk_nt 30 (by decide +kernel) (ws.2 hd) (mk_nt 6 (by decide +kernel) hu
          (mk_nt 30 (by decide +kernel) he (mk_one 5 (by decide +kernel) ht)))))⟩

/-- Every JSON document is a sentence of the JSON grammar. -/
theorem sentence_of {v : Json} {w : Str} (h : JsonDocument v w) : Sentence jsonGrammar w := by
  obtain ⟨a, x, b, rfl, ha, hx, hb⟩ := h
  exact mk_alt 0 ⟨[.nonTerminal b!"element"]⟩ (by decide +kernel) (mk_one 1 (by decide +kernel)
    (mk_alt 1 ⟨[.nonTerminal b!"opt-whitespaced-value"]⟩ (by decide +kernel)
      (mk_one 7 (by decide +kernel) (mk_owv ha (deriv_of hx) hb))))

end JsonLex
end LL1
