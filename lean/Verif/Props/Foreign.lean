import Verif.Proofs.Foreign
import Verif.Props.TableGen

/-!
# C75: symbols of other types in a grammar
-/

namespace LL1
open TGX

/-- A name longer than every name of a grammar is fresh. -/
theorem TGX.exists_fresh (g : XGrammar) : ∃ u, g.Fresh u := by
  let names : List Str := g.rules.flatMap fun r => r.head :: r.sequences.flatMap fun s =>
    s.flatMap fun x => match x with | .own (.nonTerminal n) => [n] | _ => []
  refine ⟨List.replicate ((names.map List.length).sum + 1) 0, ?_⟩
  have key : ∀ (l : List Str), ∀ n ∈ l, n ≠ List.replicate ((l.map List.length).sum + 1) 0 := by
    intro l n hn h
    have hle : n.length ≤ (l.map List.length).sum := by
      clear h
      induction l with
      | nil => cases hn
      | cons m l ih =>
        rw [List.map_cons, List.sum_cons]
        rcases List.mem_cons.1 hn with rfl | hn
        · omega
        · have := ih hn; omega
    rw [h, List.length_replicate] at hle
    omega
  intro r hr
  refine ⟨key names _ (List.mem_flatMap.2 ⟨r, hr, .head _⟩), fun s hs h => ?_⟩
  refine key names _ (List.mem_flatMap.2 ⟨r, hr, .tail _ (List.mem_flatMap.2 ⟨s, hs, List.mem_flatMap.2 ⟨_, h, ?_⟩⟩)⟩)
    rfl
  simp

/-- **C75.** On the package's own symbols this is the `FromGrammar` of the other properties. -/
theorem C75_own (order : Order) (g : Grammar) :
    fromGrammarAny order (.ofGrammar g) = TGX.lift (fromGrammar order g) := by
  obtain ⟨u, hu⟩ := TGX.exists_fresh (.ofGrammar g)
  have hs := TGX.sim_fromGrammar order _ u hu
  have hback : (XGrammar.ofGrammar g).asRefs u = g := by
    obtain ⟨rules⟩ := g
    simp [XGrammar.ofGrammar, XGrammar.asRefs, XSymbol.asRef, Function.comp_def]
  have hno : ∀ t, ¬ (XGrammar.ofGrammar g).HasOther t := by
    rintro t ⟨r, hr, s, hs, ht⟩
    simp only [XGrammar.ofGrammar, List.mem_map] at hr
    obtain ⟨r', _, rfl⟩ := hr
    simp only [List.mem_map] at hs
    obtain ⟨s', _, rfl⟩ := hs
    simp at ht
  rw [hback] at hs
  generalize fromGrammarAny order (.ofGrammar g) = x at hs
  generalize fromGrammar order g = y at hs
  cases hs with
  | ok a => rfl
  | err e h => rfl
  | panic p => rfl
  | diverge => rfl
  | otherErr t ht => exact (hno t ht).elim
  | otherPanic t ht => exact (hno t ht).elim

/-- **C75.** `FromGrammar` treats a symbol of another type (nil, a pointer, a foreign type) like a reference to an
undefined non-terminal `u`, up to the way it complains: it returns a table exactly when it does so with references to
`u` in place of these symbols, and then the same one; it returns or panics with one of its other messages exactly when
it does so there; and it complains about the type of a symbol, of one that really occurs, by an error or a panic exactly
when it reports `u` as undefined there.  It always ends. -/
theorem C75_like_undefined (order : Order) (g : XGrammar) (u : Str) (hu : g.Fresh u) :
    (∀ tn, fromGrammarAny order g = .ok tn ↔ fromGrammar order (g.asRefs u) = .ok tn) ∧
    (∀ e, fromGrammarAny order g = .err (.own e) ↔ e ≠ .undefined u ∧ fromGrammar order (g.asRefs u) = .err e) ∧
    (∀ p, fromGrammarAny order g = .panic (.own p) ↔ fromGrammar order (g.asRefs u) = .panic p) ∧
    ((∃ t, fromGrammarAny order g = .err (.unknownType t) ∨ fromGrammarAny order g = .panic (.unknownType t)) ↔
      fromGrammar order (g.asRefs u) = .err (.undefined u)) ∧
    (∀ t, fromGrammarAny order g = .err (.unknownType t) ∨ fromGrammarAny order g = .panic (.unknownType t) →
      g.HasOther t) ∧
    fromGrammarAny order g ≠ .diverge := by
  have hs := TGX.sim_fromGrammar order g u hu
  have htm := C22_terminates order (g.asRefs u)
  generalize fromGrammarAny order g = x at hs
  generalize fromGrammar order (g.asRefs u) = y at hs htm
  cases hs with
  | ok a => simp
  | err e h =>
    refine ⟨by simp, fun e' => ⟨?_, ?_⟩, by simp, by simp [h], by simp, by simp⟩
    · intro he; cases he; exact ⟨h, rfl⟩
    · rintro ⟨_, he⟩; cases he; rfl
  | panic p => simp
  | diverge => simp at htm
  | otherErr t ht => exact ⟨by simp, fun e => by simp; rintro h rfl; exact h rfl, by simp,
      ⟨fun _ => rfl, fun _ => ⟨t, .inl rfl⟩⟩, fun t' h => by simpa using (by simpa using h : t = t') ▸ ht, by simp⟩
  | otherPanic t ht => exact ⟨by simp, fun e => by simp; rintro h rfl; exact h rfl, by simp,
      ⟨fun _ => rfl, fun _ => ⟨t, .inr rfl⟩⟩, fun t' h => by simpa using (by simpa using h : t = t') ▸ ht, by simp⟩

/-- **C75.** So such a symbol never gets into a table unnoticed: if `FromGrammar` succeeds, what stands before it in its
alternative derives nothing at all, the alternative is not nullable, no sentence begins with it, and it does not come
right after a defined non-terminal. -/
theorem C75_unreachable (order : Order) (g : XGrammar) (u : Str) (hu : g.Fresh u) (hz : (g.asRefs u).NulStartFree)
    (tbl : Table) (names : Names) (h : fromGrammarAny order g = .ok (tbl, names)) (r : XRule) (hr : r ∈ g.rules)
    (pre post : List XSymbol) (t : Str) (hs : pre ++ .other t :: post ∈ r.sequences) :
    (∀ w, ¬ Gen (g.asRefs u) (pre.map (XSymbol.asRef u)) w) ∧
    ¬ Nullable (g.asRefs u) ((pre ++ .other t :: post).map (XSymbol.asRef u)) ∧
    (∀ b, ¬ First (g.asRefs u) ((pre ++ .other t :: post).map (XSymbol.asRef u)) b) ∧
    (∀ pre' n, pre = pre' ++ [.own (.nonTerminal n)] → ∀ r' ∈ g.rules, r'.head ≠ n) := by
  obtain ⟨i, hi, he⟩ := List.getElem_of_mem hr
  have hok := ((C75_like_undefined order g u hu).1 _).1 h
  have hri : (g.asRefs u).rules[i]? =
      some ⟨r.head, ⟨r.sequences.map fun s => ⟨s.map (XSymbol.asRef u)⟩⟩⟩ := by
    simp [XGrammar.asRefs, hi, he]
  have key := C31_undefined_unreachable order (g.asRefs u) tbl names hz hok i
    ⟨(pre ++ .other t :: post).map (XSymbol.asRef u)⟩ ⟨_, hri, List.mem_map.2 ⟨_, hs, rfl⟩⟩
    (pre.map (XSymbol.asRef u)) (post.map (XSymbol.asRef u)) u (by simp [XSymbol.asRef]) ?_
  · refine ⟨key.1, key.2.1, key.2.2.1, ?_⟩
    rintro pre' n rfl r' hr' rfl
    obtain ⟨j, hj, he'⟩ := List.getElem_of_mem hr'
    refine key.2.2.2 (pre'.map (XSymbol.asRef u)) r'.head (by simp [XSymbol.asRef]) j ?_
    refine ⟨⟨r'.head, ⟨r'.sequences.map fun s => ⟨s.map (XSymbol.asRef u)⟩⟩⟩, ?_, rfl⟩
    simp [XGrammar.asRefs, hj, he']
  · rintro j ⟨r', hr', he'⟩
    simp only [XGrammar.asRefs, List.getElem?_map, Option.map_eq_some_iff] at hr'
    obtain ⟨x, hx, rfl⟩ := hr'
    exact (hu x (List.mem_of_getElem? hx)).1 he'

/-- **C75.** All three happen: `S ::= A nil`, `A ::= "a"` gives an error, `S ::= "a" nil` panics, and
`A ::= A "x" nil` is accepted. -/
theorem C75_witness :
    fromGrammarAny id ⟨[⟨b!"S", [[.own (.nonTerminal b!"A"), .other b!"<nil>"]]⟩,
      ⟨b!"A", [[.own (.terminal b!"a")]]⟩]⟩ = .err (.unknownType b!"<nil>") ∧
    fromGrammarAny id ⟨[⟨b!"S", [[.own (.terminal b!"a"), .other b!"<nil>"]]⟩]⟩ = .panic (.unknownType b!"<nil>") ∧
    fromGrammarAny id ⟨[⟨b!"A", [[.own (.nonTerminal b!"A"), .own (.terminal b!"x"), .other b!"<nil>"]]⟩]⟩ =
      .ok ([(0, [])], [(0, b!"A")]) := by
  refine ⟨?_, ?_, ?_⟩ <;> decide +kernel

/-- The hypotheses of `C75_unreachable` are met by the last of them. -/
example : let g : XGrammar := ⟨[⟨b!"A", [[.own (.nonTerminal b!"A"), .own (.terminal b!"x"), .other b!"<nil>"]]⟩]⟩
    g.Fresh b!"u" ∧ (g.asRefs b!"u").NulStartFree ∧ fromGrammarAny id g = .ok ([(0, [])], [(0, b!"A")]) := by
  refine ⟨?_, nulStartFree_of (by decide +kernel), by decide +kernel⟩
  intro r hr
  simp only [List.mem_singleton] at hr
  subst hr
  exact ⟨by decide, by intro s hs; simp only [List.mem_singleton] at hs; subst hs; simp⟩

end LL1
