import Verif.Proofs.ToAstCalls
import Verif.Props.ToAstGraph

/-!
# C103: `ToAST` on nodes whose methods are code: caching, counting, lazy, panicking nodes
-/

namespace LL1
namespace FC

variable {N N' Sl W W' P : Type}

/-- **C103.** Nodes that answer like other nodes — whatever else their methods do to memory meanwhile — are converted like
them: the same grammar or error, the same panic of `ToAST`, the same stack overflow; and afterwards they still stand for
what they stood for. -/
theorem C103_represents (b : Bindings) {I : NodeMethods N Sl W P} {V : NodeView N'} (R : Represents I V) (w : W) (x : Option N)
    (x' : Option N') (h : R.Value w x x') (str : Str) (depth : Nat) :
    (∀ r, (b.toASTG V depth x' str).Returns r →
      ∃ w', (b.toASTE depth x str).run I w = some (.ok r, w') ∧ R.Later w w') ∧
    (∀ p, (b.toASTG V depth x' str).Panics p → ∃ w', (b.toASTE depth x str).run I w = some (.error (.own p), w')) ∧
    ((b.toASTG V depth x' str).Overflows → (b.toASTE depth x str).run I w = none) := by
  have hs := Same.toAST R (str := str) b (d := depth) h
  unfold Same at hs
  refine ⟨fun r hr => ?_, fun p hp => ?_, fun ho => ?_⟩
  · rw [show (b.toASTG V depth x' str).run = some (.ok r) from hr] at hs; exact hs
  · rw [show (b.toASTG V depth x' str).run = some (.error p) from hp] at hs; exact hs
  · rw [show (b.toASTG V depth x' str).run = none from ho] at hs; exact hs

/-- **C103.** In particular nodes that stand for a tree made by `NewNode` are converted like this tree, as soon as the stack
holds six more calls of `Walk` than the tree is high. -/
theorem C103_tree (b : Bindings) {I : NodeMethods N Sl W P} (R : Represents I ownView) (w : W) (root : N) (t : Node)
    (h : R.Node w root t) (str : Str) (ht : Nat) (hh : IsHeight t ht) (depth : Nat) (hd : ht + 6 ≤ depth) :
    (∀ g, b.toAST t str = .ok g → ∃ w', (b.toASTE depth (some root) str).run I w = some (.ok (.ok g), w')) ∧
    (∀ e, b.toAST t str = .err e → ∃ w', (b.toASTE depth (some root) str).run I w = some (.ok (.error e), w')) ∧
    (∀ p, b.toAST t str = .panic p → ∃ w', (b.toASTE depth (some root) str).run I w = some (.error (.own .sliceBounds), w')) := by
  obtain ⟨h1, _⟩ := C84_own_nodes b t str ht hh depth hd
  obtain ⟨r1, r2, _⟩ := C103_represents b R w (some root) (some t) h str depth
  refine ⟨fun g hg => ?_, fun e he => ?_, fun p hp => ?_⟩
  · obtain ⟨w', hw, _⟩ := r1 (.ok g) (by rw [h1, hg]; rfl)
    exact ⟨w', hw⟩
  · obtain ⟨w', hw, _⟩ := r1 (.error e) (by rw [h1, he]; rfl)
    exact ⟨w', hw⟩
  · exact r2 _ (by rw [h1, hp]; rfl)

section
variable {α : Type}

theorem log_ask_ok {I : NodeMethods N Sl W P} {w w' : W} {q : Ask N Sl} {a : q.Ans} {k : q.Ans → NodeProg N Sl α}
    (h : I.answer q w = (.ok a, w')) : (NodeProg.ask q k).log I w = ⟨q, .ok a⟩ :: (k a).log I w' := by rw [NodeProg.log, h]

theorem log_ask_error {I : NodeMethods N Sl W P} {w w' : W} {q : Ask N Sl} {x : P} {k : q.Ans → NodeProg N Sl α}
    (h : I.answer q w = (.error x, w')) : (NodeProg.ask q k).log I w = [⟨q, .error x⟩] := by rw [NodeProg.log, h]

theorem Event.ok_not_panics {q : Ask N Sl} {a : q.Ans} (x : P) : ¬ (Event.mk q (.ok a) : Event N Sl P).Panics x := by
  intro h; cases h

theorem panics_prog (I : NodeMethods N Sl W P) (p : NodeProg N Sl α) (w : W) :
    (∀ x, (∃ w', p.run I w = some (.error (.method x), w')) ↔ ∃ e, (p.log I w).getLast? = some e ∧ e.Panics x) ∧
    ∀ (i : Nat) (e : Event N Sl P) x, i + 1 < (p.log I w).length → (p.log I w)[i]? = some e → ¬ e.Panics x := by
  induction p generalizing w with
  | ret a => refine ⟨fun x => ⟨?_, ?_⟩, fun i e x h => ?_⟩ <;> simp [NodeProg.run, NodeProg.log] at *
  | panic a => refine ⟨fun x => ⟨?_, ?_⟩, fun i e x h => ?_⟩ <;> simp [NodeProg.run, NodeProg.log] at *
  | overflow => refine ⟨fun x => ⟨?_, ?_⟩, fun i e x h => ?_⟩ <;> simp [NodeProg.run, NodeProg.log] at *
  | ask q k ih =>
    rcases h : I.answer q w with ⟨y | a, w'⟩
    · rw [run_ask_error h, log_ask_error h]
      refine ⟨fun x => ⟨?_, ?_⟩, fun i e x hi => ?_⟩
      · rintro ⟨w'', he⟩
        simp only [Option.some.injEq, Prod.mk.injEq, Except.error.injEq, PanicC.method.injEq] at he
        exact ⟨_, rfl, by rw [← he.1]; rfl⟩
      · rintro ⟨e, he, hx⟩
        simp only [List.getLast?_singleton, Option.some.injEq] at he
        subst he
        simp only [Event.Panics, Except.error.injEq] at hx
        exact ⟨w', by rw [hx]⟩
      · simp at hi
    · rw [run_ask_ok h, log_ask_ok h]
      obtain ⟨h1, h2⟩ := ih a w'
      refine ⟨fun x => ?_, fun i e x hi he => ?_⟩
      · rw [h1]
        cases hl : (k a).log I w' with
        | nil =>
          refine ⟨fun ⟨e, he, _⟩ => by simp at he, fun ⟨e, he, hx⟩ => ?_⟩
          simp only [List.getLast?_singleton, Option.some.injEq] at he
          subst he
          exact absurd hx (Event.ok_not_panics x)
        | cons e l => rw [List.getLast?_cons_cons]
      · cases i with
        | zero =>
          simp only [List.getElem?_cons_zero, Option.some.injEq] at he
          subst he
          exact Event.ok_not_panics x
        | succ i => exact h2 i e x (by simpa using hi) (by simpa using he)

theorem determined_prog (I : NodeMethods N Sl W P) (I' : NodeMethods N Sl W' P) (p : NodeProg N Sl α) (w : W) (w' : W')
    (h : p.log I w = p.log I' w') : (p.run I w).map Prod.fst = (p.run I' w').map Prod.fst := by
  induction p generalizing w w' with
  | ret a => rfl
  | panic a => rfl
  | overflow => rfl
  | ask q k ih =>
    rcases h1 : I.answer q w with ⟨y | a, v⟩ <;> rcases h2 : I'.answer q w' with ⟨y' | a', v'⟩
    · rw [log_ask_error h1, log_ask_error h2] at h
      simp only [List.cons.injEq, Event.mk.injEq, heq_eq_eq, true_and, and_true, Except.error.injEq] at h
      rw [run_ask_error h1, run_ask_error h2, h]; rfl
    · rw [log_ask_error h1, log_ask_ok h2] at h
      simp at h
    · rw [log_ask_ok h1, log_ask_error h2] at h
      simp at h
    · rw [log_ask_ok h1, log_ask_ok h2] at h
      simp only [List.cons.injEq, Event.mk.injEq, heq_eq_eq, true_and, Except.ok.injEq] at h
      obtain ⟨rfl, h⟩ := h
      rw [run_ask_ok h1, run_ask_ok h2]
      exact ih _ _ _ h

theorem confined_log (I : NodeMethods N Sl W P) (p : NodeProg N Sl α) : ∀ (K : Known N Sl) (w : W), Confined K p →
    ∀ (i : Nat) (e : Event N Sl P), (p.log I w)[i]? = some e →
      (∀ n, e.On n → K.nodes n ∨ ∃ (j : Nat) (e' : Event N Sl P), j < i ∧ (p.log I w)[j]? = some e' ∧ e'.Brings n) ∧
      (∀ sl k, e.ask = .elem sl k → ∃ len, k < len ∧
        (K.slices sl len ∨ ∃ (j : Nat) (n : N), j < i ∧ (p.log I w)[j]? = some ⟨.kids n, .ok (sl, len)⟩)) := by
  have hfirst : ∀ (K : Known N Sl) (q : Ask N Sl) (y : Except P q.Ans), K.Allows q →
      (∀ n, (Event.mk q y).On n → K.nodes n) ∧ (∀ sl k, q = .elem sl k → ∃ len, k < len ∧ K.slices sl len) := by
    intro K q y ha
    refine ⟨fun n hn => ?_, fun sl k hq => ?_⟩
    · rcases hn with hn | hn | hn | hn <;> simp only at hn <;> subst hn <;> exact ha
    · subst hq
      obtain ⟨len, h1, h2⟩ := ha
      exact ⟨len, h2, h1⟩
  induction p with
  | ret a => intro K w _ i e he; simp [NodeProg.log] at he
  | panic a => intro K w _ i e he; simp [NodeProg.log] at he
  | overflow => intro K w _ i e he; simp [NodeProg.log] at he
  | ask q k ih =>
    intro K w hc i e he
    rcases h : I.answer q w with ⟨y | a, w'⟩
    · rw [log_ask_error h] at he
      cases i with
      | succ i => simp at he
      | zero =>
        simp only [List.getElem?_cons_zero, Option.some.injEq] at he
        subst he
        obtain ⟨h1, h2⟩ := hfirst K q (.error y) hc.1
        exact ⟨fun n hn => .inl (h1 n hn), fun sl k hq => by obtain ⟨len, a1, a2⟩ := h2 sl k hq; exact ⟨len, a1, .inl a2⟩⟩
    · rw [log_ask_ok h] at he ⊢
      cases i with
      | zero =>
        simp only [List.getElem?_cons_zero, Option.some.injEq] at he
        subst he
        obtain ⟨h1, h2⟩ := hfirst K q (.ok a) hc.1
        exact ⟨fun n hn => .inl (h1 n hn), fun sl k hq => by obtain ⟨len, a1, a2⟩ := h2 sl k hq; exact ⟨len, a1, .inl a2⟩⟩
      | succ i =>
        rw [List.getElem?_cons_succ] at he
        obtain ⟨h1, h2⟩ := ih a (K.learn q a) w' (hc.2 a) i e he
        refine ⟨fun n hn => ?_, fun sl m hm => ?_⟩
        · rcases h1 n hn with hk | ⟨j, e', hj, he', hb⟩
          · cases q with
            | type m => exact .inl hk
            | pos m => exact .inl hk
            | stop m => exact .inl hk
            | kids m => exact .inl hk
            | elem sl j =>
              rcases hk with hk | hk
              · exact .inl hk
              · exact .inr ⟨0, _, by omega, rfl, sl, j, by rw [hk]⟩
          · exact .inr ⟨j + 1, e', by omega, by simpa using he', hb⟩
        · obtain ⟨len, hlt, hs⟩ := h2 sl m hm
          refine ⟨len, hlt, ?_⟩
          rcases hs with hk | ⟨j, n, hj, he'⟩
          · cases q with
            | type m => exact .inl hk
            | pos m => exact .inl hk
            | stop m => exact .inl hk
            | elem sl j => exact .inl hk
            | kids m =>
              rcases hk with hk | hk
              · exact .inl hk
              · exact .inr ⟨0, m, by omega, by rw [List.getElem?_cons_zero, hk]⟩
          · exact .inr ⟨j + 1, n, by omega, by simpa using he'⟩

end

/-- **C103.** `ToAST` neither hides nor invents panics of the methods: it panics with `x` out of a method iff the last call it
made panicked with `x`; and no call before the last one panicked, so nothing is called any more after a panic. -/
theorem C103_panics (b : Bindings) (I : NodeMethods N Sl W P) (x : Option N) (str : Str) (depth : Nat) (w : W) :
    (∀ y, (∃ w', (b.toASTE depth x str).run I w = some (.error (.method y), w')) ↔
      ∃ e, ((b.toASTE depth x str).log I w).getLast? = some e ∧ e.Panics y) ∧
    ∀ (i : Nat) (e : Event N Sl P) y, i + 1 < ((b.toASTE depth x str).log I w).length → ((b.toASTE depth x str).log I w)[i]? = some e → ¬ e.Panics y :=
  panics_prog I _ w

/-- **C103.** `ToAST` calls methods only on nodes that it was given: on the root, and on nodes that it has read before as entries
of a slice; and it reads only entries, within the length, of slices that a call of `Childs` has returned before. -/
theorem C103_given_nodes (b : Bindings) (I : NodeMethods N Sl W P) (x : Option N) (str : Str) (depth : Nat) (w : W) (i : Nat)
    (e : Event N Sl P) (he : ((b.toASTE depth x str).log I w)[i]? = some e) :
    (∀ n, e.On n → x = some n ∨ ∃ (j : Nat) (e' : Event N Sl P), j < i ∧ ((b.toASTE depth x str).log I w)[j]? = some e' ∧ e'.Brings n) ∧
    (∀ sl k, e.ask = .elem sl k → ∃ (j : Nat) (n : N) (len : Nat), j < i ∧
      ((b.toASTE depth x str).log I w)[j]? = some ⟨.kids n, .ok (sl, len)⟩ ∧ k < len) := by
  obtain ⟨h1, h2⟩ := confined_log I (b.toASTE depth x str) ⟨fun n => x = some n, fun _ _ => False⟩ w
    (Confined.toAST b fun n h => h) i e he
  refine ⟨h1, fun sl k hk => ?_⟩
  obtain ⟨len, hlt, h | ⟨j, n, hj, hn⟩⟩ := h2 sl k hk
  · exact h.elim
  · exact ⟨j, n, len, hj, hn, hlt⟩

/-- **C103.** The result depends on nothing but the answers: two implementations, with memories of their own, that are called the
same and answer the same make `ToAST` return the same, panic the same, or overflow. -/
theorem C103_determined (b : Bindings) (I : NodeMethods N Sl W P) (I' : NodeMethods N Sl W' P) (x : Option N) (str : Str)
    (depth : Nat) (w : W) (w' : W') (h : (b.toASTE depth x str).log I w = (b.toASTE depth x str).log I' w') :
    ((b.toASTE depth x str).run I w).map Prod.fst = ((b.toASTE depth x str).run I' w').map Prod.fst :=
  determined_prog I I' _ w w' h

/-- **C103.** A node may change its type while it is looked at: if the first answer is an ignored type the node is left at once,
with no rules; otherwise it is asked again, and the second answer, not the first, decides whether it is taken for a rule (then
it is asked a third time, in search of the name of the rule) or its children are looked at. -/
theorem C103_type_twice (b : Bindings) (I : NodeMethods N Sl W P) (n : N) (str : Str) (depth : Nat) (w w1 : W) (t1 : Int)
    (h1 : I.type n w = (.ok t1, w1)) :
    (t1 ∈ b.ignoreNodeTypes → (b.toASTE (depth + 2) (some n) str).run I w = some (.ok (.ok ⟨[]⟩), w1)) ∧
    (t1 ∉ b.ignoreNodeTypes → ∀ t2 w2, I.type n w1 = (.ok t2, w2) →
      ∃ e, ((b.toASTE (depth + 2) (some n) str).log I w)[2]? = some e ∧
        e.ask = if t2 = b.ruleType then .type n else .kids n) := by
  have a1 : I.answer (.type n) w = (.ok t1, w1) := h1
  have hm := isNodeIgnored_sorted ({ b with ignoreNodeTypes := sortInts b.ignoreNodeTypes } : Bindings)
    (sorted_sortInts _) t1
  simp only [mem_sortInts] at hm
  unfold Bindings.toASTE Bindings.toASTBodyE Bindings.lrTraverseE FC.lrTraverseE walkE flexVisitE
  simp only [ne_eq, not_true_eq_false, if_false, callType, bind, NodeProg.bind]
  rw [run_ask_ok a1, log_ask_ok a1]
  have hlog : ∀ (q : Ask N Sl) (k : q.Ans → NodeProg N Sl (Except Err Grammar)) (v : W),
      ∃ e, ((NodeProg.ask q k).log I v)[0]? = some e ∧ e.ask = q := by
    intro q k v
    rcases hq : I.answer q v with ⟨x | a, v'⟩
    · rw [log_ask_error hq]; exact ⟨_, rfl, rfl⟩
    · rw [log_ask_ok hq]; exact ⟨_, rfl, rfl⟩
  refine ⟨fun hi => ?_, fun hi t2 w2 h2 => ?_⟩
  · rw [if_pos (by rw [hm]; simpa using hi)]
    rfl
  · have a2 : I.answer (.type n) w1 = (.ok t2, w2) := h2
    rw [if_neg (by rw [hm]; simpa using hi)]
    simp only [NodeProg.bind]
    rw [log_ask_ok a2]
    simp only [List.getElem?_cons_succ]
    by_cases ht : t2 = b.ruleType
    · rw [if_pos ht, if_pos (by simpa using ht)]
      exact hlog _ _ _
    · rw [if_neg ht, if_neg (by simpa using ht)]
      exact hlog _ _ _

/-! ## Concrete implementations -/

/-- Nodes that build their children when they are first asked for them.  A node is an index into memory; memory holds for each
node the tree it stands for and, once built, the indices of its children. -/
def lazyNodes : NodeMethods Nat (List Nat) (List (Node × Option (List Nat))) Str where
  type n w := (match w[n]? with | some (t, _) => .ok t.type | none => .error b!"no such node", w)
  pos n w := (match w[n]? with | some (t, _) => .ok t.pos | none => .error b!"no such node", w)
  stop n w := (match w[n]? with | some (t, _) => .ok t.stop | none => .error b!"no such node", w)
  kids n w := match w[n]? with
    | some (_, some ps) => (.ok ps, w)
    | some (t, none) =>
      (.ok (List.range' w.length t.childs.length),
        w.set n (t, some (List.range' w.length t.childs.length)) ++ t.childs.map fun c => (c, none))
    | none => (.error b!"no such node", w)
  len := List.length
  elem sl i _ := sl[i]?

/-- Index `p` stands for the tree `c`. -/
def LazyIs (w : List (Node × Option (List Nat))) (p : Nat) (c : Node) : Prop := ∃ o, w[p]? = some (c, o)

/-- Children that are built stand for the children of the tree. -/
def LazyOk (w : List (Node × Option (List Nat))) : Prop :=
  ∀ (n : Nat) t ps, w[n]? = some (t, some ps) →
    ps.length = t.childs.length ∧ ∀ (i p : Nat) c, ps[i]? = some p → t.childs[i]? = some c → LazyIs w p c

theorem lazyIs_kids {w : List (Node × Option (List Nat))} {n : Nat} {t : Node} {o o' : Option (List Nat)}
    (h : w[n]? = some (t, o)) {p : Nat} {c : Node} (hp : LazyIs w p c) (l : List (Node × Option (List Nat))) :
    LazyIs (w.set n (t, o') ++ l) p c := by
  obtain ⟨o'', hp⟩ := hp
  have hlt : p < w.length := (List.getElem?_eq_some_iff.1 hp).1
  have hn : n < w.length := (List.getElem?_eq_some_iff.1 h).1
  unfold LazyIs
  rw [List.getElem?_append_left (by simpa using hlt)]
  by_cases hnp : n = p
  · subst hnp
    rw [h] at hp
    simp only [Option.some.injEq, Prod.mk.injEq] at hp
    exact ⟨o', by rw [List.getElem?_set_self hn, hp.1]⟩
  · exact ⟨o'', by rw [List.getElem?_set_ne hnp, hp]⟩

/-- Lazy nodes stand for trees. -/
def lazyRepresents : Represents lazyNodes ownView where
  Node w n t := LazyOk w ∧ LazyIs w n t
  Slice w sl l := LazyOk w ∧ sl.length = l.length ∧ ∀ (i p : Nat) y, sl[i]? = some p → l[i]? = some y → ∃ c, y = some c ∧ LazyIs w p c
  Later w w' := LazyOk w → LazyOk w' ∧ ∀ p c, LazyIs w p c → LazyIs w' p c
  later_refl _ h := ⟨h, fun _ _ h => h⟩
  later_trans h h' ho := by
    obtain ⟨h1, h2⟩ := h ho
    obtain ⟨h3, h4⟩ := h' h1
    exact ⟨h3, fun p c hp => h4 p c (h2 p c hp)⟩
  node_later h hn := ⟨(h hn.1).1, (h hn.1).2 _ _ hn.2⟩
  slice_later h hs := ⟨(h hs.1).1, hs.2.1, fun i p y h1 h2 => by
    obtain ⟨c, h3, h4⟩ := hs.2.2 i p y h1 h2
    exact ⟨c, h3, (h hs.1).2 _ _ h4⟩⟩
  type h := by
    obtain ⟨ho, o, hn⟩ := h
    exact ⟨_, by simp only [lazyNodes, hn]; rfl, fun h => ⟨h, fun _ _ h => h⟩⟩
  pos h := by
    obtain ⟨ho, o, hn⟩ := h
    exact ⟨_, by simp only [lazyNodes, hn]; rfl, fun h => ⟨h, fun _ _ h => h⟩⟩
  stop h := by
    obtain ⟨ho, o, hn⟩ := h
    exact ⟨_, by simp only [lazyNodes, hn]; rfl, fun h => ⟨h, fun _ _ h => h⟩⟩
  kids {w n t} h := by
    obtain ⟨ho, o, hn⟩ := h
    cases o with
    | some ps =>
      refine ⟨ps, w, by simp only [lazyNodes, hn], fun h => ⟨h, fun _ _ h => h⟩, ho, ?_, ?_⟩
      · rw [(ho n t ps hn).1]; simp [ownView]
      · intro i p y h1 h2
        simp only [ownView, List.getElem?_map] at h2
        cases hc : t.childs[i]? with
        | none => rw [hc] at h2; cases h2
        | some c =>
          rw [hc] at h2
          simp only [Option.map_some, Option.some.injEq] at h2
          exact ⟨c, h2.symm, (ho n t ps hn).2 i p c h1 hc⟩
    | none =>
      have hlt : n < w.length := (List.getElem?_eq_some_iff.1 hn).1
      generalize hps : List.range' w.length t.childs.length = ps
      generalize hw' : (w.set n (t, some ps) ++ t.childs.map fun c => ((c, none) : Node × Option (List Nat))) = w'
      have hmono : ∀ p c, LazyIs w p c → LazyIs w' p c := fun p c h => by rw [← hw']; exact lazyIs_kids hn h _
      have hnew : ∀ (i p : Nat) c, ps[i]? = some p → t.childs[i]? = some c → LazyIs w' p c := by
        intro i p c h1 h2
        have hi : i < t.childs.length := (List.getElem?_eq_some_iff.1 h2).1
        rw [← hps, List.getElem?_range' hi] at h1
        simp only [Option.some.injEq, Nat.one_mul] at h1
        refine ⟨none, ?_⟩
        rw [← hw', List.getElem?_append_right (by simp; omega), ← h1]
        simp [h2]
      have hok : LazyOk w' := by
        intro m u qs hm
        rw [← hw'] at hm
        by_cases hml : m < w.length
        · rw [List.getElem?_append_left (by simpa using hml)] at hm
          by_cases hnm : n = m
          · subst hnm
            rw [List.getElem?_set_self hlt] at hm
            simp only [Option.some.injEq, Prod.mk.injEq] at hm
            obtain ⟨rfl, rfl⟩ := hm
            exact ⟨by rw [← hps]; simp, hnew⟩
          · rw [List.getElem?_set_ne hnm] at hm
            obtain ⟨h1, h2⟩ := ho m u qs hm
            exact ⟨h1, fun i p c a b => hmono p c (h2 i p c a b)⟩
        · rw [List.getElem?_append_right (by simpa using hml), List.getElem?_map] at hm
          cases hc : t.childs[m - (w.set n (t, some ps)).length]? with
          | none => rw [hc] at hm; cases hm
          | some c => rw [hc] at hm; simp at hm
      refine ⟨ps, w', by simp only [lazyNodes, hn, hps, hw'], fun _ => ⟨hok, hmono⟩, hok, by rw [← hps]; simp [ownView], ?_⟩
      intro i p y h1 h2
      simp only [ownView, List.getElem?_map] at h2
      cases hc : t.childs[i]? with
      | none => rw [hc] at h2; cases h2
      | some c =>
        rw [hc] at h2
        simp only [Option.map_some, Option.some.injEq] at h2
        exact ⟨c, h2.symm, hnew i p c h1 hc⟩
  len h := h.2.1
  elem_nil {w sl l i} h hl := by
    have hi : i < sl.length := by rw [h.2.1]; exact (List.getElem?_eq_some_iff.1 hl).1
    obtain ⟨c, hc, _⟩ := h.2.2 i _ _ (List.getElem?_eq_getElem hi) hl
    cases hc
  elem_node {w sl l i n'} h hl := by
    have hi : i < sl.length := by rw [h.2.1]; exact (List.getElem?_eq_some_iff.1 hl).1
    obtain ⟨c, hc, hp⟩ := h.2.2 i _ _ (List.getElem?_eq_getElem hi) hl
    simp only [Option.some.injEq] at hc
    subst hc
    exact ⟨_, List.getElem?_eq_getElem hi, h.1, hp⟩

/-- **C103.** An instance: lazy nodes give what the tree gives, for every tree, although at the start only the root exists. -/
theorem C103_lazy (b : Bindings) (t : Node) (str : Str) (ht : Nat) (hh : IsHeight t ht) (depth : Nat) (hd : ht + 6 ≤ depth)
    (g : Grammar) (hg : b.toAST t str = .ok g) :
    ∃ w', (b.toASTE depth (some 0) str).run lazyNodes [(t, none)] = some (.ok (.ok g), w') := by
  refine (C103_tree b lazyRepresents [(t, none)] 0 t ⟨?_, none, rfl⟩ str ht hh depth hd).1 g hg
  intro n u ps h
  match n, h with
  | 0, h => simp at h

/-- The tree of `<a>::="b"`, with a comment that has two children. -/
def Ex.callsTree : Node :=
  ⟨0, 0, 9, [⟨4, 0, 9, [⟨18, 1, 2, []⟩, ⟨5, 6, 9, [⟨7, 6, 9, [⟨9, 6, 9, [⟨11, 7, 8, [⟨-1, 7, 8, []⟩]⟩]⟩]⟩]⟩]⟩,
    ⟨25, 9, 9, [⟨0, 9, 9, []⟩, ⟨0, 9, 9, []⟩]⟩]⟩

/-- Lazy nodes for it: the grammar; and of the eleven nodes the two below the comment, which is ignored, were never built. -/
example : ((selfBindings.toASTE 20 (some 0) b!"<a>::=\"b\"").run lazyNodes [(Ex.callsTree, none)]).map
    (fun r => (match r.1 with | .ok (.ok g) => some g | _ => none, r.2.length)) =
    some (some ⟨[⟨b!"a", ⟨[⟨[.terminal b!"b"]⟩]⟩⟩]⟩, 9) := by decide +kernel

/-- Nodes that count the calls of their methods and whose `Childs` panics from the sixth call on. -/
def Ex.tiredNodes : NodeMethods Node (List Node) Nat Str where
  type n w := (.ok n.type, w + 1)
  pos n w := (.ok n.pos, w + 1)
  stop n w := (.ok n.stop, w + 1)
  kids n w := (if w < 6 then .ok n.childs else .error b!"tired", w + 1)
  len := List.length
  elem sl i _ := sl[i]?

/-- The panic comes out of `ToAST`, with memory as the method left it (the panicking call was the eighth), and the last call was
one of `Childs`. -/
example : ((selfBindings.toASTE 20 (some Ex.callsTree) b!"<a>::=\"b\"").run Ex.tiredNodes 0).map
    (fun r => (match r.1 with | .error (.method x) => some x | _ => none, r.2)) = some (some b!"tired", 8) ∧
    (((selfBindings.toASTE 20 (some Ex.callsTree) b!"<a>::=\"b\"").log Ex.tiredNodes 0).getLast?.map
      fun e => match e.ask with | .kids n => n.type | _ => 0) = some 4 := by decide +kernel

/-- Nodes that do not stand for anything: node 0 has the one child 1, which first says to be a rule name and later a rule body;
so it is taken for both. -/
def Ex.shiftyNodes : NodeMethods Nat Nat Nat Str where
  type n w := (.ok (if n = 0 then 4 else if w < 6 then 18 else 5), w + 1)
  pos _ w := (.ok 0, w)
  stop _ w := (.ok 1, w)
  kids n w := (.ok (1 - n), w)
  len sl := sl
  elem _ _ _ := some 1

/-- The hypothesis of `C103_type_twice` is met by such a node: not ignored at first, it is a rule when asked again. -/
def Ex.becomesRule : NodeMethods Nat Nat Nat Str := { Ex.shiftyNodes with type := fun _ w => (.ok (if w = 0 then 5 else 4), w + 1) }

example : (5 : Int) ∉ selfBindings.ignoreNodeTypes ∧ Ex.becomesRule.type 0 0 = (.ok 5, 1) ∧ Ex.becomesRule.type 0 1 = (.ok 4, 2) ∧
    selfBindings.ruleType = 4 ∧ (((selfBindings.toASTE 20 (some 0) b!"a").log Ex.becomesRule 0)[2]?.map
      fun e => match e.ask with | .type n => n | _ => 7) = some 0 := by decide +kernel

example : ((selfBindings.toASTE 20 (some 0) b!"a").run Ex.shiftyNodes 0).map
    (fun r => match r.1 with | .ok (.ok g) => some g | _ => none) = some (some ⟨[⟨b!"a", ⟨[]⟩⟩]⟩) := by decide +kernel

end FC
end LL1
