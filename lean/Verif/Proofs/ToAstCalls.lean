import Verif.Spec.ToAstCalls

/-!
# `ToAST` and the methods of the nodes: proofs
-/

namespace LL1
namespace FC

variable {N N' Sl W P α β : Type}

/-! ## Nodes that stand for others -/

section
variable {I : NodeMethods N Sl W P} {V : NodeView N'} (R : Represents I V)

/-- From memory `w` on, `p` does what `d` does. -/
def Same (w : W) (p : NodeProg N Sl α) (d : D α) : Prop :=
  match d.run with
  | none => p.run I w = none
  | some (.ok a) => ∃ w', p.run I w = some (.ok a, w') ∧ R.Later w w'
  | some (.error e) => ∃ w', p.run I w = some (.error (.own e), w')

theorem run_ask_ok {w w' : W} {q : Ask N Sl} {a : q.Ans} {k : q.Ans → NodeProg N Sl α} (h : I.answer q w = (.ok a, w')) :
    (NodeProg.ask q k).run I w = (k a).run I w' := by rw [NodeProg.run, h]

theorem run_ask_error {w w' : W} {q : Ask N Sl} {x : P} {k : q.Ans → NodeProg N Sl α} (h : I.answer q w = (.error x, w')) :
    (NodeProg.ask q k).run I w = some (.error (.method x), w') := by rw [NodeProg.run, h]

theorem nodeProg_run_bind (p : NodeProg N Sl α) (f : α → NodeProg N Sl β) (w : W) : (p >>= f).run I w =
    match p.run I w with
    | none => none
    | some (.ok a, w') => (f a).run I w'
    | some (.error e, w') => some (.error e, w') := by
  show (p.bind f).run I w = _
  induction p generalizing w with
  | ret a => rfl
  | panic e => rfl
  | overflow => rfl
  | ask q k ih =>
    show (NodeProg.ask q fun a => (k a).bind f).run I w = _
    rcases h : I.answer q w with ⟨x | a, w'⟩
    · rw [run_ask_error h, run_ask_error h]
    · rw [run_ask_ok h, run_ask_ok h]
      exact ih a w'

namespace Same

theorem pure (w : W) (a : α) : Same R w (pure a) (pure a) := ⟨w, rfl, R.later_refl w⟩

theorem bind {w : W} {p : NodeProg N Sl α} {d : D α} {f : α → NodeProg N Sl β} {g : α → D β} (h : Same R w p d)
    (hf : ∀ a w', R.Later w w' → Same R w' (f a) (g a)) : Same R w (p >>= f) (d >>= g) := by
  rcases d with _ | e | a
  · have h : p.run I w = none := h
    show (p >>= f).run I w = none
    rw [nodeProg_run_bind, h]
  · obtain ⟨w', h⟩ : ∃ w', p.run I w = some (.error (.own e), w') := h
    show ∃ w', (p >>= f).run I w = some (.error (.own e), w')
    exact ⟨w', by rw [nodeProg_run_bind, h]⟩
  · obtain ⟨w', h, hl⟩ : ∃ w', p.run I w = some (.ok a, w') ∧ R.Later w w' := h
    have h2 := hf a w' hl
    have e1 : (p >>= f).run I w = (f a).run I w' := by rw [nodeProg_run_bind, h]
    show Same R w (p >>= f) (g a)
    unfold Same at h2 ⊢
    rw [e1]
    rcases hd : (g a).run with _ | e | b
    · rw [hd] at h2; exact h2
    · rw [hd] at h2; exact h2
    · rw [hd] at h2
      obtain ⟨w'', h3, h4⟩ := h2
      exact ⟨w'', h3, R.later_trans hl h4⟩

/-- A call whose answer is known. -/
theorem ask {w w' : W} {q : Ask N Sl} {a : q.Ans} {k : q.Ans → NodeProg N Sl α} {d : D α} (h : I.answer q w = (.ok a, w'))
    (hl : R.Later w w') (hk : Same R w' (k a) d) : Same R w (.ask q k) d := by
  have e1 : (NodeProg.ask q k).run I w = (k a).run I w' := by rw [NodeProg.run, h]
  unfold Same at hk ⊢
  rw [e1]
  rcases hd : d.run with _ | e | b
  · rw [hd] at hk; exact hk
  · rw [hd] at hk; exact hk
  · rw [hd] at hk
    obtain ⟨w'', h3, h4⟩ := hk
    exact ⟨w'', h3, R.later_trans hl h4⟩

theorem callType_bind {w : W} {n : N} {n' : N'} (h : R.Node w n n') {f : Int → NodeProg N Sl α} {d : D α}
    (hf : ∀ w', R.Later w w' → Same R w' (f (V.type n')) d) : Same R w (callType n >>= f) d := by
  obtain ⟨w', h1, h2⟩ := R.type h
  exact ask R (q := .type n) (k := f) h1 h2 (hf _ h2)

theorem slice {str : Str} {w : W} {n : N} {n' : N'} (h : R.Node w n n') :
    Same R w (spanE str n) (sliceG str (V.pos n') (V.stop n')) := by
  obtain ⟨w1, h1, h2⟩ := R.pos h
  obtain ⟨w2, h3, h4⟩ := R.stop (R.node_later h2 h)
  refine ask R (q := .pos n) h1 h2 (ask R (q := .stop n) h3 h4 ?_)
  unfold sliceG
  split
  · exact pure R _ _
  · exact ⟨_, rfl⟩

theorem range {σ : Type} {body : Option N → σ → NodeProg N Sl σ} {body' : Option N' → σ → D σ} {w0 : W}
    (h : ∀ w x x' s, R.Later w0 w → R.Value w x x' → Same R w (body x s) (body' x' s)) {sl : Sl} {l : List (Option N')} :
    ∀ (k i : Nat) (w : W) (s : σ), R.Later w0 w → R.Slice w sl l → i + k = l.length →
      Same R w (rangeE body sl k i s) (rangeG body' (l.drop i) s)
  | 0, i, w, s, _, _, hk => by
    rw [List.drop_eq_nil_of_le (by omega)]
    exact pure R _ _
  | k + 1, i, w, s, hl, hs, hk => by
    have hi : i < l.length := by omega
    rw [List.drop_eq_getElem_cons hi]
    have hg : l[i]? = some l[i] := List.getElem?_eq_getElem hi
    refine ask R (q := .elem sl i) (a := I.elem sl i w) rfl (R.later_refl _) ?_
    refine bind R (h w _ _ _ hl ?_) (fun s' w' hl' => range h k (i + 1) w' s' (R.later_trans hl hl') (R.slice_later hl' hs) (by omega))
    cases hx : l[i] with
    | none => rw [R.elem_nil hs (hx ▸ hg)]; trivial
    | some n' =>
      obtain ⟨n, h1, h2⟩ := R.elem_node hs (hx ▸ hg)
      rw [h1]; exact h2

theorem walk {σ : Type} {ig sr : Int → Bool} {w0 : W} {f : OnNodeE N Sl σ} {f' : OnNodeG N' σ}
    (hf : ∀ w d n n' s, R.Later w0 w → R.Node w n n' → Same R w (f d n s) (f' d n' s)) :
    ∀ d w x x' s, R.Later w0 w → R.Value w x x' → Same R w (walkE ig sr f d x s) (walkG V ig sr f' d x' s)
  | 0, w, x, x', s, _, _ => by
    show Same R w (walkE ig sr f 0 x s) (walkG V ig sr f' 0 x' s)
    unfold walkE walkG
    rfl
  | d + 1, w, x, x', s, hl, h => by
    have ih := walk (ig := ig) (sr := sr) hf d
    unfold walkE walkG
    match x, x', h with
    | none, none, h =>
      refine bind R ?_ (fun r w' hl' => ?_)
      · unfold flexVisitE flexVisitG
        split
        · exact pure R _ _
        · exact ⟨w, rfl⟩
      · obtain ⟨s', b⟩ := r
        cases b <;> exact pure R _ s'
    | some n, some n', h =>
      have h : R.Node w n n' := h
      refine bind R ?_ (fun r w' hl' => ?_)
      · unfold flexVisitE flexVisitG
        split
        · exact pure R _ _
        · dsimp only
          refine callType_bind R h fun w1 hl1 => ?_
          split
          · exact pure R _ _
          · refine callType_bind R (R.node_later hl1 h) fun w2 hl2 => ?_
            have hl3 := R.later_trans hl1 hl2
            split
            · exact bind R (hf _ _ _ _ _ (R.later_trans hl hl3) (R.node_later hl3 h)) fun r w3 _ => pure R _ _
            · exact pure R _ _
      · obtain ⟨s', b⟩ := r
        cases b with
        | true =>
          dsimp only
          obtain ⟨sl, w2, h1, h2, h3⟩ := R.kids (R.node_later hl' h)
          refine ask R (q := .kids n) (a := (sl, I.len sl)) (by rw [NodeMethods.answer, h1]) h2 ?_
          have := range R (body := walkE ig sr f d) (body' := walkG V ig sr f' d) (w0 := w0)
            (fun w x x' s hl h => ih w x x' s hl h) (I.len sl) 0 w2 s' (R.later_trans hl (R.later_trans hl' h2)) h3
            (by rw [R.len h3]; omega)
          rwa [List.drop_zero] at this
        | false => exact pure R _ _

theorem trav {σ : Type} (b : Bindings) {u : Int} {w : W} {f : OnNodeE N Sl σ} {f' : OnNodeG N' σ}
    (hf : ∀ w' d n n' s, R.Later w w' → R.Node w' n n' → Same R w' (f d n s) (f' d n' s))
    {d : Nat} {x : Option N} {x' : Option N'} {s : σ} (h : R.Value w x x') :
    Same R w (b.lrTraverseE d x u f s) (b.lrTraverseG V d x' u f' s) := walk R hf _ _ _ _ _ (R.later_refl w) h

variable {str : Str}

theorem escape (b : Bindings) {w : W} {d : Nat} {n : N} {n' : N'} (h : R.Node w n n') :
    Same R w (b.parseEscapeE d n str) (b.parseEscapeG V d n' str) := by
  refine bind R (trav R b (fun w' d n n' s _ h => ?_) h) (fun r w' _ => ?_)
  · refine bind R (slice R h) (fun e w'' _ => ?_)
    cases b.escapeMapping.get e <;> exact pure R _ _
  · obtain ⟨r1, _ | e⟩ := r
    · exact pure R _ _
    · cases e <;> exact pure R _ _

theorem terminalName (b : Bindings) {w : W} {d : Nat} {n : N} {n' : N'} (h : R.Node w n n') :
    Same R w (b.parseTerminalNameE d n str) (b.parseTerminalNameG V d n' str) := by
  refine bind R (walk R (fun w' d n n' s _ h => ?_) _ _ _ _ _ (R.later_refl w) h) (fun r w' _ => ?_)
  · unfold Bindings.onTerminalPartE Bindings.onTerminalPartG
    refine callType_bind R h fun w1 hl1 => ?_
    have h' := R.node_later hl1 h
    split
    · exact bind R (slice R h') fun t _ _ => pure R _ _
    · refine bind R (escape R b h') (fun r w' _ => ?_)
      cases r <;> exact pure R _ _
  · obtain ⟨r1, _ | e⟩ := r <;> exact pure R _ _

theorem termLoop (b : Bindings) {d : Nat} {n : N} {n' : N'} (ts : List Int) :
    ∀ (w : W) (res : Option Symbol), R.Node w n n' →
      Same R w (b.symbolTermLoopE d n str ts res) (b.symbolTermLoopG V d n' str ts res) := by
  induction ts with
  | nil => intro w res h; exact pure R _ _
  | cons t ts ih =>
    intro w res h
    refine bind R (trav R b (fun w' d n n' s _ h => ?_) h) (fun r w' hl => ?_)
    · refine bind R (terminalName R b h) (fun r _ _ => ?_)
      cases r with
      | error e => exact pure R _ _
      | ok name =>
        dsimp only
        split <;> exact pure R _ _
    · obtain ⟨r1, _ | e⟩ := r
      · exact ih _ _ (R.node_later hl h)
      · cases e <;> exact pure R _ _

theorem symbol (b : Bindings) {w : W} {d : Nat} {n : N} {n' : N'} (h : R.Node w n n') :
    Same R w (b.parseSymbolE d n str) (b.parseSymbolG V d n' str) := by
  refine bind R (termLoop R b _ _ _ h) (fun r w' hl => ?_)
  rcases r with e | _ | res
  · exact pure R _ _
  · refine bind R (trav R b (fun w' d n n' s _ h => ?_) (R.node_later hl h)) (fun r w'' hl2 => ?_)
    · exact bind R (slice R h) fun t _ _ => pure R _ _
    · have h2 := bind R (slice R (str := str) (R.node_later hl2 (R.node_later hl h)))
        fun t w3 _ => pure R w3 (Except.error (ε := Err) (α := Option Symbol) (.noSymbolType t))
      obtain ⟨r1, _ | e⟩ := r
      · exact h2
      · cases e <;> first | exact pure R _ _ | exact h2
  · exact pure R _ _

theorem sequence (b : Bindings) {w : W} {d : Nat} {n : N} {n' : N'} (h : R.Node w n n') :
    Same R w (b.parseSequenceE d n str) (b.parseSequenceG V d n' str) := by
  refine bind R (trav R b (fun w' d n n' s _ h => ?_) h) (fun r _ _ => ?_)
  · refine bind R (symbol R b h) (fun r _ _ => ?_)
    rcases r with e | _ | y <;> exact pure R _ _
  · obtain ⟨r1, _ | e⟩ := r <;> exact pure R _ _

theorem substitution (b : Bindings) {w : W} {d : Nat} {n : N} {n' : N'} (h : R.Node w n n') :
    Same R w (b.parseSubstitutionE d n str) (b.parseSubstitutionG V d n' str) := by
  refine bind R (trav R b (fun w' d n n' s _ h => ?_) h) (fun r _ _ => ?_)
  · refine bind R (sequence R b h) (fun r _ _ => ?_)
    cases r <;> exact pure R _ _
  · obtain ⟨r1, _ | e⟩ := r <;> exact pure R _ _

theorem rule (b : Bindings) {w : W} {d : Nat} {n : N} {n' : N'} (h : R.Node w n n') :
    Same R w (b.parseRuleE d n str) (b.parseRuleG V d n' str) := by
  refine bind R (trav R b (fun w' d n n' s _ h => ?_) h) (fun r w' hl => ?_)
  · exact bind R (slice R h) fun t _ _ => pure R _ _
  · have h := R.node_later hl h
    have h2 := bind R (slice R (str := str) h)
        fun t w3 _ => pure R w3 (Except.error (ε := Err) (α := Rule) (.noRuleName t))
    obtain ⟨r1, _ | e⟩ := r
    · exact h2
    · cases e with
      | searchComplete =>
        refine bind R (trav R b (fun w' d n n' s _ h => ?_) h) (fun r w'' hl2 => ?_)
        · refine bind R (substitution R b h) (fun r _ _ => ?_)
          cases r <;> exact pure R _ _
        · obtain ⟨r1, _ | e⟩ := r
          · exact bind R (slice R (R.node_later hl2 h)) fun t _ _ => pure R _ _
          · cases e <;> exact pure R _ _
      | _ => exact h2

theorem toAST (b : Bindings) {w : W} {d : Nat} {x : Option N} {x' : Option N'} (h : R.Value w x x') :
    Same R w (b.toASTE d x str) (b.toASTG V d x' str) := by
  unfold Bindings.toASTE Bindings.toASTG Bindings.toASTBodyE Bindings.toASTBodyG
  refine bind R (trav R _ (fun w' d n n' s _ h => ?_) h) (fun r _ _ => ?_)
  · refine bind R (rule R _ h) (fun r _ _ => ?_)
    cases r <;> exact pure R _ _
  · obtain ⟨r1, _ | e⟩ := r <;> exact pure R _ _

end Same
end

/-! ## Only nodes that it was given -/

/-- The nodes and slices (with lengths) that are known. -/
structure Known (N Sl : Type) where
  nodes : N → Prop
  slices : Sl → Nat → Prop

/-- The call is on something known. -/
def Known.Allows (K : Known N Sl) : Ask N Sl → Prop
  | .type n => K.nodes n
  | .pos n => K.nodes n
  | .stop n => K.nodes n
  | .kids n => K.nodes n
  | .elem sl i => ∃ len, K.slices sl len ∧ i < len

/-- What is known after the answer. -/
def Known.learn (K : Known N Sl) : (q : Ask N Sl) → q.Ans → Known N Sl
  | .type _, _ => K
  | .pos _, _ => K
  | .stop _, _ => K
  | .kids _, a => { K with slices := fun sl len => K.slices sl len ∨ a = (sl, len) }
  | .elem _ _, a => { K with nodes := fun n => K.nodes n ∨ a = some n }

def Known.le (K K' : Known N Sl) : Prop := (∀ n, K.nodes n → K'.nodes n) ∧ ∀ sl l, K.slices sl l → K'.slices sl l

theorem Known.le.refl (K : Known N Sl) : K.le K := ⟨fun _ h => h, fun _ _ h => h⟩
theorem Known.le.trans {K K' K'' : Known N Sl} (h : K.le K') (h' : K'.le K'') : K.le K'' :=
  ⟨fun _ x => h'.1 _ (h.1 _ x), fun _ _ x => h'.2 _ _ (h.2 _ _ x)⟩

theorem Known.le_learn (K : Known N Sl) (q : Ask N Sl) (a : q.Ans) : K.le (K.learn q a) := by
  cases q with
  | type n => exact .refl _
  | pos n => exact .refl _
  | stop n => exact .refl _
  | kids n => exact ⟨fun _ h => h, fun _ _ h => .inl h⟩
  | elem sl i => exact ⟨fun _ h => .inl h, fun _ _ h => h⟩

/-- The computation calls only what is known. -/
def Confined (K : Known N Sl) : NodeProg N Sl α → Prop
  | .ret _ => True
  | .panic _ => True
  | .overflow => True
  | .ask q k => K.Allows q ∧ ∀ a, Confined (K.learn q a) (k a)

namespace Confined

theorem bind {p : NodeProg N Sl α} {f : α → NodeProg N Sl β} : ∀ {K : Known N Sl}, Confined K p →
    (∀ a K', K.le K' → Confined K' (f a)) → Confined K (p >>= f) := by
  show ∀ {K : Known N Sl}, Confined K p → (∀ a K', K.le K' → Confined K' (f a)) → Confined K (p.bind f)
  induction p with
  | ret a => intro K _ h; exact h a K (.refl K)
  | panic e => intro K _ _; trivial
  | overflow => intro K _ _; trivial
  | ask q k ih =>
    intro K h hf
    exact ⟨h.1, fun a => ih a (h.2 a) fun b K' hK => hf b K' ((K.le_learn q a).trans hK)⟩

theorem type {K : Known N Sl} {n : N} (h : K.nodes n) : Confined K (callType n : NodeProg N Sl Int) := ⟨h, fun _ => trivial⟩

theorem span {K : Known N Sl} {str : Str} {n : N} (h : K.nodes n) : Confined K (spanE str n : NodeProg N Sl Str) := by
  refine ⟨h, fun a => ⟨h, fun b => ?_⟩⟩
  show Confined _ (if _ then _ else _)
  split <;> trivial

theorem range {σ : Type} {body : Option N → σ → NodeProg N Sl σ} {K0 : Known N Sl}
    (h : ∀ K x s, K0.le K → (∀ n, x = some n → K.nodes n) → Confined K (body x s)) {sl : Sl} {len : Nat} :
    ∀ (k i : Nat) (K : Known N Sl) (s : σ), K0.le K → K.slices sl len → i + k = len → Confined K (rangeE body sl k i s)
  | 0, i, K, s, _, _, _ => trivial
  | k + 1, i, K, s, hl, hs, hk => by
    refine ⟨⟨len, hs, by omega⟩, fun c => ?_⟩
    show Confined (K.learn (.elem sl i) c) (body c s >>= fun s' => rangeE body sl k (i + 1) s')
    refine bind (h (K.learn (.elem sl i) c) c s (hl.trans (K.le_learn (.elem sl i) c)) fun n hn => .inr hn) (fun s' K' hl' => ?_)
    exact range h k (i + 1) K' s' (hl.trans ((K.le_learn (.elem sl i) c).trans hl')) (hl'.2 _ _ hs) (by omega)

theorem walk {σ : Type} {ig sr : Int → Bool} {K0 : Known N Sl} {f : OnNodeE N Sl σ}
    (hf : ∀ K d n s, K0.le K → K.nodes n → Confined K (f d n s)) :
    ∀ d (K : Known N Sl) x s, K0.le K → (∀ n, x = some n → K.nodes n) → Confined K (walkE ig sr f d x s)
  | 0, K, x, s, _, _ => by unfold walkE; trivial
  | d + 1, K, x, s, hl, h => by
    have ih := walk (ig := ig) (sr := sr) hf d
    unfold walkE
    refine bind ?_ (fun r K' hl' => ?_)
    · unfold flexVisitE
      split
      · trivial
      · cases x with
        | none => trivial
        | some n =>
          have hn := h n rfl
          refine bind (type hn) fun t K1 h1 => ?_
          split
          · trivial
          · refine bind (type (h1.1 _ hn)) fun t' K2 h2 => ?_
            split
            · exact bind (hf _ _ _ _ (hl.trans (h1.trans h2)) (h2.1 _ (h1.1 _ hn))) fun _ _ _ => trivial
            · trivial
    · split
      · next n =>
        have hn : K'.nodes n := hl'.1 _ (h n rfl)
        refine ⟨hn, fun a => ?_⟩
        exact range (K0 := K0) (fun K x s hl h => ih K x s hl h) a.2 0 _ _ (hl.trans (hl'.trans (K'.le_learn (.kids n) a)))
          (.inr rfl) (Nat.zero_add _)
      · trivial

theorem trav {σ : Type} (b : Bindings) {u : Int} {K : Known N Sl} {f : OnNodeE N Sl σ}
    (hf : ∀ K' d n s, K.le K' → K'.nodes n → Confined K' (f d n s)) {d : Nat} {x : Option N} {s : σ}
    (h : ∀ n, x = some n → K.nodes n) : Confined K (b.lrTraverseE d x u f s) := walk hf _ _ _ _ (.refl K) h

theorem some_known {K : Known N Sl} {n : N} (h : K.nodes n) : ∀ m, some n = some m → K.nodes m := by
  rintro m ⟨⟩; exact h

variable {str : Str}

theorem escape (b : Bindings) {K : Known N Sl} {d : Nat} {n : N} (h : K.nodes n) : Confined K (b.parseEscapeE d n str) := by
  refine bind (trav b (fun K' d n s _ h => ?_) (some_known h)) (fun r K' _ => ?_)
  · refine bind (span h) (fun e _ _ => ?_)
    split <;> trivial
  · split <;> trivial

theorem terminalName (b : Bindings) {K : Known N Sl} {d : Nat} {n : N} (h : K.nodes n) :
    Confined K (b.parseTerminalNameE d n str) := by
  refine bind (walk (fun K' d n s _ h => ?_) _ _ _ _ (.refl K) (some_known h)) (fun r K' _ => ?_)
  · unfold Bindings.onTerminalPartE
    refine bind (type h) fun t K1 h1 => ?_
    have h' := h1.1 _ h
    split
    · exact bind (span h') fun _ _ _ => trivial
    · refine bind (escape b h') (fun r _ _ => ?_)
      split <;> trivial
  · split <;> trivial

theorem termLoop (b : Bindings) {d : Nat} {n : N} (ts : List Int) :
    ∀ (K : Known N Sl) (res : Option Symbol), K.nodes n → Confined K (b.symbolTermLoopE d n str ts res) := by
  induction ts with
  | nil => intro K res h; trivial
  | cons t ts ih =>
    intro K res h
    refine bind (trav b (fun K' d n s _ h => ?_) (some_known h)) (fun r K' hl => ?_)
    · refine bind (terminalName b h) (fun r _ _ => ?_)
      split
      · trivial
      · split <;> trivial
    · split
      · trivial
      · trivial
      · exact ih _ _ (hl.1 _ h)

theorem symbol (b : Bindings) {K : Known N Sl} {d : Nat} {n : N} (h : K.nodes n) : Confined K (b.parseSymbolE d n str) := by
  refine bind (termLoop b _ _ _ h) (fun r K' hl => ?_)
  split
  · trivial
  · trivial
  · refine bind (trav b (fun K' d n s _ h => ?_) (some_known (hl.1 _ h))) (fun r K'' hl2 => ?_)
    · exact bind (span h) fun _ _ _ => trivial
    · split
      · trivial
      · exact bind (span (hl2.1 _ (hl.1 _ h))) fun _ _ _ => trivial

theorem sequence (b : Bindings) {K : Known N Sl} {d : Nat} {n : N} (h : K.nodes n) : Confined K (b.parseSequenceE d n str) := by
  refine bind (trav b (fun K' d n s _ h => ?_) (some_known h)) (fun r _ _ => ?_)
  · refine bind (symbol b h) (fun r _ _ => ?_)
    split <;> trivial
  · split <;> trivial

theorem substitution (b : Bindings) {K : Known N Sl} {d : Nat} {n : N} (h : K.nodes n) :
    Confined K (b.parseSubstitutionE d n str) := by
  refine bind (trav b (fun K' d n s _ h => ?_) (some_known h)) (fun r _ _ => ?_)
  · refine bind (sequence b h) (fun r _ _ => ?_)
    split <;> trivial
  · split <;> trivial

theorem rule (b : Bindings) {K : Known N Sl} {d : Nat} {n : N} (h : K.nodes n) : Confined K (b.parseRuleE d n str) := by
  refine bind (trav b (fun K' d n s _ h => ?_) (some_known h)) (fun r K' hl => ?_)
  · exact bind (span h) fun _ _ _ => trivial
  · have h := hl.1 _ h
    split
    · refine bind (trav b (fun K' d n s _ h => ?_) (some_known h)) (fun r K'' hl2 => ?_)
      · refine bind (substitution b h) (fun r _ _ => ?_)
        split <;> trivial
      · split
        · trivial
        · exact bind (span (hl2.1 _ h)) fun _ _ _ => trivial
        · trivial
    · exact bind (span h) fun _ _ _ => trivial

theorem toAST (b : Bindings) {K : Known N Sl} {d : Nat} {x : Option N} (h : ∀ n, x = some n → K.nodes n) :
    Confined K (b.toASTE d x str) := by
  unfold Bindings.toASTE Bindings.toASTBodyE
  refine bind (trav _ (fun K' d n s _ h => ?_) h) (fun r _ _ => ?_)
  · refine bind (rule _ h) (fun r _ _ => ?_)
    split <;> trivial
  · split <;> trivial

end Confined

end FC
end LL1
