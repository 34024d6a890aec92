import Verif.Spec.Hang
import Verif.Proofs.ParserMore
import Verif.Proofs.ParserTop
import Verif.Proofs.Language
import Mathlib.Data.List.Perm.Subperm

/-!
# When `Parse` never returns
-/

namespace LL1

/-! ## Chains -/

theorem Steps.trans {α : Type} {r : α → α → Prop} {x y z : α} (h : Steps r x y) (h' : Steps r y z) : Steps r x z := by
  induction h' with
  | refl => exact h
  | step _ h2 ih => exact .step ih h2

theorem Steps.head {α : Type} {r : α → α → Prop} {x y z : α} (h : r x y) (h' : Steps r y z) : Steps r x z :=
  Steps.trans (.step .refl h) h'

/-- No descent: not accessible means an infinite chain. -/
theorem chain_of_not_acc {α : Type} {r : α → α → Prop} {x : α} (h : ¬ Acc (fun y x => r x y) x) :
    ∃ f : Nat → α, f 0 = x ∧ ∀ k, r (f k) (f (k + 1)) := by
  classical
  have next : ∀ z : {z : α // ¬ Acc (fun y x => r x y) z}, ∃ y : {z : α // ¬ Acc (fun y x => r x y) z}, r z.1 y.1 := by
    rintro ⟨z, hz⟩
    apply Classical.byContradiction
    intro hn
    refine hz ⟨_, fun y hy => ?_⟩
    apply Classical.byContradiction
    intro hy'
    exact hn ⟨⟨y, hy'⟩, hy⟩
  let g : Nat → {z : α // ¬ Acc (fun y x => r x y) z} := fun k =>
    Nat.rec ⟨x, h⟩ (fun _ z => Classical.choose (next z)) k
  exact ⟨fun k => (g k).1, rfl, fun k => Classical.choose_spec (next (g k))⟩

theorem not_acc_of_chain {α : Type} {r : α → α → Prop} {x : α} (h : Acc (fun y x => r x y) x) :
    ∀ f : Nat → α, f 0 = x → ¬ ∀ k, r (f k) (f (k + 1)) := by
  induction h with
  | intro x _ ih =>
    intro f h0 hf
    refine ih (f 1) (by have := hf 0; rw [h0] at this; exact this) (fun k => f (k + 1)) rfl (fun k => hf (k + 1))

/-! ## Derivations and chains -/

section
variable {tbl : Table} {names : Option Names} {src : Str}

/-- Everything a complete derivation enters comes to an end. -/
theorem Derives.acc {ops : List ParserOp} {i j : Nat} {cs : List Node} (h : Derives tbl src ops i j cs) :
    ∀ pre m post k ds, ops = pre ++ .nonTerminal m :: post → Derives tbl src pre i k ds →
      Acc (fun y x => Enters tbl src x y) (m, k) := by
  induction h with
  | nil i => intro pre m post k ds h _; cases pre <;> cases h
  | @lit s ops i j cs hl hd ih =>
    intro pre m post k ds h hp
    cases pre with
    | nil => cases h
    | cons op pre =>
      cases h
      cases hp with
      | lit _ hp => exact ih pre m post k _ rfl hp
  | @nt n body ops i j k' cs ds' hb hd1 hd2 ih1 ih2 =>
    intro pre m post k ds h hp
    cases pre with
    | nil =>
      cases h
      cases hp
      refine ⟨_, ?_⟩
      rintro ⟨m', k2⟩ ⟨pre', post', es, hb', hp'⟩
      rw [hb] at hb'
      cases hb'
      exact ih1 pre' m' post' k2 es rfl hp'
    | cons op pre =>
      cases h
      cases hp with
      | nt hb' hp1 hp2 =>
        rw [hb] at hb'
        cases hb'
        obtain ⟨rfl, _⟩ := hp1.det hd1
        exact ih2 pre m post k _ rfl hp2

/-- The same for a derivation that gets stuck. -/
theorem FailsAt.acc {ops : List ParserOp} {i k : Nat} {e : PErr} (h : FailsAt tbl names src ops i k e) :
    ∀ pre m post k ds, ops = pre ++ .nonTerminal m :: post → Derives tbl src pre i k ds →
      Acc (fun y x => Enters tbl src x y) (m, k) := by
  induction h with
  | @lit s ops i k c h1 h2 h3 =>
    intro pre m post k' ds h hp
    cases pre with
    | nil => cases h
    | cons op pre =>
      cases h
      cases hp with
      | lit hl _ =>
        have hk : k < s.length := by
          rcases Nat.lt_or_ge k s.length with h | h
          · exact h
          · rw [List.getElem?_eq_none h] at h2; cases h2
        have := hl k hk
        rw [h2] at this
        exact (h3 (by simpa using this)).elim
  | @afterLit s ops i k e hl hd ih =>
    intro pre m post k ds h hp
    cases pre with
    | nil => cases h
    | cons op pre =>
      cases h
      cases hp with
      | lit _ hp => exact ih pre m post k _ rfl hp
  | @noBody n ops i hb =>
    intro pre m post k ds h hp
    cases pre with
    | nil =>
      cases h
      cases hp
      refine ⟨_, ?_⟩
      rintro ⟨m', k2⟩ ⟨pre', post', es, hb', hp'⟩
      rw [hb] at hb'
      cases hb'
    | cons op pre =>
      cases h
      cases hp with
      | nt hb' hp1 hp2 => rw [hb] at hb'; cases hb'
  | @inside n body ops i k e hb hf ih =>
    intro pre m post k' ds h hp
    cases pre with
    | nil =>
      cases h
      cases hp
      refine ⟨_, ?_⟩
      rintro ⟨m', k2⟩ ⟨pre', post', es, hb', hp'⟩
      rw [hb] at hb'
      cases hb'
      exact ih pre' m' post' k2 es rfl hp'
    | cons op pre =>
      cases h
      cases hp with
      | nt hb' hp1 hp2 =>
        rw [hb] at hb'
        cases hb'
        exact (hp1.not_failsAt hf).elim
  | @afterNt n body ops i j k cs e hb hd hf ih =>
    intro pre m post k' ds h hp
    cases pre with
    | nil =>
      cases h
      cases hp
      refine ⟨_, ?_⟩
      rintro ⟨m', k2⟩ ⟨pre', post', es, hb', hp'⟩
      rw [hb] at hb'
      cases hb'
      exact hd.acc pre' m' post' k2 es rfl hp'
    | cons op pre =>
      cases h
      cases hp with
      | nt hb' hp1 hp2 =>
        rw [hb] at hb'
        cases hb'
        obtain ⟨rfl, _⟩ := hp1.det hd
        exact ih pre m post k' _ rfl hp2

theorem bodyFor_public (hpub : tbl.Public) {n : Int} {b : UInt8} {body : List ParserOp}
    (hb : bodyFor tbl n b = some body) : ∀ op ∈ body, op.Public := by
  simp only [bodyFor] at hb
  split at hb
  · cases hr : tbl.get n with
    | none => simp [hr] at hb
    | some row =>
      simp only [hr, Option.bind_some] at hb
      exact hpub n row _ body hr hb
  · split at hb
    · split at hb
      · cases hb; simp [ParserOp.Public]
      · split at hb
        · cases hb; simp [ParserOp.Public]
        · simp at hb
    · simp at hb

theorem Derives.append_iff' {xs ys : List ParserOp} {i j k : Nat} {cs ds : List Node} (h : Derives tbl src xs i j cs)
    (h' : Derives tbl src ys j k ds) : Derives tbl src (xs ++ ys) i k (cs ++ ds) := by
  induction h with
  | nil => exact h'
  | lit hl _ ih => exact .lit hl (ih h')
  | nt hb h1 _ _ ih => exact .nt hb h1 (ih h')

theorem FailsAt.append {xs ys : List ParserOp} {i j k : Nat} {cs : List Node} {e : PErr} (h : Derives tbl src xs i j cs)
    (h' : FailsAt tbl names src ys j k e) : FailsAt tbl names src (xs ++ ys) i k e := by
  induction h with
  | nil => exact h'
  | lit hl _ ih => exact .afterLit hl (ih h')
  | nt hb h1 _ _ ih => exact .afterNt hb h1 (ih h')

/-- Without infinite chains every derivation completes or gets stuck. -/
theorem ends_of_acc (hpub : tbl.Public) {x : Int × Nat} (h : Acc (fun y x => Enters tbl src x y) x) :
    (∃ j cs, Derives tbl src [.nonTerminal x.1] x.2 j cs) ∨ (∃ k e, FailsAt tbl names src [.nonTerminal x.1] x.2 k e) := by
  induction h with
  | intro x _ ih =>
    obtain ⟨n, i⟩ := x
    cases hb : bodyFor tbl n (byteAt src i) with
    | none => exact .inr ⟨_, _, .noBody hb⟩
    | some body =>
      suffices hs : ∀ rest pre k cs, body = pre ++ rest → Derives tbl src pre i k cs →
          (∃ j ds, Derives tbl src rest k j ds) ∨ (∃ l e, FailsAt tbl names src rest k l e) by
        rcases hs body [] i [] rfl (.nil i) with ⟨j, ds, hd⟩ | ⟨l, e, hf⟩
        · exact .inl ⟨_, _, .nt hb hd (.nil _)⟩
        · exact .inr ⟨_, _, .inside hb hf⟩
      intro rest
      induction rest with
      | nil => intro pre k cs _ _; exact .inl ⟨_, _, .nil _⟩
      | cons op rest ihr =>
        intro pre k cs he hp
        have hop : op.Public := bodyFor_public hpub hb op (by rw [he]; simp)
        have he' : body = (pre ++ [op]) ++ rest := by rw [he]; simp
        cases op with
        | terminal s =>
          by_cases hl : LitAt src s k
          · rcases ihr (pre ++ [.terminal s]) (k + s.length) _ he' (hp.append_iff' (.lit hl (.nil _))) with
              ⟨j, ds, hd⟩ | ⟨l, e, hf⟩
            · exact .inl ⟨_, _, .lit hl hd⟩
            · exact .inr ⟨_, _, .afterLit hl hf⟩
          · obtain ⟨l, c, h1, h2, h3⟩ := first_mismatch s k hl
            exact .inr ⟨_, _, .lit h1 h2 h3⟩
        | nonTerminal m =>
          rcases ih (m, k) ⟨pre, rest, cs, by rw [hb, he], hp⟩ with ⟨j, ds, hd⟩ | ⟨l, e, hf⟩
          · cases hd with
            | nt hb1 hd1 hd2 =>
              cases hd2
              rcases ihr (pre ++ [.nonTerminal m]) j _ he' (hp.append_iff' (.nt hb1 hd1 (.nil _))) with
                ⟨j', ds, hd⟩ | ⟨l, e, hf⟩
              · exact .inl ⟨_, _, .nt hb1 hd1 hd⟩
              · exact .inr ⟨_, _, .afterNt hb1 hd1 hf⟩
          · cases hf with
            | noBody hb1 => exact .inr ⟨_, _, .noBody hb1⟩
            | inside hb1 hf1 => exact .inr ⟨_, _, .inside hb1 hf1⟩
            | afterNt _ _ hf1 => cases hf1
        | _ => exact hop.elim

end

theorem diverges_iff_not_acc {p : Parser} (he : p.table.HasEntry) (hpub : p.table.Public) {src : Source}
    {text : Str} (hr : readSource src = .ok text) :
    p.Diverges src ↔ ¬ Acc (fun y x => Enters p.table text x y) (0, 0) := by
  rw [diverges_iff' he hpub hr]
  constructor
  · rintro ⟨h1, h2⟩ ha
    rcases ends_of_acc (names := p.names) hpub ha with ⟨j, cs, hd⟩ | ⟨k, e, hf⟩
    · obtain ⟨t, rfl⟩ : ∃ t, cs = [t] := by
        cases hd with
        | nt _ _ h => cases h; exact ⟨_, rfl⟩
      by_cases h0 : byteAt text j = 0
      · exact h1 t ⟨j, hd, h0⟩
      · exact h2 j _ (.inr ⟨t, hd, h0, rfl⟩)
    · exact h2 k e (.inl hf)
  · intro hn
    refine ⟨?_, ?_⟩
    · rintro t ⟨j, hd, _⟩
      exact hn (hd.acc [] 0 [] 0 [] rfl (.nil _))
    · rintro k e (hf | ⟨t, hd, _⟩)
      · exact hn (hf.acc [] 0 [] 0 [] rfl (.nil _))
      · exact hn (hd.acc [] 0 [] 0 [] rfl (.nil _))

/-! ## Loops -/

theorem steps_of_chain {α : Type} {r : α → α → Prop} {f : Nat → α} (hf : ∀ k, r (f k) (f (k + 1))) (a n : Nat) :
    Steps r (f a) (f (a + n)) := by
  induction n with
  | zero => exact .refl
  | succ n ih => exact .step ih (hf _)

/-- A chain that stays in a list of values comes back to one of them. -/
theorem loop_of_chain {α : Type} {r : α → α → Prop} {f : Nat → α} (hf : ∀ k, r (f k) (f (k + 1)))
    (L : List α) (hL : ∀ k, f k ∈ L) : ∃ x, Steps r (f 0) x ∧ Steps1 r x x := by
  have : ∃ a b, a < b ∧ f a = f b := by
    apply Classical.byContradiction
    intro hn
    have inj : ∀ a b, f a = f b → a = b := by
      intro a b h
      rcases Nat.lt_trichotomy a b with h' | h' | h'
      · exact (hn ⟨a, b, h', h⟩).elim
      · exact h'
      · exact (hn ⟨b, a, h', h.symm⟩).elim
    have hnd : ((List.range (L.length + 1)).map f).Nodup := by
      rw [List.nodup_iff_pairwise_ne, List.pairwise_map]
      exact (List.nodup_iff_pairwise_ne.1 List.nodup_range).imp (fun h h' => h (inj _ _ h'))
    have hs : (List.range (L.length + 1)).map f ⊆ L := by
      intro x hx
      obtain ⟨k, _, rfl⟩ := List.mem_map.1 hx
      exact hL k
    have := (List.subperm_of_subset hnd hs).length_le
    simp at this
    omega
  obtain ⟨a, b, hab, he⟩ := this
  refine ⟨f a, by simpa using steps_of_chain hf 0 a, f (b - 1), ?_, ?_⟩
  · have := steps_of_chain hf a (b - 1 - a)
    rwa [show a + (b - 1 - a) = b - 1 by omega] at this
  · have := hf (b - 1)
    rw [show b - 1 + 1 = b by omega, ← he] at this
    exact this

theorem not_acc_of_loop {α : Type} {r : α → α → Prop} {x : α} (h : Steps1 r x x) : ¬ Acc (fun y x => r x y) x := by
  suffices hs : ∀ z, Acc (fun y x => r x y) z → ∀ x, Steps r z x → ¬ Steps1 r x x from fun ha => hs x ha x .refl h
  intro z hz
  induction hz with
  | intro z _ ih =>
    intro x hx ⟨y, h1, h2⟩
    have key : ∀ w, r z w → Steps r w x → False := fun w hw hwx => ih w hw x hwx ⟨y, h1, h2⟩
    have split : ∀ {u v : α}, Steps r u v → u = v ∨ ∃ w, r u w ∧ Steps r w v := by
      intro u v h
      induction h with
      | refl => exact .inl rfl
      | @step v' w' h1 h2 ih =>
        rcases ih with rfl | ⟨w, h3, h4⟩
        · exact .inr ⟨_, h2, .refl⟩
        · exact .inr ⟨w, h3, .step h4 h2⟩
    rcases split hx with rfl | ⟨w, hw, hwx⟩
    · rcases split h1 with rfl | ⟨w, hw, hwy⟩
      · exact key _ h2 .refl
      · exact key w hw (.step hwy h2)
    · exact key w hw hwx

theorem acc_steps {α : Type} {r : α → α → Prop} {x y : α} (h : Acc (fun y x => r x y) x) (hs : Steps r x y) :
    Acc (fun y x => r x y) y := by
  induction hs with
  | refl => exact h
  | step _ h2 ih => exact ih.inv h2

/-! ## Grammars -/

/-- What stands first in the operations of an alternative that can begin with `b`. -/
theorem firstOps {g : Grammar} {syms : List Symbol} {b : UInt8} (hF : First g syms b) (hb0 : b ≠ 0) :
    ∀ {ops : List ParserOp}, AllPairs (OpOf g) syms ops → ∀ (P : List ParserOp) (m : Int) (post : List ParserOp)
      (rest : List ParserOp), ops ++ rest = P ++ .nonTerminal m :: post →
      (∃ op ∈ P, SureOp (SureFirst g) b op) ∨
      ∃ (pre : List Symbol) (name : Str) (post' : List Symbol) (k : Nat), syms = pre ++ .nonTerminal name :: post' ∧ Nullable g pre ∧
        g.Refers name k ∧ m = k := by
  induction hF with
  | @terminal b t r =>
    intro ops ho P m post rest he
    cases ho with
    | @cons _ op _ ops hx ho =>
      cases (hx : _ = _)
      cases P with
      | nil => cases he
      | cons op P =>
        simp only [List.cons_append, List.cons.injEq] at he
        obtain ⟨rfl, _⟩ := he
        exact .inl ⟨_, List.mem_cons_self, by simp, fun h => (hb0 h).elim⟩
  | @head name i alt r b hr ha hf _ =>
    intro ops ho P m post rest he
    cases ho with
    | @cons _ op _ ops hx ho =>
      obtain ⟨i', hr', h'⟩ := hx
      cases h'
      have : i' = i := hr'.det hr
      subst this
      cases P with
      | nil =>
        cases he
        exact .inr ⟨[], name, r, i', rfl, .nil, hr, rfl⟩
      | cons op P =>
        simp only [List.cons_append, List.cons.injEq] at he
        obtain ⟨rfl, _⟩ := he
        exact .inl ⟨_, List.mem_cons_self, i', rfl, alt, ha, hf⟩
  | @skip x r b hn hf ih =>
    intro ops ho P m post rest he
    cases ho with
    | @cons _ op _ ops hx ho =>
      cases P with
      | nil =>
        cases he
        cases x with
        | terminal t => cases (hx : _ = _)
        | nothing => exact (hx : False).elim
        | nonTerminal name =>
          obtain ⟨k, hr, h'⟩ := hx
          cases h'
          exact .inr ⟨[], name, r, k, rfl, .nil, hr, rfl⟩
      | cons op' P =>
        simp only [List.cons_append, List.cons.injEq] at he
        rcases ih hb0 ho P m post rest he.2 with ⟨op'', h1, h2⟩ | ⟨pre, name, post', k, h1, h2, h3⟩
        · exact .inl ⟨op'', List.mem_cons_of_mem _ h1, h2⟩
        · refine .inr ⟨x :: pre, name, post', k, by rw [h1]; rfl, ?_, h3⟩
          exact Nullable.append (xs := [x]) hn h2

theorem firstOps_sure {g : Grammar} {syms : List Symbol} {b : UInt8} (hF : First g syms b) (hb0 : b ≠ 0) :
    ∀ {ops : List ParserOp}, AllPairs (OpOf g) syms ops → ∃ op ∈ ops, SureOp (SureFirst g) b op := by
  induction hF with
  | @terminal b t r =>
    intro ops ho
    cases ho with
    | @cons _ op _ ops hx ho =>
      cases (hx : _ = _)
      exact ⟨_, List.mem_cons_self, by simp, fun h => (hb0 h).elim⟩
  | @head name i alt r b hr ha hf _ =>
    intro ops ho
    cases ho with
    | @cons _ op _ ops hx ho =>
      obtain ⟨i', hr', h'⟩ := hx
      cases h'
      have : i' = i := hr'.det hr
      subst this
      exact ⟨_, List.mem_cons_self, i', rfl, alt, ha, hf⟩
  | @skip x r b hn hf ih =>
    intro ops ho
    cases ho with
    | @cons _ op _ ops hx ho =>
      obtain ⟨op', h1, h2⟩ := ih hb0 ho
      exact ⟨op', List.mem_cons_of_mem _ h1, h2⟩

section
variable {g : Grammar} {tbl : Table}

theorem predicted_corner (hz : g.NulStartFree) {i : Nat} {b : UInt8} {alts : List Sequence} {body : List ParserOp}
    (h : Predicted g b alts body) (ha : ∀ alt ∈ alts, g.Alt i alt) :
    (∀ (P : List ParserOp) (m : Int) (post : List ParserOp), body = P ++ .nonTerminal m :: post →
      (∃ op ∈ P, SureOp (SureFirst g) b op) ∨ ∃ k : Nat, m = k ∧ LeftCorner g i k) ∧
    ((∃ alt ∈ alts, First g alt.symbols b) → ∃ op ∈ body, SureOp (SureFirst g) b op) := by
  induction h with
  | nil => exact ⟨fun P m post h => (by cases P <;> cases h), fun ⟨_, h, _⟩ => (by cases h)⟩
  | @take alt alts ops rest hf ho _ ih =>
    have halt := ha alt List.mem_cons_self
    have hb0 := TG.first_ne_zero ((TG.rfirst_alt hz halt b).2 hf)
    refine ⟨fun P m post he => ?_, fun _ => ?_⟩
    · rcases firstOps hf hb0 ho P m post rest he with h | ⟨pre, name, post', k, h1, h2, h3, h4⟩
      · exact .inl h
      · exact .inr ⟨k, h4, alt, pre, name, post', halt, h1, h2, h3⟩
    · obtain ⟨op, h1, h2⟩ := firstOps_sure hf hb0 ho
      exact ⟨op, List.mem_append_left _ h1, h2⟩
  | @skip alt alts rest hn _ ih =>
    obtain ⟨h1, h2⟩ := ih (fun a h => ha a (List.mem_cons_of_mem _ h))
    refine ⟨h1, ?_⟩
    rintro ⟨a, h, hf⟩
    rcases List.mem_cons.1 h with rfl | h
    · exact (hn hf).elim
    · exact h2 ⟨a, h, hf⟩

/-- Cells of a generated table: what comes before the first operation that certainly consumes is a left corner. -/
theorem cell_corner (hz : g.NulStartFree) (h : TG.TableOk g tbl) (hcl : tbl.Closed g.rules.length) {n : Int} {b : UInt8}
    {body : List ParserOp} (hb : bodyFor tbl n b = some body) :
    (∀ (P : List ParserOp) (m : Int) (post : List ParserOp), body = P ++ .nonTerminal m :: post →
      (∃ op ∈ P, SureOp (SureFirst g) b op) ∨ ∃ i k : Nat, n = i ∧ m = k ∧ LeftCorner g i k) ∧
    (SureFirst g n b → ∃ op ∈ body, SureOp (SureFirst g) b op) := by
  by_cases hn : ∃ i : Nat, i < g.rules.length ∧ n = i
  · obtain ⟨i, hi, rfl⟩ := hn
    obtain ⟨r, hr⟩ : ∃ r, g.rules[i]? = some r := ⟨_, List.getElem?_eq_getElem hi⟩
    obtain ⟨h1, h2⟩ := predicted_corner hz ((h.cell hr b).2 body hb) (i := i) (fun alt ha => ⟨r, hr, ha⟩)
    refine ⟨fun P m post he => ?_, ?_⟩
    · rcases h1 P m post he with h | ⟨k, h3, h4⟩
      · exact .inl h
      · exact .inr ⟨i, k, rfl, h3, h4⟩
    · rintro ⟨k, hk, alt, ⟨r', hr', ha⟩, hf⟩
      have : k = i := by omega
      subst this
      rw [hr] at hr'
      cases hr'
      exact h2 ⟨alt, ha, hf⟩
  · have ht : ∀ op ∈ body, ∃ s, op = .terminal s := by
      unfold bodyFor at hb
      split at hb
      · cases hg : tbl.get n with
        | none => simp [hg] at hb
        | some row => exact (hn ((hcl.rows n).1 ⟨row, hg⟩)).elim
      · split at hb
        · split at hb
          · cases hb; simp
          · split at hb
            · cases hb; simp
            · simp at hb
        · simp at hb
    refine ⟨fun P m post he => ?_, ?_⟩
    · obtain ⟨s, hs⟩ := ht (.nonTerminal m) (by rw [he]; simp)
      cases hs
    · rintro ⟨k, hk, alt, ha, _⟩
      exact (hn ⟨k, ha.lt, hk⟩).elim

/-- Entering a row without moving on is taking a left corner. -/
theorem enters_same (hz : g.NulStartFree) (h : TG.TableOk g tbl) (hcl : tbl.Closed g.rules.length) {src : Str} {n m : Int}
    {i : Nat} (he : Enters tbl src (n, i) (m, i)) : ∃ a k : Nat, n = a ∧ m = k ∧ LeftCorner g a k := by
  obtain ⟨pre, post, cs, hb, hd⟩ := he
  rcases (cell_corner hz h hcl hb).1 pre m post rfl with hs | hs
  · have := sure_consumes (fun n b body hs hb => (cell_corner hz h hcl hb).2 hs) hd hs
    simp at this
  · exact hs

theorem Enters.le {src : Str} {x y : Int × Nat} (h : Enters tbl src x y) : x.2 ≤ y.2 := by
  obtain ⟨_, _, _, _, hd⟩ := h
  exact hd.le

theorem steps_le {src : Str} {x y : Int × Nat} (h : Steps (Enters tbl src) x y) : x.2 ≤ y.2 := by
  induction h with
  | refl => exact Nat.le_refl _
  | step _ h2 ih => exact Nat.le_trans ih h2.le

/-- Rules referred to. -/
theorem enters_refs {order : List (Str × Nat) → List (Str × Nat)} {names : Names} (h : fromGrammar order g = .ok (tbl, names)) {src : Str} {n m : Int}
    {i j : Nat} (he : Enters tbl src (n, i) (m, j)) :
    ∃ (a k : Nat) (alt : Sequence) (name : Str), n = a ∧ m = k ∧ g.Alt a alt ∧ .nonTerminal name ∈ alt.symbols ∧ g.Refers name k := by
  obtain ⟨pre, post, cs, hb, _⟩ := he
  have hcl := fromGrammar_closedTable h
  obtain ⟨_, _, h3⟩ := TG.fromGrammar_closed h
  unfold bodyFor at hb
  split at hb
  · cases hg : tbl.get n with
    | none => simp [hg] at hb
    | some row =>
      simp only [hg, Option.bind_some] at hb
      obtain ⟨alt, x, ⟨a, rfl, ha⟩, hx, ho⟩ := h3 n row _ _ hg hb (.nonTerminal m) (by simp)
      cases x with
      | terminal t => cases (ho : _ = _)
      | nothing => exact (ho : False).elim
      | nonTerminal name =>
        obtain ⟨k, hr, hk⟩ := ho
        cases hk
        exact ⟨a, k, alt, name, rfl, rfl, ha, hx, hr⟩
  · split at hb
    · split at hb
      · cases pre with
        | nil => cases hb
        | cons op pre => cases pre <;> cases hb
      · split at hb
        · cases pre with
          | nil => cases hb
          | cons op pre =>
            cases pre with
            | nil => cases hb
            | cons op' pre => cases pre <;> cases hb
        · cases hb
    · cases hb

end

/-! ## Ranks -/

theorem countP_lt {α : Type} {p q : α → Bool} {L : List α} (h : ∀ x ∈ L, p x = true → q x = true)
    {x : α} (hx : x ∈ L) (hq : q x = true) (hp : p x = false) : L.countP p < L.countP q := by
  induction L with
  | nil => cases hx
  | cons y L ih =>
    have hle : L.countP p ≤ L.countP q := List.countP_mono_left (fun z hz => h z (List.mem_cons_of_mem _ hz))
    rw [List.countP_cons, List.countP_cons]
    rcases List.mem_cons.1 hx with rfl | hx
    · simp [hq, hp]; omega
    · have := ih (fun z hz => h z (List.mem_cons_of_mem _ hz)) hx
      have hy := h y List.mem_cons_self
      by_cases hpy : p y = true
      · simp [hpy, hy hpy]; omega
      · simp [hpy]; omega

/-- A relation on numbers below `n` without loops goes down in some rank. -/
theorem rank_of_acyclic {r : Nat → Nat → Prop} {n : Nat} (hn : ∀ i k, r i k → k < n) (hl : ∀ i, ¬ Steps1 r i i) :
    ∃ rank : Nat → Nat, ∀ i k, r i k → rank k < rank i := by
  classical
  refine ⟨fun i => (List.range n).countP (fun k => decide (Steps1 r i k)), fun i k h => ?_⟩
  refine countP_lt (x := k) ?_ (List.mem_range.2 (hn i k h)) (decide_eq_true ⟨i, .refl, h⟩) (decide_eq_false (hl k))
  intro x _ hx
  have := of_decide_eq_true hx
  obtain ⟨y, h1, h2⟩ := this
  exact decide_eq_true ⟨y, .head h h1, h2⟩

theorem rankBelow_of {Sure : Int → UInt8 → Prop} {rank : Int → UInt8 → Nat} {b : UInt8} {r : Nat} {ops : List ParserOp}
    (h : ∀ (P : List ParserOp) (m : Int) (post : List ParserOp), ops = P ++ .nonTerminal m :: post →
      (∃ op ∈ P, SureOp Sure b op) ∨ rank m b < r) : RankBelow Sure rank b r ops := by
  induction ops with
  | nil => trivial
  | cons op ops ih =>
    refine ⟨?_, ?_⟩
    · cases op with
      | nonTerminal m =>
        rcases h [] m ops rfl with ⟨_, h, _⟩ | h
        · cases h
        · exact h
      | _ => trivial
    · by_cases hs : SureOp Sure b op
      · exact .inl hs
      · refine .inr (ih fun P m post he => ?_)
        rcases h (op :: P) m post (by rw [he]; rfl) with ⟨op', h1, h2⟩ | h
        · rcases List.mem_cons.1 h1 with rfl | h1
          · exact (hs h2).elim
          · exact .inl ⟨op', h1, h2⟩
        · exact .inr h

theorem leftCorner_lt {g : Grammar} {i k : Nat} (h : LeftCorner g i k) : k < g.rules.length := by
  obtain ⟨_, _, _, _, _, _, _, hr⟩ := h
  exact hr.lt

end LL1
