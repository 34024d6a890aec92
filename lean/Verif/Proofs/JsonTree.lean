import Verif.Proofs.JsonSentence
import Verif.Props.Language
import Verif.Model.Examples

/-!
# What the key-printing visitor writes for the tree of a JSON text
-/

namespace LL1
namespace JsonTree
open Golden JsonLex Prog

variable {text : Str}

/-! ## Trees -/

/-- The text a node spans. -/
abbrev sl (text : Str) (n : Node) : Str := slice text n.pos n.stop

/-- What is known about one node of a returned tree. -/
structure Local (text : Str) (n : Node) : Prop where
  le : n.pos ≤ n.stop
  bound : n.stop ≤ text.length
  tiles : n.childs ≠ [] → Tiles n.pos n.childs n.stop
  rule : 0 ≤ n.type → ∃ i : Nat, n.type = i ∧ i < jsonGrammar.rules.length ∧
      GenRule jsonGrammar i (sl text n) ∧
      ((∃ alt, jsonGrammar.Alt i alt ∧ First jsonGrammar alt.symbols (byteAt text n.pos) ∧
          AllPairs (Shows jsonGrammar text) alt.symbols n.childs) ∨
       (GenRule jsonGrammar i [] ∧ n.stop = n.pos ∧ n.childs = [.mk (-2) n.pos n.pos []]))

/-- The same for all nodes below. -/
def Good (text : Str) (n : Node) : Prop := ∀ m ∈ preorder n, Local text m

theorem Good.self {n : Node} (h : Good text n) : Local text n :=
  h n (by cases n; rw [preorder]; simp)

theorem Good.child {n c : Node} (h : Good text n) (hc : c ∈ n.childs) : Good text c := by
  intro m hm
  refine h m ?_
  cases n with
  | mk t s e cs =>
    rw [preorder]
    simp only [Node.childs_mk] at hc
    exact List.mem_cons_of_mem _ (List.mem_flatten.2 ⟨_, List.mem_map.2 ⟨c, hc, rfl⟩, hm⟩)

theorem tree_ind {P : Node → Prop} (h : ∀ n : Node, (∀ c ∈ n.childs, P c) → P n) : ∀ n, P n
  | .mk t s e cs => h _ fun c hc => by
    simp only [Node.childs_mk] at hc
    have := List.sizeOf_lt_of_mem hc
    exact tree_ind h c
termination_by n => sizeOf n
decreasing_by simp; omega

theorem tiles_le {i j : Nat} {cs : List Node} (h : Tiles i cs j) (hl : ∀ c ∈ cs, c.pos ≤ c.stop) : i ≤ j := by
  induction cs generalizing i with
  | nil => exact Nat.le_of_eq h
  | cons c cs ih =>
    obtain ⟨rfl, h⟩ := h
    exact Nat.le_trans (hl c (by simp)) (ih h fun d hd => hl d (by simp [hd]))

theorem slice_tiles {i j : Nat} {cs : List Node} (h : Tiles i cs j) (hl : ∀ c ∈ cs, c.pos ≤ c.stop) :
    slice text i j = (cs.map (sl text)).flatten := by
  induction cs generalizing i with
  | nil => cases h; simp [slice_self]
  | cons c cs ih =>
    obtain ⟨rfl, h⟩ := h
    have hl' : ∀ d ∈ cs, d.pos ≤ d.stop := fun d hd => hl d (by simp [hd])
    rw [← slice_append text (hl c (by simp)) (tiles_le h hl'), ih h hl']
    simp

theorem Good.slice {n : Node} (h : Good text n) (h0 : n.childs ≠ []) :
    sl text n = (n.childs.map (sl text)).flatten :=
  slice_tiles (h.self.tiles h0) fun c hc => (h.child hc).self.le

theorem allPairs_nil {α β : Type} {R : α → β → Prop} {bs : List β} : AllPairs R [] bs ↔ bs = [] :=
  ⟨fun h => by cases h; rfl, fun h => by subst h; exact .nil⟩

theorem allPairs_cons {α β : Type} {R : α → β → Prop} {a : α} {as : List α} {bs : List β} :
    AllPairs R (a :: as) bs ↔ ∃ b bs', bs = b :: bs' ∧ R a b ∧ AllPairs R as bs' := by
  constructor
  · intro h; cases h with | cons h1 h2 => exact ⟨_, _, rfl, h1, h2⟩
  · rintro ⟨b, bs', rfl, h1, h2⟩; exact .cons h1 h2

/-- A child that shows a literal. -/
abbrev Lit (text : Str) (t : Str) (c : Node) : Prop := c.type = -1 ∧ sl text c = t ∧ c.childs = []

theorem shows_nt (i : Nat) {name : Str} (hi : isHead i name = true) {c : Node}
    (h : Shows jsonGrammar text (.nonTerminal name) c) : c.type = i := by
  obtain ⟨j, hj, hc⟩ := h
  rw [hc, json_heads j i _ hj.1 (head_of hi)]

theorem shows_lit {t : Str} (h0 : t ≠ []) {c : Node} (h : Shows jsonGrammar text (.terminal t) c) :
    Lit text t c := ⟨h.1, h.2.1, h.2.2 h0⟩

/-- A node of a rule that is not nullable shows one of its alternatives. -/
theorem Good.alt {n : Node} (h : Good text n) (i : Nat) (hi : n.type = i) (hn : jsonCert.isNull i = false) :
    ∃ alt ∈ altsOf i, AllPairs (Shows jsonGrammar text) alt.symbols n.childs := by
  obtain ⟨j, hj, _, _, hr⟩ := h.self.rule (by omega)
  have : j = i := by omega
  subst this
  rcases hr with ⟨alt, ha, _, hs⟩ | ⟨h0, _⟩
  · exact ⟨alt, alt_iff.1 ha, hs⟩
  · exact (json_not_null hn h0).elim

/-- A node of a nullable rule shows an alternative that is not the empty one, or is empty. -/
theorem Good.optAlt {n : Node} (h : Good text n) (i : Nat) (hi : n.type = i) :
    (∃ alt ∈ altsOf i, alt.symbols ≠ [.nothing] ∧ AllPairs (Shows jsonGrammar text) alt.symbols n.childs) ∨
    (sl text n = [] ∧ ∃ p, n.childs = [.mk (-2) p p []]) := by
  obtain ⟨j, hj, _, _, hr⟩ := h.self.rule (by omega)
  have : j = i := by omega
  subst this
  rcases hr with ⟨alt, ha, hf, hs⟩ | ⟨_, he, hc⟩
  · refine .inl ⟨alt, alt_iff.1 ha, ?_, hs⟩
    intro h
    rw [h] at hf
    cases hf with
    | skip _ h => cases h
  · refine .inr ⟨?_, n.pos, hc⟩
    simp [sl, he, slice_self]

theorem Good.gen {n : Node} (h : Good text n) (i : Nat) (hi : n.type = i) : JsonLex.R i (sl text n) := by
  obtain ⟨j, hj, _, hg, _⟩ := h.self.rule (by omega)
  have : j = i := by omega
  subst this
  exact hg

/-! ## Printing -/

/-- Walking over the node at the given level writes `o`. -/
def Prints (text : Str) (level : Nat) (n : Node) (o : Str) : Prop :=
  ∀ s, walk (keyVisitor text) level n s = .ok (s ++ o)

def PrintsList (text : Str) (level : Nat) (ns : List Node) (o : Str) : Prop :=
  ∀ s, walkList (keyVisitor text) level ns s = .ok (s ++ o)

theorem printsList_nil {level : Nat} : PrintsList text level [] [] := by
  intro s; simp [walkList]

theorem printsList_cons {level : Nat} {n : Node} {ns : List Node} {o p : Str} (h : Prints text level n o)
    (h' : PrintsList text level ns p) : PrintsList text level (n :: ns) (o ++ p) := by
  intro s
  rw [walkList, h s]
  simp only [h' (s ++ o), List.append_assoc]

/-- White space, strings and numbers print nothing. -/
theorem prints_big {level : Nat} {n : Node} (h : n.type > 10) : Prints text level n [] := by
  intro s
  cases n with
  | mk t p e cs =>
    simp only [Node.type_mk] at h
    rw [walk]
    simp [keyVisitor, h]

/-- Nodes that are neither key-value pairs nor objects nor arrays print what their children print. -/
theorem prints_pass {level : Nat} {n : Node} {o : Str} (h : ¬ n.type > 10) (h6 : n.type ≠ 6) (h9 : n.type ≠ 9)
    (h10 : n.type ≠ 10) (hc : PrintsList text level n.childs o) : Prints text level n o := by
  intro s
  cases n with
  | mk t p e cs =>
    simp only [Node.type_mk, Node.childs_mk] at *
    rw [walk]
    simp only [keyVisitor, Node.type_mk, h, h6, if_false, nextLevel, h9, h10, or_self]
    exact hc s

theorem prints_lit {level : Nat} {t : Str} {n : Node} (h : Lit text t n) : Prints text level n [] :=
  prints_pass (by rw [h.1]; decide) (by rw [h.1]; decide) (by rw [h.1]; decide) (by rw [h.1]; decide)
    (by rw [h.2.2]; exact printsList_nil)

theorem prints_open {level : Nat} {n : Node} {o : Str} (h : n.type = 9 ∨ n.type = 10)
    (hc : PrintsList text (level + 1) n.childs o) : Prints text level n o := by
  intro s
  cases n with
  | mk t p e cs =>
    simp only [Node.type_mk, Node.childs_mk] at *
    have h1 : ¬ t > 10 := by omega
    have h2 : t ≠ 6 := by omega
    rw [walk]
    simp only [keyVisitor, Node.type_mk, h1, h2, if_false, nextLevel, h, if_true]
    exact hc s

theorem indent_eq (n : Nat) : indent n = blanks (2 * n) := by
  induction n with
  | zero => rfl
  | succ n ih =>
    rw [indent, ih, show 2 * (n + 1) = 2 * n + 1 + 1 by omega]
    simp [blanks, List.replicate_succ]

theorem prints_key {level : Nat} {n k : Node} {o : Str} (h : n.type = 6) (hk : keyNode n = .ok k)
    (hb : k.pos ≤ k.stop ∧ k.stop ≤ text.length) (hc : PrintsList text level n.childs o) :
    Prints text level n (blanks (2 * level) ++ sl text k ++ [10] ++ o) := by
  intro s
  cases n with
  | mk t p e cs =>
    simp only [Node.type_mk, Node.childs_mk] at *
    subst h
    have hv : (keyVisitor text).visit level (.mk 6 p e cs) s
        = .ok (s ++ (blanks (2 * level) ++ (sl text k ++ [10])), some level) := by
      simp [keyVisitor, hk, sliceText, hb, nextLevel, indent_eq, sl, slice]
    rw [walk, hv]
    simp only []
    rw [hc]
    simp

/-! ## Values -/

/-- What a node says and prints, by its type. -/
structure Claim (text : Str) (n : Node) : Prop where
  value : n.type = 8 ∨ n.type = 9 ∨ n.type = 10 ∨ n.type = 11 ∨ n.type = 17 →
    ∃ v, JsonText (.value v) (sl text n) ∧ ∀ l, Prints text l n (keyLines l v)
  spaced : n.type = 7 → ∃ a x b v, sl text n = a ++ (x ++ b) ∧ Ws a ∧ JsonText (.value v) x ∧ Ws b ∧
    ∀ l, Prints text l n (keyLines l v)
  valueTail : n.type = 3 → (sl text n = [] ∧ ∀ l, Prints text l n []) ∨
    ∃ vs y, sl text n = 44 :: y ∧ JsonText (.elements vs) y ∧ ∀ l, Prints text l n (keyLinesElements l vs)
  values : n.type = 2 → (sl text n = [] ∧ ∀ l, Prints text l n []) ∨
    ∃ vs, JsonText (.elements vs) (sl text n) ∧ ∀ l, Prints text l n (keyLinesElements l vs)
  pair : n.type = 6 → ∃ k a b x v, sl text n = 34 :: (k ++ 34 :: (a ++ 58 :: (b ++ x))) ∧ StringBody k ∧ Ws a ∧
    Ws b ∧ JsonText (.value v) x ∧ ∀ l, Prints text l n (blanks (2 * l) ++ k ++ [10] ++ keyLines l v)
  pairTail : n.type = 5 → (sl text n = [] ∧ ∀ l, Prints text l n []) ∨
    ∃ ms d y, sl text n = 44 :: (d ++ y) ∧ Ws d ∧ JsonText (.members ms) y ∧
      ∀ l, Prints text l n (keyLinesMembers l ms)
  pairs : n.type = 4 → (sl text n = [] ∧ ∀ l, Prints text l n []) ∨
    ∃ ms, JsonText (.members ms) (sl text n) ∧ ∀ l, Prints text l n (keyLinesMembers l ms)

theorem prints_empty {level p : Nat} {n : Node} (h : ¬ n.type > 10) (h6 : n.type ≠ 6) (h9 : n.type ≠ 9)
    (h10 : n.type ≠ 10) (hc : n.childs = [.mk (-2) p p []]) : Prints text level n [] := by
  refine prints_pass h h6 h9 h10 ?_
  rw [hc]
  have := printsList_cons (text := text) (level := level) (n := .mk (-2) p p []) (o := [])
    (prints_pass (by simp) (by simp) (by simp) (by simp) printsList_nil) printsList_nil
  simpa using this

theorem spaces {n : Node} (h : Good text n) (ht : n.type = (30 : Nat)) :
    Ws (sl text n) ∧ ∀ l, Prints text l n [] :=
  ⟨ws.1 (h.gen 30 ht), fun l => prints_big (by rw [ht]; decide)⟩

/-- A value and the rest of the list are a list. -/
theorem join_values {n m : Node} (hn : Claim text n) (hm : Claim text m) (h7 : n.type = 7) (h3 : m.type = 3) :
    ∃ vs, JsonText (.elements vs) (sl text n ++ sl text m) ∧
      ∀ l, ∃ o p, Prints text l n o ∧ Prints text l m p ∧ o ++ p = keyLinesElements l vs := by
  obtain ⟨a, x, b, v, he, ha, hx, hb, hp⟩ := hn.spaced h7
  rcases hm.valueTail h3 with ⟨h0, hq⟩ | ⟨vs, y, hy, hv, hq⟩
  · refine ⟨[v], ?_, fun l => ⟨_, _, hp l, hq l, by simp [keyLinesElements]⟩⟩
    rw [he, h0]
    simpa using JsonText.element ha hx hb
  · refine ⟨v :: vs, ?_, fun l => ⟨_, _, hp l, hq l, by simp [keyLinesElements]⟩⟩
    rw [he, hy]
    simpa using JsonText.elements ha hx hb hv

/-- A pair, white space and the rest of the list are a list. -/
theorem join_pairs {n c m : Node} (hn : Claim text n) (hc : Ws (sl text c)) (hm : Claim text m)
    (h6 : n.type = 6) (h5 : m.type = 5) :
    ∃ ms, JsonText (.members ms) (sl text n ++ (sl text c ++ sl text m)) ∧
      ∀ l, ∃ o p, Prints text l n o ∧ Prints text l m p ∧ o ++ p = keyLinesMembers l ms := by
  obtain ⟨k, a, b, x, v, he, hk, ha, hb, hx, hp⟩ := hn.pair h6
  rcases hm.pairTail h5 with ⟨h0, hq⟩ | ⟨ms, d, y, hy, hd, hv, hq⟩
  · refine ⟨[(k, v)], ?_, fun l => ⟨_, _, hp l, hq l, by simp [keyLinesMembers]⟩⟩
    rw [he, h0]
    simpa using JsonText.member hk ha hb hx hc
  · refine ⟨(k, v) :: ms, ?_, fun l => ⟨_, _, hp l, hq l, by simp [keyLinesMembers]⟩⟩
    rw [he, hy]
    simpa using JsonText.members hk ha hb hx hc hd hv

theorem claim : ∀ n : Node, Good text n → Claim text n := by
  refine tree_ind fun n ih hg => ?_
  have ih : ∀ c ∈ n.childs, Claim text c := fun c hc => ih c hc (hg.child hc)
  refine ⟨?_, ?_, ?_, ?_, ?_, ?_, ?_⟩
  · rintro (h | h | h | h | h)
    · -- value
      obtain ⟨alt, ha, hs⟩ := hg.alt 8 h (by decide +kernel)
      have pass : ∀ (c : Node) (o : Nat → Str), n.childs = [c] → (∀ l, Prints text l c (o l)) → ∀ l, Prints text l n (o l) := by
        intro c o hc hp l
        refine prints_pass (by rw [h]; decide) (by rw [h]; decide) (by rw [h]; decide) (by rw [h]; decide) ?_
        rw [hc]
        simpa using printsList_cons (hp l) printsList_nil
      have ha : alt ∈ [⟨[.nonTerminal b!"object"]⟩, ⟨[.nonTerminal b!"array"]⟩, ⟨[.nonTerminal b!"string"]⟩,
        ⟨[.nonTerminal b!"number"]⟩, ⟨[.terminal b!"true"]⟩, ⟨[.terminal b!"false"]⟩,
        (⟨[.terminal b!"null"]⟩ : Sequence)] := ha
      have nt : ∀ i name, isHead i name = true → (i = 9 ∨ i = 10 ∨ i = 11 ∨ i = 17) →
          AllPairs (Shows jsonGrammar text) [.nonTerminal name] n.childs →
          ∃ v, JsonText (.value v) (sl text n) ∧ ∀ l, Prints text l n (keyLines l v) := by
        intro i name hi ho hs
        obtain ⟨c, _, hc, h1, h2⟩ := allPairs_cons.1 hs
        rw [allPairs_nil] at h2
        subst h2
        have ht := shows_nt i hi h1
        obtain ⟨v, hv, hp⟩ := (ih c (by rw [hc]; simp)).value (by omega)
        refine ⟨v, ?_, pass c _ hc hp⟩
        rw [hg.slice (by rw [hc]; simp), hc]
        simpa using hv
      have wd : ∀ t, t = b!"true" ∨ t = b!"false" ∨ t = b!"null" →
          AllPairs (Shows jsonGrammar text) [.terminal t] n.childs →
          ∃ v, JsonText (.value v) (sl text n) ∧ ∀ l, Prints text l n (keyLines l v) := by
        intro t ht hs
        obtain ⟨c, _, hc, h1, h2⟩ := allPairs_cons.1 hs
        rw [allPairs_nil] at h2
        subst h2
        have hl := shows_lit (by rcases ht with rfl | rfl | rfl <;> simp) h1
        refine ⟨.word t, ?_, pass c (fun _ => []) hc fun l => prints_lit hl⟩
        rw [hg.slice (by rw [hc]; simp), hc]
        simpa [hl.2.1] using JsonText.word ht
      simp only [List.mem_cons, List.not_mem_nil, or_false] at ha
      rcases ha with rfl | rfl | rfl | rfl | rfl | rfl | rfl
      · exact nt 9 _ (by decide +kernel) (by omega) hs
      · exact nt 10 _ (by decide +kernel) (by omega) hs
      · exact nt 11 _ (by decide +kernel) (by omega) hs
      · exact nt 17 _ (by decide +kernel) (by omega) hs
      · exact wd _ (.inl rfl) hs
      · exact wd _ (.inr (.inl rfl)) hs
      · exact wd _ (.inr (.inr rfl)) hs
    · -- object
      obtain ⟨alt, ha, hs⟩ := hg.alt 9 h (by decide +kernel)
      have ha : alt ∈ [(⟨[.terminal b!"{", .nonTerminal b!"opt-whitespace", .nonTerminal b!"opt-key-value-list",
        .terminal b!"}"]⟩ : Sequence)] := ha
      rw [List.mem_singleton] at ha
      subst ha
      simp only [allPairs_cons, allPairs_nil] at hs
      obtain ⟨c1, _, hc, s1, c2, _, rfl, s2, c3, _, rfl, s3, c4, _, rfl, s4, rfl⟩ := hs
      have l1 := shows_lit (by simp) s1
      have l4 := shows_lit (by simp) s4
      have t2 := shows_nt 30 (by decide +kernel) s2
      have t3 := shows_nt 4 (by decide +kernel) s3
      obtain ⟨w2, p2⟩ := spaces (hg.child (c := c2) (by rw [hc]; simp)) t2
      have hsl : sl text n = 123 :: (sl text c2 ++ (sl text c3 ++ [125])) := by
        rw [hg.slice (by rw [hc]; simp), hc]
        simp [l1.2.1, l4.2.1]
      have pr : ∀ l o, Prints text (l + 1) c3 o → Prints text l n o := by
        intro l o hp
        refine prints_open (.inl h) ?_
        rw [hc]
        simpa using printsList_cons (prints_lit l1) (printsList_cons (p2 (l + 1)) (printsList_cons hp
          (printsList_cons (prints_lit l4) printsList_nil)))
      rw [hsl]
      rcases (ih c3 (by rw [hc]; simp)).pairs t3 with ⟨h0, hq⟩ | ⟨ms, hm, hq⟩
      · refine ⟨.object [], ?_, fun l => ?_⟩
        · rw [h0]; exact .emptyObject w2
        · rw [keyLines, keyLinesMembers]; exact pr l _ (hq (l + 1))
      · exact ⟨.object ms, .object w2 hm, fun l => by rw [keyLines]; exact pr l _ (hq (l + 1))⟩
    · -- array
      obtain ⟨alt, ha, hs⟩ := hg.alt 10 h (by decide +kernel)
      have ha : alt ∈ [(⟨[.terminal b!"[", .nonTerminal b!"opt-value-list", .terminal b!"]"]⟩ : Sequence)] := ha
      rw [List.mem_singleton] at ha
      subst ha
      simp only [allPairs_cons, allPairs_nil] at hs
      obtain ⟨c1, _, hc, s1, c2, _, rfl, s2, c3, _, rfl, s3, rfl⟩ := hs
      have l1 := shows_lit (by simp) s1
      have l3 := shows_lit (by simp) s3
      have t2 := shows_nt 2 (by decide +kernel) s2
      have hsl : sl text n = 91 :: (sl text c2 ++ [93]) := by
        rw [hg.slice (by rw [hc]; simp), hc]
        simp [l1.2.1, l3.2.1]
      have pr : ∀ l o, Prints text (l + 1) c2 o → Prints text l n o := by
        intro l o hp
        refine prints_open (.inr h) ?_
        rw [hc]
        simpa using printsList_cons (prints_lit l1) (printsList_cons hp
          (printsList_cons (prints_lit l3) printsList_nil))
      rw [hsl]
      rcases (ih c2 (by rw [hc]; simp)).values t2 with ⟨h0, hq⟩ | ⟨vs, hm, hq⟩
      · refine ⟨.array [], ?_, fun l => ?_⟩
        · rw [h0]; exact .emptyArray
        · rw [keyLines, keyLinesElements]; exact pr l _ (hq (l + 1))
      · exact ⟨.array vs, .array hm, fun l => by rw [keyLines]; exact pr l _ (hq (l + 1))⟩
    · -- string
      obtain ⟨s, hs, hb⟩ := string.1 (hg.gen 11 h)
      refine ⟨.string s, by rw [hs]; exact .string hb, fun l => ?_⟩
      rw [keyLines]
      exact prints_big (by rw [h]; decide)
    · -- number
      have hb := number.1 (hg.gen 17 h)
      refine ⟨.number (sl text n), .number hb, fun l => ?_⟩
      rw [keyLines]
      exact prints_big (by rw [h]; decide)
  · -- opt-whitespaced-value
    intro h
    obtain ⟨alt, ha, hs⟩ := hg.alt 7 h (by decide +kernel)
    have ha : alt ∈ [(⟨[.nonTerminal b!"opt-whitespace", .nonTerminal b!"value",
      .nonTerminal b!"opt-whitespace"]⟩ : Sequence)] := ha
    rw [List.mem_singleton] at ha
    subst ha
    simp only [allPairs_cons, allPairs_nil] at hs
    obtain ⟨c1, _, hc, s1, c2, _, rfl, s2, c3, _, rfl, s3, rfl⟩ := hs
    obtain ⟨w1, p1⟩ := spaces (hg.child (c := c1) (by rw [hc]; simp)) (shows_nt 30 (by decide +kernel) s1)
    obtain ⟨w3, p3⟩ := spaces (hg.child (c := c3) (by rw [hc]; simp)) (shows_nt 30 (by decide +kernel) s3)
    obtain ⟨v, hv, hp⟩ := (ih c2 (by rw [hc]; simp)).value (.inl (shows_nt 8 (by decide +kernel) s2))
    refine ⟨sl text c1, sl text c2, sl text c3, v, ?_, w1, hv, w3, fun l => ?_⟩
    · rw [hg.slice (by rw [hc]; simp), hc]; simp
    · refine prints_pass (by rw [h]; decide) (by rw [h]; decide) (by rw [h]; decide) (by rw [h]; decide) ?_
      rw [hc]
      simpa using printsList_cons (p1 l) (printsList_cons (hp l) (printsList_cons (p3 l) printsList_nil))
  · -- opt-value-list-tail
    intro h
    rcases hg.optAlt 3 h with ⟨alt, ha, hn, hs⟩ | ⟨h0, p, hc⟩
    · have ha : alt ∈ [⟨[.nothing]⟩, (⟨[.terminal b!",", .nonTerminal b!"opt-whitespaced-value",
        .nonTerminal b!"opt-value-list-tail"]⟩ : Sequence)] := ha
      simp only [List.mem_cons, List.not_mem_nil, or_false] at ha
      rcases ha with rfl | rfl
      · exact (hn rfl).elim
      simp only [allPairs_cons, allPairs_nil] at hs
      obtain ⟨c1, _, hc, s1, c2, _, rfl, s2, c3, _, rfl, s3, rfl⟩ := hs
      have l1 := shows_lit (by simp) s1
      obtain ⟨vs, hv, hp⟩ := join_values (ih c2 (by rw [hc]; simp)) (ih c3 (by rw [hc]; simp))
        (shows_nt 7 (by decide +kernel) s2) (shows_nt 3 (by decide +kernel) s3)
      refine .inr ⟨vs, sl text c2 ++ sl text c3, ?_, hv, fun l => ?_⟩
      · rw [hg.slice (by rw [hc]; simp), hc]; simp [l1.2.1]
      · obtain ⟨o, p, h1, h2, he⟩ := hp l
        refine prints_pass (by rw [h]; decide) (by rw [h]; decide) (by rw [h]; decide) (by rw [h]; decide) ?_
        rw [hc, ← he]
        simpa using printsList_cons (prints_lit l1) (printsList_cons h1 (printsList_cons h2 printsList_nil))
    · exact .inl ⟨h0, fun l => prints_empty (by rw [h]; decide) (by rw [h]; decide) (by rw [h]; decide)
        (by rw [h]; decide) hc⟩
  · -- opt-value-list
    intro h
    rcases hg.optAlt 2 h with ⟨alt, ha, hn, hs⟩ | ⟨h0, p, hc⟩
    · have ha : alt ∈ [⟨[.nothing]⟩, (⟨[.nonTerminal b!"opt-whitespaced-value",
        .nonTerminal b!"opt-value-list-tail"]⟩ : Sequence)] := ha
      simp only [List.mem_cons, List.not_mem_nil, or_false] at ha
      rcases ha with rfl | rfl
      · exact (hn rfl).elim
      simp only [allPairs_cons, allPairs_nil] at hs
      obtain ⟨c2, _, hc, s2, c3, _, rfl, s3, rfl⟩ := hs
      obtain ⟨vs, hv, hp⟩ := join_values (ih c2 (by rw [hc]; simp)) (ih c3 (by rw [hc]; simp))
        (shows_nt 7 (by decide +kernel) s2) (shows_nt 3 (by decide +kernel) s3)
      refine .inr ⟨vs, ?_, fun l => ?_⟩
      · rw [hg.slice (by rw [hc]; simp), hc]; simpa using hv
      · obtain ⟨o, p, h1, h2, he⟩ := hp l
        refine prints_pass (by rw [h]; decide) (by rw [h]; decide) (by rw [h]; decide) (by rw [h]; decide) ?_
        rw [hc, ← he]
        simpa using printsList_cons h1 (printsList_cons h2 printsList_nil)
    · exact .inl ⟨h0, fun l => prints_empty (by rw [h]; decide) (by rw [h]; decide) (by rw [h]; decide)
        (by rw [h]; decide) hc⟩
  · -- key-value
    intro h
    obtain ⟨alt, ha, hs⟩ := hg.alt 6 h (by decide +kernel)
    have ha : alt ∈ [(⟨[.nonTerminal b!"string", .nonTerminal b!"opt-whitespace", .terminal b!":",
      .nonTerminal b!"opt-whitespace", .nonTerminal b!"value"]⟩ : Sequence)] := ha
    rw [List.mem_singleton] at ha
    subst ha
    simp only [allPairs_cons, allPairs_nil] at hs
    obtain ⟨c1, _, hc, s1, c2, _, rfl, s2, c3, _, rfl, s3, c4, _, rfl, s4, c5, _, rfl, s5, rfl⟩ := hs
    have t1 := shows_nt 11 (by decide +kernel) s1
    have l3 := shows_lit (by simp) s3
    obtain ⟨w2, p2⟩ := spaces (hg.child (c := c2) (by rw [hc]; simp)) (shows_nt 30 (by decide +kernel) s2)
    obtain ⟨w4, p4⟩ := spaces (hg.child (c := c4) (by rw [hc]; simp)) (shows_nt 30 (by decide +kernel) s4)
    obtain ⟨v, hv, hp⟩ := (ih c5 (by rw [hc]; simp)).value (.inl (shows_nt 8 (by decide +kernel) s5))
    -- the string
    have hg1 := hg.child (c := c1) (by rw [hc]; simp)
    obtain ⟨alt, ha, hs⟩ := hg1.alt 11 t1 (by decide +kernel)
    have ha : alt ∈ [(⟨[.terminal b!"\"", .nonTerminal b!"text", .terminal b!"\""]⟩ : Sequence)] := ha
    rw [List.mem_singleton] at ha
    subst ha
    simp only [allPairs_cons, allPairs_nil] at hs
    obtain ⟨d1, _, hd, r1, d2, _, rfl, r2, d3, _, rfl, r3, rfl⟩ := hs
    have q1 := shows_lit (by simp) r1
    have q3 := shows_lit (by simp) r3
    have hg2 := hg1.child (c := d2) (by rw [hd]; simp)
    have hb := JsonLex.text.1 (hg2.gen 12 (shows_nt 12 (by decide +kernel) r2))
    have hs1 : sl text c1 = 34 :: (sl text d2 ++ [34]) := by
      rw [hg1.slice (by rw [hd]; simp), hd]; simp [q1.2.1, q3.2.1]
    refine ⟨sl text d2, sl text c2, sl text c4, sl text c5, v, ?_, hb, w2, w4, hv, fun l => ?_⟩
    · rw [hg.slice (by rw [hc]; simp), hc]; simp [l3.2.1, hs1]
    · refine prints_key h ?_ ⟨hg2.self.le, hg2.self.bound⟩ ?_
      · simp [keyNode, hc, hd]
      · rw [hc]
        simpa using printsList_cons (prints_big (level := l) (text := text) (n := c1) (by rw [t1]; decide))
          (printsList_cons (p2 l) (printsList_cons (prints_lit l3) (printsList_cons (p4 l)
            (printsList_cons (hp l) printsList_nil))))
  · -- opt-key-value-list-tail
    intro h
    rcases hg.optAlt 5 h with ⟨alt, ha, hn, hs⟩ | ⟨h0, p, hc⟩
    · have ha : alt ∈ [⟨[.nothing]⟩, (⟨[.terminal b!",", .nonTerminal b!"opt-whitespace",
        .nonTerminal b!"key-value", .nonTerminal b!"opt-whitespace",
        .nonTerminal b!"opt-key-value-list-tail"]⟩ : Sequence)] := ha
      simp only [List.mem_cons, List.not_mem_nil, or_false] at ha
      rcases ha with rfl | rfl
      · exact (hn rfl).elim
      simp only [allPairs_cons, allPairs_nil] at hs
      obtain ⟨c1, _, hc, s1, c2, _, rfl, s2, c3, _, rfl, s3, c4, _, rfl, s4, c5, _, rfl, s5, rfl⟩ := hs
      have l1 := shows_lit (by simp) s1
      obtain ⟨w2, p2⟩ := spaces (hg.child (c := c2) (by rw [hc]; simp)) (shows_nt 30 (by decide +kernel) s2)
      obtain ⟨w4, p4⟩ := spaces (hg.child (c := c4) (by rw [hc]; simp)) (shows_nt 30 (by decide +kernel) s4)
      obtain ⟨ms, hv, hp⟩ := join_pairs (c := c4) (ih c3 (by rw [hc]; simp)) w4 (ih c5 (by rw [hc]; simp))
        (shows_nt 6 (by decide +kernel) s3) (shows_nt 5 (by decide +kernel) s5)
      refine .inr ⟨ms, sl text c2, sl text c3 ++ (sl text c4 ++ sl text c5), ?_, w2, hv, fun l => ?_⟩
      · rw [hg.slice (by rw [hc]; simp), hc]; simp [l1.2.1]
      · obtain ⟨o, p, h1, h2, he⟩ := hp l
        refine prints_pass (by rw [h]; decide) (by rw [h]; decide) (by rw [h]; decide) (by rw [h]; decide) ?_
        rw [hc, ← he]
        simpa using printsList_cons (prints_lit l1) (printsList_cons (p2 l) (printsList_cons h1
          (printsList_cons (p4 l) (printsList_cons h2 printsList_nil))))
    · exact .inl ⟨h0, fun l => prints_empty (by rw [h]; decide) (by rw [h]; decide) (by rw [h]; decide)
        (by rw [h]; decide) hc⟩
  · -- opt-key-value-list
    intro h
    rcases hg.optAlt 4 h with ⟨alt, ha, hn, hs⟩ | ⟨h0, p, hc⟩
    · have ha : alt ∈ [⟨[.nothing]⟩, (⟨[.nonTerminal b!"key-value", .nonTerminal b!"opt-whitespace",
        .nonTerminal b!"opt-key-value-list-tail"]⟩ : Sequence)] := ha
      simp only [List.mem_cons, List.not_mem_nil, or_false] at ha
      rcases ha with rfl | rfl
      · exact (hn rfl).elim
      simp only [allPairs_cons, allPairs_nil] at hs
      obtain ⟨c3, _, hc, s3, c4, _, rfl, s4, c5, _, rfl, s5, rfl⟩ := hs
      obtain ⟨w4, p4⟩ := spaces (hg.child (c := c4) (by rw [hc]; simp)) (shows_nt 30 (by decide +kernel) s4)
      obtain ⟨ms, hv, hp⟩ := join_pairs (c := c4) (ih c3 (by rw [hc]; simp)) w4 (ih c5 (by rw [hc]; simp))
        (shows_nt 6 (by decide +kernel) s3) (shows_nt 5 (by decide +kernel) s5)
      refine .inr ⟨ms, ?_, fun l => ?_⟩
      · rw [hg.slice (by rw [hc]; simp), hc]; simpa using hv
      · obtain ⟨o, p, h1, h2, he⟩ := hp l
        refine prints_pass (by rw [h]; decide) (by rw [h]; decide) (by rw [h]; decide) (by rw [h]; decide) ?_
        rw [hc, ← he]
        simpa using printsList_cons h1 (printsList_cons (p4 l) (printsList_cons h2 printsList_nil))
    · exact .inl ⟨h0, fun l => prints_empty (by rw [h]; decide) (by rw [h]; decide) (by rw [h]; decide)
        (by rw [h]; decide) hc⟩

/-- The root of a tree: a document, and its keys are printed. -/
theorem document {n : Node} (hg : Good text n) (h : n.type = 0) :
    ∃ v, JsonDocument v (sl text n) ∧ Prints text 0 n (keyLines 0 v) := by
  obtain ⟨alt, ha, hs⟩ := hg.alt 0 h (by decide +kernel)
  have ha : alt ∈ [(⟨[.nonTerminal b!"element"]⟩ : Sequence)] := ha
  rw [List.mem_singleton] at ha
  subst ha
  simp only [allPairs_cons, allPairs_nil] at hs
  obtain ⟨c, _, hc, s1, rfl⟩ := hs
  have hg1 := hg.child (c := c) (by rw [hc]; simp)
  have t1 := shows_nt 1 (by decide +kernel) s1
  obtain ⟨alt, ha, hs⟩ := hg1.alt 1 t1 (by decide +kernel)
  have ha : alt ∈ [(⟨[.nonTerminal b!"opt-whitespaced-value"]⟩ : Sequence)] := ha
  rw [List.mem_singleton] at ha
  subst ha
  simp only [allPairs_cons, allPairs_nil] at hs
  obtain ⟨d, _, hd, s2, rfl⟩ := hs
  have hg2 := hg1.child (c := d) (by rw [hd]; simp)
  obtain ⟨a, x, b, v, he, ha, hx, hb, hp⟩ := (claim d hg2).spaced (shows_nt 7 (by decide +kernel) s2)
  refine ⟨v, ⟨a, x, b, ?_, ha, hx, hb⟩, ?_⟩
  · rw [hg.slice (by rw [hc]; simp), hc]
    simp only [List.map_cons, List.map_nil, List.flatten_cons, List.flatten_nil, List.append_nil]
    rw [hg1.slice (by rw [hd]; simp), hd]
    simpa using he
  · have p1 : Prints text 0 c (keyLines 0 v) := by
      refine prints_pass (by rw [t1]; decide) (by rw [t1]; decide) (by rw [t1]; decide) (by rw [t1]; decide) ?_
      rw [hd]
      simpa using printsList_cons (hp 0) printsList_nil
    refine prints_pass (by rw [h]; decide) (by rw [h]; decide) (by rw [h]; decide) (by rw [h]; decide) ?_
    rw [hc]
    simpa using printsList_cons p1 printsList_nil

end JsonTree
end LL1
