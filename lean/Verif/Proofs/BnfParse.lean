import Verif.Proofs.ParserTop
import Verif.Proofs.ByteSet
import Verif.Proofs.FromCst
import Verif.Golden.Tables
import Verif.Spec.Bnf

/-!
# Every layout of a grammar is derived by the BNF table, and read back as that grammar
-/

namespace LL1
namespace BnfParse
open FC (R selfBindings topmost_mk)
open Read (each)

/-! ## Pieces of a text -/

/-- `x` stands in `text` at offset `i`. -/
def At (text : Str) (i : Nat) (x : Str) : Prop := ∃ p s, text = p ++ x ++ s ∧ p.length = i

theorem At.append {text : Str} {i : Nat} {x y : Str} (h : At text i (x ++ y)) :
    At text i x ∧ At text (i + x.length) y := by
  obtain ⟨p, s, rfl, rfl⟩ := h
  exact ⟨⟨p, y ++ s, by simp, rfl⟩, ⟨p ++ x, s, by simp, by simp⟩⟩

theorem At.cons {text : Str} {i : Nat} {c : UInt8} {y : Str} (h : At text i (c :: y)) :
    At text i [c] ∧ At text (i + 1) y := At.append (x := [c]) h

theorem At.byte {text : Str} {i : Nat} {c : UInt8} {y : Str} (h : At text i (c :: y)) : byteAt text i = c := by
  obtain ⟨p, s, rfl, rfl⟩ := h
  unfold byteAt
  simp [List.getD_eq_getElem?_getD]

theorem At.litAt {text : Str} {i : Nat} {x : Str} (h : At text i x) : LitAt text x i := by
  obtain ⟨p, s, rfl, rfl⟩ := h
  intro k hk
  unfold byteAt
  rw [List.getD_eq_getElem?_getD, List.append_assoc, List.getElem?_append_right (by omega),
    Nat.add_sub_cancel_left, List.getElem?_append_left hk, List.getElem?_eq_getElem hk]
  rfl

theorem At.text {text : Str} {i : Nat} {x : Str} (h : At text i x) {n : Node} (hp : n.pos = i)
    (hs : n.stop = i + x.length) : Read.text n text = .ok x := by
  obtain ⟨p, s, rfl, rfl⟩ := h
  unfold Read.text
  rw [if_pos (by rw [hp, hs]; simp)]
  rw [hp, hs]
  simp

theorem At.drop {text : Str} {i : Nat} {x : Str} (h : At text i x) : (text.drop i).take x.length = x := by
  obtain ⟨p, s, rfl, rfl⟩ := h
  simp

/-! ## Trees -/

/-- All nodes of the tree have one of the types. -/
inductive Only (S : List Int) : Node → Prop
  | mk {t : Int} {i j : Nat} {cs : List Node} : t ∈ S → (∀ c ∈ cs, Only S c) → Only S (.mk t i j cs)

theorem Only.mono {S S' : List Int} {t : Node} (h : Only S t) (hs : ∀ x ∈ S, x ∈ S') : Only S' t := by
  induction h with
  | mk ht _ ih => exact .mk (hs _ ht) ih

theorem Only.topmost {S : List Int} {t : Node} (h : Only S t) (skip hit : Int → Bool)
    (hh : ∀ x ∈ S, hit x = false) : topmost skip hit t = [] := by
  induction h with
  | mk ht _ ih =>
    rw [topmost_mk, hh _ ht]
    split
    · rfl
    · simp only [Bool.false_eq_true, if_false, List.flatten_eq_nil_iff, List.mem_map]
      rintro _ ⟨c, hc, rfl⟩
      exact ih c hc

theorem Only.nothing {S : List Int} (h : (-2 : Int) ∈ S) (i : Nat) : Only S (nothingNode i) := .mk h (by simp)

theorem Only.lit {S : List Int} (h : (-1 : Int) ∈ S) {s : Str} (hs : s ≠ []) (i : Nat) : Only S (literalNode s i) := by
  unfold literalNode
  rw [if_neg hs]
  exact .mk h (by simp)

theorem topmost_nothing (skip hit : Int → Bool) (h : hit (-2) = false) (i : Nat) :
    topmost skip hit (nothingNode i) = [] := by
  simp [nothingNode, h]

theorem topmost_hit {skip hit : Int → Bool} {t : Node} (hs : skip t.type = false) (hh : hit t.type = true) :
    topmost skip hit t = [t] := by
  cases t with
  | mk ty i j cs =>
    simp only [Node.type_mk] at hs hh
    simp [hs, hh]

variable {tbl : Table} {text : Str}

theorem node_shape {n : Int} {i j : Nat} {t : Node} (h : Derives tbl text [.nonTerminal n] i j [t]) :
    t.type = n ∧ t.pos = i ∧ t.stop = j := by
  cases h with
  | nt hb hd hr => cases hr; exact ⟨rfl, rfl, rfl⟩

theorem then_ {op : ParserOp} {ops : List ParserOp} {i j k : Nat} {c : Node} {ds : List Node}
    (h1 : Derives tbl text [op] i j [c]) (h2 : Derives tbl text ops j k ds) :
    Derives tbl text (op :: ops) i k (c :: ds) := by
  cases h1 with
  | lit hl hd => cases hd; exact .lit hl h2
  | nt hb hd hr => cases hr; exact .nt hb hd h2

theorem lit_ {s : Str} {ops : List ParserOp} {i k : Nat} {ds : List Node}
    (h1 : At text i s) (h2 : Derives tbl text ops (i + s.length) k ds) :
    Derives tbl text (.terminal s :: ops) i k (literalNode s i :: ds) := .lit h1.litAt h2

/-- A node with a non-empty body. -/
theorem node_ {n : Int} {op : ParserOp} {ops : List ParserOp} {i j : Nat} {cs : List Node}
    (hb : bodyFor tbl n (byteAt text i) = some (op :: ops)) (hd : Derives tbl text (op :: ops) i j cs) :
    Derives tbl text [.nonTerminal n] i j [.mk n i j cs] := by
  have := Derives.nt (n := n) hb hd (.nil j)
  simpa [ntNode] using this

/-- A node with an empty body. -/
theorem empty_ {n : Int} {i : Nat} (hb : bodyFor tbl n (byteAt text i) = some []) :
    Derives tbl text [.nonTerminal n] i i [.mk n i i [nothingNode i]] := by
  have := Derives.nt (n := n) hb (.nil i) (.nil i)
  simpa [ntNode] using this

/-! ## Reading lists -/

theorem each_append {α : Type} {f : Node → R α} {as bs : List Node} {xs ys : List α}
    (h1 : each f as = .ok xs) (h2 : each f bs = .ok ys) : each f (as ++ bs) = .ok (xs ++ ys) := by
  induction as generalizing xs with
  | nil => simp [each] at h1; subst h1; exact h2
  | cons a as ih =>
    rw [each, Res.bind_eq_ok] at h1
    obtain ⟨x, hx, h1⟩ := h1
    rw [Res.bind_eq_ok] at h1
    obtain ⟨xs', hxs, h1⟩ := h1
    simp at h1
    subst h1
    rw [List.cons_append, each, hx, Res.ok_bind, ih hxs]
    rfl

theorem each_one {α : Type} {f : Node → R α} {a : Node} {x : α} (h : f a = .ok x) : each f [a] = .ok [x] := by
  simp [each, h]

/-! ## The characters of the table -/

local notation "T" => Golden.selfTable

/-- What is skipped. -/
def sk : Int → Bool := fun t => decide (t ∈ selfBindings.ignoreNodeTypes)

theorem sk_eq (t : Int) : sk t = decide (t = 25) := by
  simp [sk, selfBindings]

/-- Types that may occur in names, blanks and literals. -/
abbrev NameTypes : List Int := [18, 19, 20, 21, 22, -1, -2]
abbrev BlankTypes : List Int := [24, -1, -2]
abbrev CharTypes : List Int := [15, 16, 17, 21, 22, 23, -1, -2]

def leaf (n : Int) (i : Nat) : Node := .mk n i (i + 1) [.mk (-1) i (i + 1) []]

theorem one_ {n : Int} {c : UInt8} {i : Nat} (hb : bodyFor tbl n c = some [.terminal [c]])
    (h : At text i [c]) : Derives tbl text [.nonTerminal n] i (i + 1) [leaf n i] := by
  have := node_ (n := n) (by rw [h.byte]; exact hb) (lit_ h (.nil (tbl := tbl) (i + 1)))
  simpa [leaf, literalNode] using this

theorem leaf_only {S : List Int} {n : Int} {i : Nat} (h : n ∈ S) (h' : (-1 : Int) ∈ S) : Only S (leaf n i) :=
  .mk h (by intro c hc; rw [List.mem_singleton] at hc; subst hc; exact .mk h' (by simp))

set_option maxRecDepth 100000 in
theorem body_letter (c : UInt8) : IsLetter c → bodyFor T 21 c = some [.terminal [c]] :=
  forall_byte (p := fun c => IsLetter c → bodyFor T 21 c = some [.terminal [c]]) (by decide +kernel) c
set_option maxRecDepth 100000 in
theorem body_digit (c : UInt8) : IsDigit c → bodyFor T 22 c = some [.terminal [c]] :=
  forall_byte (p := fun c => IsDigit c → bodyFor T 22 c = some [.terminal [c]]) (by decide +kernel) c
set_option maxRecDepth 100000 in
theorem body_ruleChar (c : UInt8) :
    (IsLetter c → bodyFor T 20 c = some [.nonTerminal 21]) ∧ (IsDigit c → bodyFor T 20 c = some [.nonTerminal 22]) ∧
    (IsLetter c ∨ IsDigit c ∨ c = 45 → bodyFor T 19 c = some [.nonTerminal 20, .nonTerminal 19]) ∧
    (IsLetter c → bodyFor T 18 c = some [.nonTerminal 21, .nonTerminal 19]) :=
  forall_byte (p := fun c => (IsLetter c → bodyFor T 20 c = some [.nonTerminal 21]) ∧
    (IsDigit c → bodyFor T 20 c = some [.nonTerminal 22]) ∧
    (IsLetter c ∨ IsDigit c ∨ c = 45 → bodyFor T 19 c = some [.nonTerminal 20, .nonTerminal 19]) ∧
    (IsLetter c → bodyFor T 18 c = some [.nonTerminal 21, .nonTerminal 19])) (by decide +kernel) c
set_option maxRecDepth 100000 in
/-- Plain characters other than letters and digits. -/
theorem body_plain (c : UInt8) : IsPlain c →
    (IsLetter c ∧ bodyFor T 15 c = some [.nonTerminal 21]) ∨ (IsDigit c ∧ bodyFor T 15 c = some [.nonTerminal 22]) ∨
    (bodyFor T 15 c = some [.nonTerminal 23] ∧ bodyFor T 23 c = some [.terminal [c]]) :=
  forall_byte (p := fun c => IsPlain c →
    (IsLetter c ∧ bodyFor T 15 c = some [.nonTerminal 21]) ∨ (IsDigit c ∧ bodyFor T 15 c = some [.nonTerminal 22]) ∨
    (bodyFor T 15 c = some [.nonTerminal 23] ∧ bodyFor T 23 c = some [.terminal [c]])) (by decide +kernel) c
set_option maxRecDepth 100000 in
theorem body_chars (c : UInt8) : (IsPlain c ∨ c = 92 →
    bodyFor T 13 c = some [.nonTerminal 15] ∧ bodyFor T 14 c = some [.nonTerminal 15]) ∧
    (IsPlain c ∨ c = 92 ∨ c = 39 → bodyFor T 11 c = some [.nonTerminal 13, .nonTerminal 11]) ∧
    (IsPlain c ∨ c = 92 ∨ c = 34 → bodyFor T 12 c = some [.nonTerminal 14, .nonTerminal 12]) :=
  forall_byte (p := fun c => (IsPlain c ∨ c = 92 →
    bodyFor T 13 c = some [.nonTerminal 15] ∧ bodyFor T 14 c = some [.nonTerminal 15]) ∧
    (IsPlain c ∨ c = 92 ∨ c = 39 → bodyFor T 11 c = some [.nonTerminal 13, .nonTerminal 11]) ∧
    (IsPlain c ∨ c = 92 ∨ c = 34 → bodyFor T 12 c = some [.nonTerminal 14, .nonTerminal 12])) (by decide +kernel) c

/-! ## Names -/

theorem ruleChar_ {c : UInt8} {i : Nat} (h : At text i [c]) (hc : IsLetter c ∨ IsDigit c ∨ c = 45) :
    ∃ t, Derives T text [.nonTerminal 20] i (i + 1) [t] ∧ Only NameTypes t := by
  have hb := h.byte
  rcases hc with hc | hc | rfl
  · refine ⟨_, node_ (by rw [hb]; exact (body_ruleChar c).1 hc) (one_ (body_letter c hc) h), ?_⟩
    exact .mk (by decide) (by
      intro x hx; rw [List.mem_singleton] at hx; subst hx; exact leaf_only (by decide) (by decide))
  · refine ⟨_, node_ (by rw [hb]; exact (body_ruleChar c).2.1 hc) (one_ (body_digit c hc) h), ?_⟩
    exact .mk (by decide) (by
      intro x hx; rw [List.mem_singleton] at hx; subst hx; exact leaf_only (by decide) (by decide))
  · exact ⟨_, one_ (n := 20) (c := 45) rfl h, leaf_only (by decide) (by decide)⟩

theorem nameTail_ (rest : Str) (hr : ∀ d ∈ rest, IsLetter d ∨ IsDigit d ∨ d = 45) (i : Nat)
    (h : At text i (rest ++ [62])) :
    ∃ t, Derives T text [.nonTerminal 19] i (i + rest.length) [t] ∧ Only NameTypes t := by
  induction rest generalizing i with
  | nil =>
    refine ⟨_, empty_ (by rw [At.byte h]; rfl), .mk (by decide) ?_⟩
    intro c hc; rw [List.mem_singleton] at hc; subst hc; exact Only.nothing (by decide) _
  | cons d rest ih =>
    obtain ⟨h1, h2⟩ := At.cons h
    obtain ⟨t1, d1, o1⟩ := ruleChar_ h1 (hr d (by simp))
    obtain ⟨t2, d2, o2⟩ := ih (fun x hx => hr x (by simp [hx])) (i + 1) h2
    rw [show i + (d :: rest).length = i + 1 + rest.length by simp; omega]
    refine ⟨_, node_ (by rw [h1.byte]; exact (body_ruleChar d).2.2.1 (hr d (by simp))) (then_ d1 d2), ?_⟩
    · refine .mk (by decide) ?_
      intro c hc
      simp only [List.mem_cons, List.not_mem_nil, or_false] at hc
      rcases hc with rfl | rfl
      · exact o1
      · exact o2

theorem name_ {n : Str} (hn : LegalName n) {i : Nat} (h : At text i (n ++ [62])) :
    ∃ t, Derives T text [.nonTerminal 18] i (i + n.length) [t] ∧ Only NameTypes t ∧
      Read.text t text = .ok n := by
  obtain ⟨c, rest, rfl, hc, hr⟩ := hn
  obtain ⟨h1, h2⟩ := At.cons h
  obtain ⟨t2, d2, o2⟩ := nameTail_ rest hr (i + 1) h2
  have hd : Derives T text [.nonTerminal 18] i (i + (c :: rest).length)
      [.mk 18 i (i + (c :: rest).length) [leaf 21 i, t2]] := by
    have he : i + (c :: rest).length = i + 1 + rest.length := by simp; omega
    rw [he]
    exact node_ (by rw [h1.byte]; exact (body_ruleChar c).2.2.2 hc) (then_ (one_ (body_letter c hc) h1) d2)
  refine ⟨_, hd, ?_, ?_⟩
  · refine .mk (by decide) ?_
    intro x hx
    simp only [List.mem_cons, List.not_mem_nil, or_false] at hx
    rcases hx with rfl | rfl
    · exact leaf_only (by decide) (by decide)
    · exact o2
  · exact (At.append h).1.text (node_shape hd).2.1 (node_shape hd).2.2

/-! ## Blanks -/

theorem blanks_ (k : Nat) (i : Nat) (h : At text i (blanks k))
    (hf : bodyFor T 24 (byteAt text (i + k)) = some []) :
    ∃ t, Derives T text [.nonTerminal 24] i (i + k) [t] ∧ Only BlankTypes t := by
  induction k generalizing i with
  | zero =>
    refine ⟨_, empty_ hf, .mk (by decide) ?_⟩
    intro c hc; rw [List.mem_singleton] at hc; subst hc; exact Only.nothing (by decide) _
  | succ k ih =>
    rw [blanks, List.replicate_succ] at h
    obtain ⟨h1, h2⟩ := At.cons h
    have he : i + (k + 1) = i + 1 + k := by omega
    rw [he] at hf ⊢
    obtain ⟨t, d, o⟩ := ih (i + 1) h2 hf
    refine ⟨_, node_ (by rw [h1.byte]; rfl) (lit_ h1 d), .mk (by decide) ?_⟩
    intro x hx
    simp only [List.mem_cons, List.not_mem_nil, or_false] at hx
    rcases hx with rfl | rfl
    · exact Only.lit (by decide) (by decide) _
    · exact o

/-! ## Literals -/

/-- Read a piece of a terminal's text. -/
def piece (text : Str) (c : Node) : R Str :=
  if c.type = -1 then Read.text c text else Read.escape sk selfBindings text c

/-- The pieces below a node. -/
def pieces (t : Node) : List Node := topmost (fun _ => false) (fun t => decide (t = 16) || decide (t = -1)) t

theorem terminalName_eq (text : Str) (n : Node) : Read.terminalName sk selfBindings text n =
    (each (piece text) (pieces n) >>= fun ps => .ok ps.flatten) := rfl

/-- The tree spells `x`. -/
def Spells (text : Str) (t : Node) (x : Str) : Prop := ∃ ps, each (piece text) (pieces t) = .ok ps ∧ ps.flatten = x

theorem pieces_mk {n : Int} {i j : Nat} {cs : List Node} (h : n ≠ 16) (h' : n ≠ -1) :
    pieces (.mk n i j cs) = (cs.map pieces).flatten := by
  unfold pieces
  rw [topmost_mk]
  simp [h, h']

theorem spells_one {n : Int} {i j : Nat} {c : Node} {x : Str} (h : n ≠ 16) (h' : n ≠ -1) (hs : Spells text c x) :
    Spells text (.mk n i j [c]) x := by
  obtain ⟨ps, h1, h2⟩ := hs
  refine ⟨ps, ?_, h2⟩
  rw [pieces_mk h h']
  simpa using h1

theorem spells_two {n : Int} {i j : Nat} {c d : Node} {x y : Str} (h : n ≠ 16) (h' : n ≠ -1)
    (hs : Spells text c x) (hs' : Spells text d y) : Spells text (.mk n i j [c, d]) (x ++ y) := by
  obtain ⟨ps, h1, h2⟩ := hs
  obtain ⟨qs, h3, h4⟩ := hs'
  refine ⟨ps ++ qs, ?_, by simp [h2, h4]⟩
  rw [pieces_mk h h']
  simpa using each_append h1 h3

theorem spells_leaf {c : UInt8} {i : Nat} (h : At text i [c]) : Spells text (.mk (-1) i (i + 1) []) [c] := by
  refine ⟨[[c]], ?_, rfl⟩
  have : pieces (.mk (-1) i (i + 1) []) = [.mk (-1) i (i + 1) []] := topmost_hit rfl rfl
  rw [this]
  refine each_one ?_
  unfold piece
  rw [if_pos (show (Node.mk (-1) i (i + 1) []).type = -1 from rfl)]
  exact h.text rfl rfl

theorem spells_leafNode {n : Int} {c : UInt8} {i : Nat} (hn : n ≠ 16) (hn' : n ≠ -1) (h : At text i [c]) :
    Spells text (leaf n i) [c] := spells_one hn hn' (spells_leaf h)

theorem escape_ {e d : UInt8} {i : Nat} (he : escaped e = some d) (h : At text i [92, e]) :
    ∃ t, Derives T text [.nonTerminal 15] i (i + 2) [t] ∧ Only CharTypes t ∧ Spells text t [d] := by
  obtain ⟨h1, h2⟩ := At.cons h
  have hbody : bodyFor T 17 e = some [.terminal [e]] ∧ selfBindings.escapeMapping.get [e] = some [d] := by
    have := forall_byte (p := fun e => ∀ d ∈ escaped e, bodyFor T 17 e = some [.terminal [e]] ∧
      selfBindings.escapeMapping.get [e] = some [d]) (by decide +kernel) e
    exact this d he
  have d17 := one_ hbody.1 h2
  have d16 := node_ (n := 16) (tbl := T) (by rw [h1.byte]; rfl) (lit_ h1 d17)
  have d15 := node_ (n := 15) (tbl := T) (by rw [h1.byte]; rfl) d16
  refine ⟨_, d15, ?_, ?_⟩
  · refine .mk (by decide) ?_
    intro x hx; rw [List.mem_singleton] at hx; subst hx
    refine .mk (by decide) ?_
    intro x hx
    simp only [List.mem_cons, List.not_mem_nil, or_false] at hx
    rcases hx with rfl | rfl
    · exact Only.lit (by decide) (by decide) _
    · exact leaf_only (by decide) (by decide)
  · refine spells_one (by decide) (by decide) ⟨[[d]], ?_, rfl⟩
    have : pieces (.mk 16 i (i + 1 + 1) [literalNode [92] i, leaf 17 (i + 1)]) =
        [.mk 16 i (i + 1 + 1) [literalNode [92] i, leaf 17 (i + 1)]] := topmost_hit rfl rfl
    rw [this]
    refine each_one ?_
    unfold piece
    rw [if_neg (by simp)]
    unfold Read.escape
    have hf : Read.firstOf sk selfBindings.escapeCharacterType
        (.mk 16 i (i + 1 + 1) [literalNode [92] i, leaf 17 (i + 1)]) = some (leaf 17 (i + 1)) := by
      simp [Read.firstOf, Read.allOf, sk_eq, leaf, literalNode, selfBindings]
    rw [hf]
    simp only
    rw [h2.text (n := leaf 17 (i + 1)) rfl rfl]
    simp only [Res.ok_bind, hbody.2, Res.pure_eq]

/-- A character that is neither quote. -/
theorem plain_ {c : UInt8} {i : Nat} (hc : IsPlain c) (h : At text i [c]) :
    ∃ t, Derives T text [.nonTerminal 15] i (i + 1) [t] ∧ Only CharTypes t ∧ Spells text t [c] := by
  have key : ∀ n : Int, n = 21 ∨ n = 22 ∨ n = 23 → bodyFor T 15 c = some [.nonTerminal n] →
      bodyFor T n c = some [.terminal [c]] →
      ∃ t, Derives T text [.nonTerminal 15] i (i + 1) [t] ∧ Only CharTypes t ∧ Spells text t [c] := by
    intro n hn h1 h2
    refine ⟨_, node_ (by rw [h.byte]; exact h1) (one_ h2 h), ?_, ?_⟩
    · refine .mk (by decide) ?_
      intro x hx; rw [List.mem_singleton] at hx; subst hx
      refine leaf_only ?_ (by decide)
      rcases hn with rfl | rfl | rfl <;> decide
    · refine spells_one (by decide) (by decide) (spells_leafNode ?_ ?_ h) <;>
      rcases hn with rfl | rfl | rfl <;> decide
  rcases body_plain c hc with ⟨h1, h2⟩ | ⟨h1, h2⟩ | ⟨h1, h2⟩
  · exact key 21 (.inl rfl) h2 (body_letter c h1)
  · exact key 22 (.inr (.inl rfl)) h2 (body_digit c h1)
  · exact key 23 (.inr (.inr rfl)) h1 h2

/-- The quote, the text node and the character node of the two styles. -/
inductive Style : UInt8 → Int → Int → Prop
  | double : Style 34 11 13
  | single : Style 39 12 14

theorem char_ {q : UInt8} {nt nc : Int} (hq : Style q nt nc) {c : UInt8} {x : Str} (hc : CharText q c x) {i : Nat}
    (h : At text i x) :
    ∃ t, Derives T text [.nonTerminal nc] i (i + x.length) [t] ∧ Only (nc :: CharTypes) t ∧ Spells text t [c] ∧
      bodyFor T nt (byteAt text i) = some [.nonTerminal nc, .nonTerminal nt] := by
  have hnc : nc ≠ 16 ∧ nc ≠ -1 := by cases hq <;> decide
  have wrap : ∀ {k : Nat} {t : Node}, (bodyFor T 13 (byteAt text i) = some [.nonTerminal 15] ∧
      bodyFor T 14 (byteAt text i) = some [.nonTerminal 15]) →
      bodyFor T nt (byteAt text i) = some [.nonTerminal nc, .nonTerminal nt] →
      Derives T text [.nonTerminal 15] i (i + k) [t] → Only CharTypes t → Spells text t [c] →
      ∃ t, Derives T text [.nonTerminal nc] i (i + k) [t] ∧ Only (nc :: CharTypes) t ∧ Spells text t [c] ∧
        bodyFor T nt (byteAt text i) = some [.nonTerminal nc, .nonTerminal nt] := by
    intro k t hb hb' hd ho hs
    refine ⟨_, node_ (op := .nonTerminal 15) (ops := []) ?_ hd, ?_, spells_one hnc.1 hnc.2 hs, hb'⟩
    · cases hq
      · exact hb.1
      · exact hb.2
    · refine .mk (by simp) ?_
      intro y hy; rw [List.mem_singleton] at hy; subst hy
      exact ho.mono (fun z hz => List.mem_cons_of_mem _ hz)
  have esc : ∀ {e : UInt8}, escaped e = some c → x = [92, e] →
      ∃ t, Derives T text [.nonTerminal nc] i (i + x.length) [t] ∧ Only (nc :: CharTypes) t ∧ Spells text t [c] ∧
        bodyFor T nt (byteAt text i) = some [.nonTerminal nc, .nonTerminal nt] := by
    rintro e he rfl
    obtain ⟨t, hd, ho, hs⟩ := escape_ he h
    have hb := (At.cons h).1.byte
    refine wrap (k := 2) ?_ ?_ hd ho hs
    · rw [hb]; exact (body_chars 92).1 (.inr rfl)
    · rw [hb]
      cases hq
      · exact (body_chars 92).2.1 (.inr (.inl rfl))
      · exact (body_chars 92).2.2 (.inr (.inl rfl))
  cases hc with
  | plain hp =>
    obtain ⟨t, hd, ho, hs⟩ := plain_ hp h
    refine wrap (k := 1) ?_ ?_ hd ho hs
    · rw [h.byte]; exact (body_chars c).1 (.inl hp)
    · rw [h.byte]
      cases hq
      · exact (body_chars c).2.1 (.inl hp)
      · exact (body_chars c).2.2 (.inl hp)
  | otherQuote h1 h2 =>
    have hb : bodyFor T nc c = some [.terminal [c]] ∧ bodyFor T nt c = some [.nonTerminal nc, .nonTerminal nt] := by
      cases hq
      · rcases h1 with rfl | rfl
        · exact (h2 rfl).elim
        · decide +kernel
      · rcases h1 with rfl | rfl
        · decide +kernel
        · exact (h2 rfl).elim
    exact ⟨_, one_ hb.1 h, leaf_only (by simp) (by simp), spells_leafNode hnc.1 hnc.2 h, by rw [h.byte]; exact hb.2⟩
  | tab => exact esc (e := 116) rfl rfl
  | lf => exact esc (e := 110) rfl rfl
  | cr => exact esc (e := 114) rfl rfl
  | quote => exact esc (e := 34) rfl rfl
  | backslash => exact esc (e := 92) rfl rfl

theorem chars_ {q : UInt8} {nt nc : Int} (hq : Style q nt nc) {name body : Str} (hc : CharsText q name body)
    {i : Nat} (h : At text i (body ++ [q])) :
    ∃ t, Derives T text [.nonTerminal nt] i (i + body.length) [t] ∧ Only (nt :: nc :: CharTypes) t ∧
      Spells text t name := by
  have hnt : nt ≠ 16 ∧ nt ≠ -1 := by cases hq <;> decide
  induction hc generalizing i with
  | nil =>
    refine ⟨_, empty_ ?_, .mk (by simp) ?_, ?_⟩
    · rw [At.byte h]; cases hq <;> decide +kernel
    · intro c hc; rw [List.mem_singleton] at hc; subst hc; exact Only.nothing (by simp) _
    · exact spells_one hnt.1 hnt.2 ⟨[], by simp [pieces, nothingNode, each], rfl⟩
  | @cons c name x y hx _ ih =>
    rw [List.append_assoc] at h
    obtain ⟨h1, h2⟩ := At.append h
    obtain ⟨t1, d1, o1, s1, hb⟩ := char_ hq hx h1
    obtain ⟨t2, d2, o2, s2⟩ := ih h2
    refine ⟨.mk nt i (i + (x ++ y).length) [t1, t2], ?_, ?_, spells_two hnt.1 hnt.2 s1 s2⟩
    · rw [List.length_append, ← Nat.add_assoc]
      exact node_ hb (then_ d1 d2)
    · refine .mk (by simp) ?_
      intro z hz
      simp only [List.mem_cons, List.not_mem_nil, or_false] at hz
      rcases hz with rfl | rfl
      · exact o1.mono (fun z hz => List.mem_cons_of_mem _ hz)
      · exact o2

/-! ## Symbols -/

theorem topmost_node (hit : Int → Bool) {n : Int} {i j : Nat} {cs : List Node} (hn : n ≠ 25) (hh : hit n = false) :
    topmost sk hit (.mk n i j cs) = (cs.map (topmost sk hit)).flatten := by
  rw [topmost_mk, sk_eq, hh]
  simp [hn]

theorem topmost_lit (hit : Int → Bool) (h1 : hit (-1) = false) {s : Str} (hs : s ≠ []) (i : Nat) :
    topmost sk hit (literalNode s i) = [] := by
  unfold literalNode
  rw [if_neg hs, topmost_node hit (by decide) h1]
  rfl

theorem symbol_ {y : Symbol} {x : Str} (hy : SymbolText y x) {i : Nat} (h : At text i x) :
    ∃ t, Derives T text [.nonTerminal 9] i (i + x.length) [t] ∧ Read.symbol sk selfBindings text t = .ok y := by
  have lit : ∀ {name x : Str}, LiteralText name x → At text i x →
      ∃ t, Derives T text [.nonTerminal 9] i (i + x.length) [t] ∧
        Read.symbol sk selfBindings text t = .ok (if name = [] then .nothing else .terminal name) := by
    intro name x hl h
    cases hl with
    | @mk q body hq hc =>
      obtain ⟨nt, nc, hst⟩ : ∃ nt nc, Style q nt nc := by
        rcases hq with rfl | rfl
        · exact ⟨_, _, .double⟩
        · exact ⟨_, _, .single⟩
      obtain ⟨h1, h2⟩ := At.cons h
      obtain ⟨t, d, o, s⟩ := chars_ hst hc h2
      have h3 := (At.append h2).2
      have d10 : Derives T text [.nonTerminal 10] i (i + 1 + body.length + 1)
          [.mk 10 i (i + 1 + body.length + 1) [literalNode [q] i, t, literalNode [q] (i + 1 + body.length)]] := by
        refine node_ (op := .terminal [q]) (ops := [.nonTerminal nt, .terminal [q]]) ?_
          (lit_ h1 (then_ d (lit_ h3 (.nil _))))
        rw [h1.byte]
        cases hst <;> decide +kernel
      have d9 := node_ (n := 9) (tbl := T) (op := .nonTerminal 10) (ops := [])
        (by rw [h1.byte]; cases hst <;> decide +kernel) d10
      rw [show i + (q :: (body ++ [q])).length = i + 1 + body.length + 1 by simp; omega]
      refine ⟨_, d9, ?_⟩
      · have ht : t.type = nt := (node_shape d).1
        have hfind : selfBindings.symbolTerminalTypes.findSome? (fun ty => Read.firstOf sk ty
            (.mk 9 i (i + 1 + body.length + 1) [.mk 10 i (i + 1 + body.length + 1)
              [literalNode [q] i, t, literalNode [q] (i + 1 + body.length)]])) = some t := by
          have hh : ∀ ty : Int, ty = 11 ∨ ty = 12 → Read.firstOf sk ty
            (.mk 9 i (i + 1 + body.length + 1) [.mk 10 i (i + 1 + body.length + 1)
              [literalNode [q] i, t, literalNode [q] (i + 1 + body.length)]]) =
              (topmost sk (fun x => decide (x = ty)) t).head? := by
            intro ty hty
            unfold Read.firstOf Read.allOf
            rw [topmost_node _ (by decide) (by rcases hty with rfl | rfl <;> rfl), List.map_singleton,
              List.flatten_cons, List.flatten_nil, List.append_nil,
              topmost_node _ (by decide) (by rcases hty with rfl | rfl <;> rfl)]
            simp only [List.map_cons, List.map_nil, List.flatten_cons, List.flatten_nil, List.append_nil]
            rw [topmost_lit _ (by rcases hty with rfl | rfl <;> rfl) (by simp),
              topmost_lit _ (by rcases hty with rfl | rfl <;> rfl) (by simp)]
            simp
          have e : selfBindings.symbolTerminalTypes = [11, 12] := rfl
          rw [e]
          cases hst with
          | double =>
            rw [List.findSome?_cons, hh 11 (.inl rfl), topmost_hit (by rw [ht]; rfl) (by rw [ht]; rfl)]
            rfl
          | single =>
            rw [List.findSome?_cons, hh 11 (.inl rfl), o.topmost sk _ (by decide)]
            simp only [List.head?_nil]
            rw [List.findSome?_cons, hh 12 (.inr rfl), topmost_hit (by rw [ht]; rfl) (by rw [ht]; rfl)]
            rfl
        obtain ⟨ps, hp, hfl⟩ := s
        unfold Read.symbol
        rw [hfind]
        simp only
        rw [terminalName_eq, hp]
        simp only [Res.ok_bind, hfl, Res.pure_eq]
  cases hy with
  | nonTerminal hn =>
    rename_i n
    obtain ⟨h1, h2⟩ := At.cons h
    obtain ⟨t, d, o, s⟩ := name_ hn h2
    have h3 := (At.append h2).2
    have d9 : Derives T text [.nonTerminal 9] i (i + 1 + n.length + 1)
        [.mk 9 i (i + 1 + n.length + 1) [literalNode [60] i, t, literalNode [62] (i + 1 + n.length)]] :=
      node_ (op := .terminal [60]) (ops := [.nonTerminal 18, .terminal [62]]) (by rw [h1.byte]; rfl)
        (lit_ h1 (then_ d (lit_ h3 (.nil _))))
    rw [show i + (60 :: (n ++ [62])).length = i + 1 + n.length + 1 by simp; omega]
    refine ⟨_, d9, ?_⟩
    · have hh : ∀ ty : Int, ty = 11 ∨ ty = 12 ∨ ty = 18 → Read.firstOf sk ty
          (.mk 9 i (i + 1 + n.length + 1) [literalNode [60] i, t, literalNode [62] (i + 1 + n.length)]) =
          (topmost sk (fun x => decide (x = ty)) t).head? := by
        intro ty hty
        unfold Read.firstOf Read.allOf
        rw [topmost_node _ (by decide) (by rcases hty with rfl | rfl | rfl <;> rfl)]
        simp only [List.map_cons, List.map_nil, List.flatten_cons, List.flatten_nil, List.append_nil]
        rw [topmost_lit _ (by rcases hty with rfl | rfl | rfl <;> rfl) (by simp),
          topmost_lit _ (by rcases hty with rfl | rfl | rfl <;> rfl) (by simp)]
        simp
      unfold Read.symbol
      have e : selfBindings.symbolTerminalTypes = [11, 12] := rfl
      have e' : selfBindings.symbolNonTerminalType = 18 := rfl
      rw [e, List.findSome?_cons, hh 11 (.inl rfl), o.topmost sk _ (by decide)]
      simp only [List.head?_nil]
      rw [List.findSome?_cons, hh 12 (.inr (.inl rfl)), o.topmost sk _ (by decide)]
      simp only [List.head?_nil, List.findSome?_nil]
      rw [e', hh 18 (.inr (.inr rfl)), topmost_hit (by rw [(node_shape d).1]; rfl) (by rw [(node_shape d).1]; rfl)]
      simp [s]
  | terminal h1 h2 =>
    obtain ⟨t, d, s⟩ := lit h2 h
    exact ⟨t, d, by simpa [h1] using s⟩
  | nothing h2 =>
    obtain ⟨t, d, s⟩ := lit h2 h
    exact ⟨t, d, by simpa using s⟩

/-- Symbols begin with a quote or `<`. -/
def Opens (c : UInt8) : Prop := c = 34 ∨ c = 39 ∨ c = 60

theorem symbolText_opens {y : Symbol} {x : Str} (h : SymbolText y x) : ∃ c z, x = c :: z ∧ Opens c := by
  have lit : ∀ {n : Str}, LiteralText n x → ∃ c z, x = c :: z ∧ Opens c := by
    intro n h
    cases h with
    | mk hq _ => exact ⟨_, _, rfl, by rcases hq with rfl | rfl <;> simp [Opens]⟩
  cases h with
  | nonTerminal _ => exact ⟨60, _, rfl, by simp [Opens]⟩
  | terminal _ h => exact lit h
  | nothing h => exact lit h

theorem seqText_opens {ys : List Symbol} {x : Str} (h : SeqText ys x) : ∃ c z, x = c :: z ∧ Opens c := by
  cases h with
  | one k h => obtain ⟨c, z, rfl, ho⟩ := symbolText_opens h; exact ⟨c, _, rfl, ho⟩
  | cons k h _ => obtain ⟨c, z, rfl, ho⟩ := symbolText_opens h; exact ⟨c, _, rfl, ho⟩

theorem altsText_opens {ss : List Sequence} {x : Str} (h : AltsText ss x) : ∃ c z, x = c :: z ∧ Opens c := by
  cases h with
  | one h => exact seqText_opens h
  | cons k h _ => obtain ⟨c, z, rfl, ho⟩ := seqText_opens h; exact ⟨c, _, rfl, ho⟩

/-! ## Sequences -/

/-- The bytes that end a sequence. -/
def EndsSeq (c : UInt8) : Prop := c = 124 ∨ c = 10 ∨ c = 13 ∨ c = 0

theorem seq_ {ys : List Symbol} {x : Str} (hx : SeqText ys x) {i : Nat} (h : At text i x)
    (hf : EndsSeq (byteAt text (i + x.length))) :
    ∃ cs, Derives T text [.nonTerminal 9, .nonTerminal 24, .nonTerminal 8] i (i + x.length) cs ∧
      each (Read.symbol sk selfBindings text)
        ((cs.map (topmost sk (fun t => decide (t = 9)))).flatten) = .ok ys := by
  induction hx generalizing i with
  | @one y x k hy =>
    obtain ⟨h1, h2⟩ := At.append h
    obtain ⟨t, d, s⟩ := symbol_ hy h1
    rw [List.length_append, ← Nat.add_assoc] at hf ⊢
    rw [blanks, List.length_replicate] at hf ⊢
    obtain ⟨u, du, ou⟩ := blanks_ k _ h2 (by
      rcases hf with hf | hf | hf | hf <;> rw [hf] <;> rfl)
    have d8 : Derives T text [.nonTerminal 8] (i + x.length + k) (i + x.length + k)
        [.mk 8 (i + x.length + k) (i + x.length + k) [nothingNode (i + x.length + k)]] :=
      empty_ (by rcases hf with hf | hf | hf | hf <;> rw [hf] <;> rfl)
    refine ⟨_, then_ d (then_ du d8), ?_⟩
    simp only [List.map_cons, List.map_nil, List.flatten_cons, List.flatten_nil, List.append_nil]
    rw [topmost_hit (by rw [(node_shape d).1]; rfl) (by rw [(node_shape d).1]; rfl), ou.topmost sk _ (by decide),
      topmost_node _ (by decide) (by decide)]
    simp only [List.map_cons, List.map_nil, List.flatten_cons, List.flatten_nil, List.append_nil]
    rw [topmost_nothing _ _ (by decide)]
    exact each_one s
  | @cons y ys x z k hy hz ih =>
    obtain ⟨h1, h2⟩ := At.append h
    obtain ⟨hbl, h3⟩ := At.append h2
    obtain ⟨t, d, s⟩ := symbol_ hy h1
    simp only [List.length_append] at hf ⊢
    simp only [← Nat.add_assoc] at hf ⊢
    rw [blanks, List.length_replicate] at hf h3 ⊢
    obtain ⟨c, z', rfl, ho⟩ := seqText_opens hz
    have hbyte : byteAt text (i + x.length + k) = c := h3.byte
    obtain ⟨u, du, ou⟩ := blanks_ k _ hbl (by
      rw [hbyte]
      rcases ho with rfl | rfl | rfl <;> rfl)
    obtain ⟨cs, dcs, scs⟩ := ih h3 hf
    have d8 : Derives T text [.nonTerminal 8] (i + x.length + k) (i + x.length + k + (c :: z').length)
        [.mk 8 (i + x.length + k) (i + x.length + k + (c :: z').length) cs] :=
      node_ (by rw [hbyte]; rcases ho with rfl | rfl | rfl <;> rfl) dcs
    refine ⟨_, then_ d (then_ du d8), ?_⟩
    simp only [List.map_cons, List.map_nil, List.flatten_cons, List.flatten_nil, List.append_nil]
    rw [topmost_hit (by rw [(node_shape d).1]; rfl) (by rw [(node_shape d).1]; rfl), ou.topmost sk _ (by decide),
      topmost_node _ (by decide) (by decide), List.nil_append]
    exact each_append (each_one s) scs

theorem list_ {s : Sequence} {x : Str} (hx : SeqText s.symbols x) {i : Nat} (h : At text i x)
    (hf : EndsSeq (byteAt text (i + x.length))) :
    ∃ t, Derives T text [.nonTerminal 7] i (i + x.length) [t] ∧
      Read.sequence sk selfBindings text t = .ok s := by
  obtain ⟨cs, d, r⟩ := seq_ hx h hf
  obtain ⟨c, z, rfl, ho⟩ := seqText_opens hx
  refine ⟨_, node_ (by rw [h.byte]; rcases ho with rfl | rfl | rfl <;> rfl) d, ?_⟩
  unfold Read.sequence Read.allOf
  rw [topmost_node _ (by decide) (by decide)]
  have : selfBindings.sequencesSymbolType = 9 := rfl
  rw [this, r]
  rfl

/-! ## Alternatives -/

/-- The bytes that end a rule. -/
def EndsRule (c : UInt8) : Prop := c = 10 ∨ c = 13 ∨ c = 0

theorem alts_ {ss : List Sequence} {x : Str} (hx : AltsText ss x) {i : Nat} (h : At text i x)
    (hf : EndsRule (byteAt text (i + x.length))) :
    ∃ cs, Derives T text [.nonTerminal 7, .nonTerminal 6] i (i + x.length) cs ∧
      each (Read.sequence sk selfBindings text)
        ((cs.map (topmost sk (fun t => decide (t = 7)))).flatten) = .ok ss := by
  induction hx generalizing i with
  | @one s x hs =>
    obtain ⟨t, d, r⟩ := list_ hs h (.inr hf)
    have d6 : Derives T text [.nonTerminal 6] (i + x.length) (i + x.length)
        [.mk 6 (i + x.length) (i + x.length) [nothingNode (i + x.length)]] :=
      empty_ (by rcases hf with hf | hf | hf <;> rw [hf] <;> rfl)
    refine ⟨_, then_ d d6, ?_⟩
    simp only [List.map_cons, List.map_nil, List.flatten_cons, List.flatten_nil, List.append_nil]
    rw [topmost_hit (by rw [(node_shape d).1]; rfl) (by rw [(node_shape d).1]; rfl),
      topmost_node _ (by decide) (by decide)]
    simp only [List.map_cons, List.map_nil, List.flatten_cons, List.flatten_nil, List.append_nil]
    rw [topmost_nothing _ _ (by decide)]
    exact each_one r
  | @cons s ss x z k hs hz ih =>
    obtain ⟨h1, h2⟩ := At.append h
    obtain ⟨hbar, h2⟩ := At.cons h2
    obtain ⟨hbl, h3⟩ := At.append h2
    obtain ⟨t, d, r⟩ := list_ hs h1 (.inl hbar.byte)
    have elen : i + (x ++ 124 :: (blanks k ++ z)).length = i + x.length + 1 + k + z.length := by
      simp [blanks]; omega
    rw [elen] at hf ⊢
    rw [blanks, List.length_replicate] at h3
    obtain ⟨c, z', rfl, ho⟩ := altsText_opens hz
    obtain ⟨u, du, ou⟩ := blanks_ k _ hbl (by
      rw [h3.byte]
      rcases ho with rfl | rfl | rfl <;> rfl)
    obtain ⟨cs, dcs, scs⟩ := ih h3 hf
    have d6 := node_ (n := 6) (tbl := T) (by rw [hbar.byte]; rfl) (lit_ hbar (then_ du dcs))
    refine ⟨_, then_ d d6, ?_⟩
    simp only [List.map_cons, List.map_nil, List.flatten_cons, List.flatten_nil, List.append_nil]
    rw [topmost_hit (by rw [(node_shape d).1]; rfl) (by rw [(node_shape d).1]; rfl),
      topmost_node _ (by decide) (by decide)]
    simp only [List.map_cons, List.flatten_cons]
    rw [topmost_lit _ (by decide) (by decide), ou.topmost sk _ (by decide), List.nil_append, List.nil_append]
    exact each_append (each_one r) scs

/-! ## Rules -/

theorem rule_ {r : Rule} {x : Str} (hx : RuleText r x) {i : Nat} (h : At text i x)
    (hf : EndsRule (byteAt text (i + x.length))) :
    ∃ t, Derives T text [.nonTerminal 4] i (i + x.length) [t] ∧
      Read.rule sk selfBindings text t = .ok r := by
  cases hx with
  | @mk head alts x k l hn hx =>
    obtain ⟨h1, h⟩ := At.cons h
    have hname : At text (i + 1) (head ++ [62]) := by
      rw [List.append_cons] at h
      exact (At.append h).1
    obtain ⟨-, h⟩ := At.append h
    obtain ⟨hgt, h⟩ := At.cons h
    obtain ⟨hb1, h⟩ := At.append h
    obtain ⟨hdef, h⟩ := At.append h
    obtain ⟨hb2, h⟩ := At.append h
    have elen : i + (60 :: (head ++ 62 :: (blanks k ++ (b!"::=" ++ (blanks l ++ x))))).length =
        i + 1 + head.length + 1 + k + 3 + l + x.length := by
      simp [blanks]; omega
    rw [elen] at hf ⊢
    simp only [blanks, List.length_replicate] at hdef hb2 h
    obtain ⟨c, x', rfl, ho⟩ := altsText_opens hx
    obtain ⟨tn, dn, on, sn⟩ := name_ hn hname
    obtain ⟨u, du, ou⟩ := blanks_ k _ hb1 (by rw [hdef.byte]; rfl)
    obtain ⟨v, dv, ov⟩ := blanks_ l _ hb2 (by
      rw [h.byte]
      rcases ho with rfl | rfl | rfl <;> rfl)
    obtain ⟨cs, dcs, scs⟩ := alts_ hx h hf
    have d5 := node_ (n := 5) (tbl := T) (by rw [h.byte]; rcases ho with rfl | rfl | rfl <;> rfl) dcs
    have d4 := node_ (n := 4) (tbl := T) (by rw [h1.byte]; rfl)
      (lit_ h1 (then_ dn (lit_ hgt (then_ du (lit_ hdef (then_ dv d5))))))
    refine ⟨_, d4, ?_⟩
    have hhead : ∀ p1 p2 p3 p4 p5, Read.firstOf sk selfBindings.ruleHeadType (.mk 4 i p1 [literalNode [60] i, tn,
        literalNode [62] p2, u, literalNode b!"::=" p3, v, .mk 5 p4 p5 cs]) = some tn := by
      intro p1 p2 p3 p4 p5
      unfold Read.firstOf Read.allOf
      rw [topmost_node _ (by decide) (by decide)]
      simp only [List.map_cons, List.flatten_cons]
      rw [topmost_lit _ (by decide) (by decide),
        topmost_hit (by rw [(node_shape dn).1]; rfl) (by rw [(node_shape dn).1]; rfl)]
      rfl
    have htail : ∀ p1 p2 p3 p4 p5, Read.firstOf sk selfBindings.ruleTailType (.mk 4 i p1 [literalNode [60] i, tn,
        literalNode [62] p2, u, literalNode b!"::=" p3, v, .mk 5 p4 p5 cs]) = some (.mk 5 p4 p5 cs) := by
      intro p1 p2 p3 p4 p5
      unfold Read.firstOf Read.allOf
      rw [topmost_node _ (by decide) (by decide)]
      simp only [List.map_cons, List.flatten_cons, List.map_nil, List.flatten_nil, List.append_nil]
      rw [topmost_lit _ (by decide) (by decide), on.topmost sk _ (by decide), topmost_lit _ (by decide) (by decide),
        ou.topmost sk _ (by decide), topmost_lit _ (by decide) (by decide), ov.topmost sk _ (by decide),
        topmost_hit (t := .mk 5 _ _ cs) rfl rfl]
      rfl
    unfold Read.rule
    rw [hhead]
    simp only
    rw [sn, Res.ok_bind, htail]
    simp only
    unfold Read.substitution Read.allOf
    rw [topmost_node _ (by decide) (by decide)]
    have : selfBindings.expressionSequencesType = 7 := rfl
    rw [this, scs]
    rfl

theorem ruleText_opens {r : Rule} {x : Str} (h : RuleText r x) : ∃ z, x = 60 :: z := by
  cases h with
  | mk k l _ _ => exact ⟨_, rfl⟩

/-! ## Lines -/

theorem eol_ {e : Str} (he : IsEol e) {i : Nat} (h : At text i e) :
    ∃ t, Derives T text [.nonTerminal 25] i (i + e.length) [t] ∧
      bodyFor T 1 (byteAt text i) = some [.nonTerminal 25, .nonTerminal 2, .nonTerminal 1] := by
  rcases he with rfl | rfl
  · exact ⟨_, node_ (op := .terminal [10]) (by rw [h.byte]; rfl) (lit_ h (.nil _)), by rw [h.byte]; rfl⟩
  · exact ⟨_, node_ (op := .terminal [13, 10]) (by rw [h.byte]; rfl) (lit_ h (.nil _)), by rw [h.byte]; rfl⟩

theorem topmost_eol (hit : Int → Bool) {t : Node} {i j : Nat} (d : Derives T text [.nonTerminal 25] i j [t]) :
    topmost sk hit t = [] := by
  have := (node_shape d).1
  cases t with
  | mk ty p q cs =>
    simp only [Node.type_mk] at this
    subst this
    rw [topmost_mk, sk_eq]
    rfl

theorem linesText_ends {rs : List Rule} {x : Str} (h : LinesText rs x) {i : Nat} (ha : At text i x)
    (hf : byteAt text (i + x.length) = 0) : EndsRule (byteAt text i) := by
  have eol : ∀ {e z : Str}, IsEol e → At text i (e ++ z) → EndsRule (byteAt text i) := by
    rintro e z (rfl | rfl) h
    · exact .inl (At.byte h)
    · exact .inr (.inl (At.byte h))
  cases h with
  | nil => exact .inr (.inr hf)
  | blank k he _ => exact eol he ha
  | rule k he _ _ => exact eol he ha

theorem lines_ {rs : List Rule} {x : Str} (hx : LinesText rs x) {i : Nat} (h : At text i x)
    (hf : byteAt text (i + x.length) = 0) :
    ∃ t, Derives T text [.nonTerminal 1] i (i + x.length) [t] ∧
      each (Read.rule sk selfBindings text) (topmost sk (fun t => decide (t = 4)) t) = .ok rs := by
  induction hx generalizing i with
  | nil =>
    refine ⟨_, empty_ (by rw [show i = i + ([] : Str).length from rfl, hf]; rfl), ?_⟩
    rw [topmost_node _ (by decide) (by decide)]
    simp only [List.map_cons, List.map_nil, List.flatten_cons, List.flatten_nil, List.append_nil]
    rw [topmost_nothing _ _ (by decide)]
    rfl
  | @blank rs e z k he hz ih =>
    obtain ⟨h1, h2⟩ := At.append h
    obtain ⟨h2, h3⟩ := At.append h2
    have elen : i + (e ++ (blanks k ++ z)).length = i + e.length + k + z.length := by
      simp [blanks]; omega
    rw [elen] at hf ⊢
    have hb : (blanks k).length = k := by simp [blanks]
    rw [hb] at h3
    obtain ⟨te, de, be⟩ := eol_ he h1
    obtain ⟨t1, d1, r1⟩ := ih h3 hf
    have hend := linesText_ends hz h3 hf
    have hfin : ∀ (t2 : Node), Derives T text [.nonTerminal 2] (i + e.length) (i + e.length + k) [t2] →
        topmost sk (fun t => decide (t = 4)) t2 = [] →
        ∃ t, Derives T text [.nonTerminal 1] i (i + e.length + k + z.length) [t] ∧
          each (Read.rule sk selfBindings text) (topmost sk (fun t => decide (t = 4)) t) = .ok rs := by
      intro t2 d2 h2
      refine ⟨_, node_ be (then_ de (then_ d2 d1)), ?_⟩
      rw [topmost_node _ (by decide) (by decide)]
      simp only [List.map_cons, List.map_nil, List.flatten_cons, List.flatten_nil, List.append_nil]
      rw [topmost_eol _ de, h2]
      exact r1
    cases k with
    | zero =>
      refine hfin _ (empty_ ?_) ?_
      · rcases hend with hf | hf | hf <;> simp only [Nat.add_zero] at hf <;> rw [hf] <;> rfl
      · rw [topmost_node _ (by decide) (by decide)]
        simp only [List.map_cons, List.map_nil, List.flatten_cons, List.flatten_nil, List.append_nil]
        rw [topmost_nothing _ _ (by decide)]
    | succ k =>
      obtain ⟨u, du, ou⟩ := blanks_ (k + 1) _ h2 (by
        rcases hend with hf | hf | hf <;> rw [hf] <;> rfl)
      have d3 : Derives T text [.nonTerminal 3] (i + e.length + (k + 1)) (i + e.length + (k + 1)) _ :=
        empty_ (by rcases hend with hf | hf | hf <;> rw [hf] <;> rfl)
      refine hfin _ (node_ ?_ (then_ du d3)) ?_
      · rw [blanks, List.replicate_succ] at h2
        rw [h2.byte]; rfl
      · rw [topmost_node _ (by decide) (by decide)]
        simp only [List.map_cons, List.map_nil, List.flatten_cons, List.flatten_nil, List.append_nil]
        rw [ou.topmost sk _ (by decide), topmost_node _ (by decide) (by decide)]
        simp only [List.map_cons, List.map_nil, List.flatten_cons, List.flatten_nil, List.append_nil]
        rw [topmost_nothing _ _ (by decide)]
        rfl
  | @rule r rs e x z k he hr hz ih =>
    obtain ⟨h1, h2⟩ := At.append h
    obtain ⟨hbl, h3⟩ := At.append h2
    obtain ⟨h3, h4⟩ := At.append h3
    have elen : i + (e ++ (blanks k ++ (x ++ z))).length = i + e.length + k + x.length + z.length := by
      simp [blanks]; omega
    rw [elen] at hf ⊢
    have hb : (blanks k).length = k := by simp [blanks]
    rw [hb] at h3 h4
    obtain ⟨te, de, be⟩ := eol_ he h1
    obtain ⟨t1, d1, r1⟩ := ih h4 hf
    have hend := linesText_ends hz h4 hf
    obtain ⟨tr, dr, rr⟩ := rule_ hr h3 hend
    obtain ⟨x', rfl⟩ := ruleText_opens hr
    obtain ⟨u, du, ou⟩ := blanks_ k _ hbl (by rw [h3.byte]; rfl)
    have d3 := node_ (n := 3) (tbl := T) (op := .nonTerminal 4) (ops := []) (by rw [h3.byte]; rfl) dr
    have d2 := node_ (n := 2) (tbl := T) (op := .nonTerminal 24) (ops := [.nonTerminal 3]) (by
      cases k with
      | zero => rw [show i + e.length = i + e.length + 0 from rfl, h3.byte]; rfl
      | succ k => rw [blanks, List.replicate_succ] at hbl; rw [hbl.byte]; rfl) (then_ du d3)
    refine ⟨_, node_ be (then_ de (then_ d2 d1)), ?_⟩
    rw [topmost_node _ (by decide) (by decide)]
    simp only [List.map_cons, List.map_nil, List.flatten_cons, List.flatten_nil, List.append_nil]
    rw [topmost_eol _ de, topmost_node _ (by decide) (by decide)]
    simp only [List.map_cons, List.map_nil, List.flatten_cons, List.flatten_nil, List.append_nil]
    rw [ou.topmost sk _ (by decide), topmost_node _ (by decide) (by decide)]
    simp only [List.map_cons, List.map_nil, List.flatten_cons, List.flatten_nil, List.append_nil, List.nil_append]
    rw [topmost_hit (by rw [(node_shape dr).1]; rfl) (by rw [(node_shape dr).1]; rfl)]
    exact each_append (each_one rr) r1

/-! ## Grammars -/

/-- Every layout of `g` is derived by the BNF table, and the tree reads as `g`. -/
theorem grammar_ {g : Grammar} {text : Str} (h : GrammarText g text) :
    ∃ t, Derives T text [.nonTerminal 0] 0 text.length [t] ∧ selfBindings.toAST t text = .ok g := by
  cases h with
  | @mk r rs x z k hr hz =>
    have h : At (blanks k ++ (x ++ z)) 0 (blanks k ++ (x ++ z)) := ⟨[], [], by simp, rfl⟩
    generalize htext : blanks k ++ (x ++ z) = text at h
    have hlen : text.length = k + x.length + z.length := by rw [← htext]; simp [blanks]; omega
    have hzero : byteAt text text.length = 0 := by simp [byteAt]
    have h : At text 0 (blanks k ++ (x ++ z)) := by rw [htext]; exact h
    obtain ⟨h1, h2⟩ := At.append h
    obtain ⟨h2, h3⟩ := At.append h2
    have hb : (blanks k).length = k := by simp [blanks]
    rw [hb, Nat.zero_add] at h2 h3
    obtain ⟨t1, d1, r1⟩ := lines_ hz h3 (by rw [← hlen]; exact hzero)
    have hend := linesText_ends hz h3 (by rw [← hlen]; exact hzero)
    obtain ⟨tr, dr, rr⟩ := rule_ hr h2 hend
    obtain ⟨x', rfl⟩ := ruleText_opens hr
    obtain ⟨u, du, ou⟩ := blanks_ k _ h1 (by rw [Nat.zero_add, h2.byte]; rfl)
    rw [Nat.zero_add] at du
    rw [hlen]
    refine ⟨_, node_ (op := .nonTerminal 24) (ops := [.nonTerminal 4, .nonTerminal 1]) ?_
      (then_ du (then_ dr d1)), ?_⟩
    · cases k with
      | zero => rw [h2.byte]; rfl
      | succ k => rw [blanks, List.replicate_succ] at h1; rw [h1.byte]; rfl
    · rw [FC.toAST_eq]
      show Read.grammar sk selfBindings text _ = _
      unfold Read.grammar Read.allOf
      have : selfBindings.ruleType = 4 := rfl
      rw [this, topmost_node _ (by decide) (by decide)]
      simp only [List.map_cons, List.map_nil, List.flatten_cons, List.flatten_nil, List.append_nil]
      rw [ou.topmost sk _ (by decide), topmost_hit (by rw [(node_shape dr).1]; rfl) (by rw [(node_shape dr).1]; rfl),
        List.nil_append, each_append (each_one rr) r1]
      rfl

end BnfParse
end LL1
