import Verif.Model.Parser
import Verif.Spec.Grammar

/-!
# Renumbered tables, trees read through names, rearranged grammars
-/

namespace LL1

/-- The operation with its rule number changed. -/
def ParserOp.renumber (σ : Int → Int) : ParserOp → ParserOp
  | .nonTerminal n => .nonTerminal (σ n)
  | .function n pos amount => .function (σ n) pos amount
  | op => op

mutual
/-- The tree with its rule numbers changed. -/
def Node.renumber (σ : Int → Int) : Node → Node
  | .mk n s e cs => .mk (σ n) s e (Node.renumberAll σ cs)
def Node.renumberAll (σ : Int → Int) : List Node → List Node
  | [] => []
  | c :: cs => Node.renumber σ c :: Node.renumberAll σ cs
end

/-- A tree whose nodes carry names instead of numbers. -/
inductive NamedTree where
  | mk (name : Option Str) (start stop : Nat) (childs : List NamedTree)

mutual
/-- The tree as a user reads it: every number looked up in the map of names. -/
def Node.named (m : Names) : Node → NamedTree
  | .mk n s e cs => .mk (m.get n) s e (Node.namedAll m cs)
def Node.namedAll (m : Names) : List Node → List NamedTree
  | [] => []
  | c :: cs => Node.named m c :: Node.namedAll m cs
end

/-- Table and names `tbl'`, `m'` are `tbl`, `m` with the rows renumbered by `σ`, which keeps the start row
and the built-in numbers. -/
structure Renumbered (σ : Int → Int) (tbl tbl' : Table) (m m' : Names) : Prop where
  start : σ 0 = 0
  neg : ∀ n, n < 0 → σ n = n
  nonneg : ∀ n, 0 ≤ n → 0 ≤ σ n
  absent : ∀ n, 0 ≤ n → tbl.get n = none → tbl'.get (σ n) = none
  rows : ∀ n row, 0 ≤ n → tbl.get n = some row → ∃ row', tbl'.get (σ n) = some row' ∧
    ∀ b, GoMap.get row' b = (GoMap.get row b).map (List.map (ParserOp.renumber σ))
  names : ∀ n, m'.get (σ n) = m.get n

/-- `g'` has the rules of `g` in another order, the first one still first, each with its alternatives in
another order. -/
structure Rearranged (g g' : Grammar) : Prop where
  first : ∀ r r', g.rules[0]? = some r → g'.rules[0]? = some r' → r'.head = r.head
  here : ∀ r ∈ g.rules, ∃ r' ∈ g'.rules, r'.head = r.head ∧ r'.tail.sequences.Perm r.tail.sequences
  there : ∀ r' ∈ g'.rules, ∃ r ∈ g.rules, r.head = r'.head ∧ r.tail.sequences.Perm r'.tail.sequences

end LL1
