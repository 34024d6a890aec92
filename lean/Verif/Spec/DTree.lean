import Verif.Spec.Grammar
import Verif.Spec.Derivation

/-!
# Derivation trees of a grammar

The textbook notion: inner nodes are rules with the alternative taken, leaves are terminals.  Nothing here
knows of tables or of the parser; `toNode` says which tree of the package depicts a derivation tree.
-/

namespace LL1

/-- Derivation trees. -/
inductive DTree where
  | leaf (t : Str)
  | empty
  | node (rule alt : Nat) (childs : List DTree)

mutual
/-- The string a derivation tree derives. -/
def DTree.yield : DTree → Str
  | .leaf t => t
  | .empty => []
  | .node _ _ cs => DTree.yields cs
def DTree.yields : List DTree → Str
  | [] => []
  | c :: cs => c.yield ++ DTree.yields cs
end

/-- `DTrees g ys ts`: the trees `ts` derive the symbols `ys`, one tree per symbol.  Below a node for
alternative `k` of rule `i` are trees for the symbols of that alternative. -/
inductive DTrees (g : Grammar) : List Symbol → List DTree → Prop
  | nil : DTrees g [] []
  | terminal {t : Str} {rest : List Symbol} {ts : List DTree} :
      DTrees g rest ts → DTrees g (.terminal t :: rest) (.leaf t :: ts)
  | nothing {rest : List Symbol} {ts : List DTree} :
      DTrees g rest ts → DTrees g (.nothing :: rest) (.empty :: ts)
  | nonTerminal {name : Str} {i k : Nat} {r : Rule} {alt : Sequence} {rest : List Symbol} {cs ts : List DTree} :
      g.Refers name i → g.rules[i]? = some r → r.tail.sequences[k]? = some alt →
      DTrees g alt.symbols cs → DTrees g rest ts →
      DTrees g (.nonTerminal name :: rest) (.node i k cs :: ts)

/-- `t` is a derivation tree of `w` from rule `i`. -/
def IsDTree (g : Grammar) (i : Nat) (w : Str) (t : DTree) : Prop :=
  ∃ r k alt cs, g.rules[i]? = some r ∧ r.tail.sequences[k]? = some alt ∧ DTrees g alt.symbols cs ∧
    t = .node i k cs ∧ t.yield = w

mutual
/-- The tree of the package for a derivation tree whose string starts at offset `pos`: a node that derives
the empty string has the single child "nothing", whatever is below it. -/
def DTree.toNode (pos : Nat) : DTree → Node
  | .leaf t => literalNode t pos
  | .empty => nothingNode pos
  | .node i _ cs =>
    .mk i pos (pos + (DTree.yields cs).length)
      (if DTree.yields cs = [] then [nothingNode pos] else DTree.toNodes pos cs)
def DTree.toNodes (pos : Nat) : List DTree → List Node
  | [] => []
  | c :: cs => c.toNode pos :: DTree.toNodes (pos + c.yield.length) cs
end

end LL1
