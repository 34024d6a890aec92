import Verif.Model.Cst
import Verif.Spec.Grammar

/-!
# The JSON example with an arbitrary grammar file: why it stops
-/

namespace LL1

/-- `FromGrammar` has a reason to reject the grammar, and the words it uses. -/
inductive Reason (g : Grammar) : Str → Prop
  | nothingNotAlone {i : Nat} {alt : Sequence} : g.Alt i alt → .nothing ∈ alt.symbols → alt.symbols ≠ [.nothing] →
      Reason g b!"empty string is not a single sequence symbol"
  | undefined {i : Nat} {alt : Sequence} {name : Str} : g.Alt i alt → .nonTerminal name ∈ alt.symbols →
      (∀ j, ¬ g.Head j name) → Reason g (b!"no rules defined for non terminal <" ++ name ++ b!">")
  | conflict {i : Nat} : Clash g i → Reason g b!"grammar lead to multiple parser op sets per table cell"

/-- Nodes the key printer looks at: it does not go below nodes whose type is more than 10. -/
inductive LookedAt : Node → Node → Prop
  | root {n : Node} : LookedAt n n
  | child {n c m : Node} : n.type ≤ 10 → c ∈ n.childs → LookedAt c m → LookedAt n m

/-- `node.Childs()[0].Childs()[1]` exists. -/
def HasKey (n : Node) : Prop := ∃ c d, n.childs[0]? = some c ∧ c.childs[1]? = some d

mutual
/-- What the key printer writes for a node at nesting depth `lv`: nothing for nodes of type above 10; one line per node of
type 6, with two blanks per enclosing node of type 9 or 10 and the text of `Childs()[0].Childs()[1]`, before the lines for
what is below it; otherwise the lines for the children in order. -/
inductive KeyLines (text : Str) : Nat → Node → Str → Prop
  | skipped {lv : Nat} {n : Node} : n.type > 10 → KeyLines text lv n []
  | key {lv : Nat} {n c d : Node} {below : Str} : n.type = 6 → n.childs[0]? = some c → c.childs[1]? = some d →
      KeyLinesAll text lv n.childs below →
      KeyLines text lv n (List.replicate (2 * lv) 32 ++ (text.drop d.pos).take (d.stop - d.pos) ++ [10] ++ below)
  | deeper {lv : Nat} {n : Node} {below : Str} : n.type = 9 ∨ n.type = 10 → KeyLinesAll text (lv + 1) n.childs below →
      KeyLines text lv n below
  | same {lv : Nat} {n : Node} {below : Str} : n.type ≤ 8 → n.type ≠ 6 → KeyLinesAll text lv n.childs below →
      KeyLines text lv n below
/-- The same for several nodes, one after the other. -/
inductive KeyLinesAll (text : Str) : Nat → List Node → Str → Prop
  | nil {lv : Nat} : KeyLinesAll text lv [] []
  | cons {lv : Nat} {n : Node} {ns : List Node} {a b : Str} : KeyLines text lv n a → KeyLinesAll text lv ns b →
      KeyLinesAll text lv (n :: ns) (a ++ b)
end

mutual
/-- What the key printer has written when it comes, in the order of the tree, to the first node of type 6 that has no
`Childs()[0].Childs()[1]`: the lines for everything before that node. -/
inductive LinesBefore (text : Str) : Nat → Node → Str → Prop
  | here {lv : Nat} {n : Node} : n.type = 6 → ¬ HasKey n → LinesBefore text lv n []
  | key {lv : Nat} {n c d : Node} {below : Str} : n.type = 6 → n.childs[0]? = some c → c.childs[1]? = some d →
      LinesBeforeIn text lv n.childs below →
      LinesBefore text lv n (List.replicate (2 * lv) 32 ++ (text.drop d.pos).take (d.stop - d.pos) ++ [10] ++ below)
  | deeper {lv : Nat} {n : Node} {below : Str} : n.type = 9 ∨ n.type = 10 → LinesBeforeIn text (lv + 1) n.childs below →
      LinesBefore text lv n below
  | same {lv : Nat} {n : Node} {below : Str} : n.type ≤ 8 → n.type ≠ 6 → LinesBeforeIn text lv n.childs below →
      LinesBefore text lv n below
/-- The same for several nodes: all lines of some nodes, and then the node in which it happens. -/
inductive LinesBeforeIn (text : Str) : Nat → List Node → Str → Prop
  | first {lv : Nat} {n : Node} {ns : List Node} {a : Str} : LinesBefore text lv n a → LinesBeforeIn text lv (n :: ns) a
  | later {lv : Nat} {n : Node} {ns : List Node} {a b : Str} : KeyLines text lv n a → LinesBeforeIn text lv ns b →
      LinesBeforeIn text lv (n :: ns) (a ++ b)
end

end LL1
