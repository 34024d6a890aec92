import Verif.Spec.DTree

/-!
# Making the end of an alternative a rule of its own
-/

namespace LL1

/-- `g'` is `g` after this edit: alternative `k` of rule `j`, which reads `pre post`, becomes `pre name`, and a rule
`name ::= post` is added at the end of the grammar; `name` is a new name. -/
structure Extract (g g' : Grammar) (name : Str) (j k : Nat) (r : Rule) (pre post : List Symbol) : Prop where
  rule : g.rules[j]? = some r
  alt : r.tail.sequences[k]? = some ⟨pre ++ post⟩
  nonempty : post ≠ []
  result : g'.rules =
    g.rules.set j ⟨r.head, ⟨r.tail.sequences.set k ⟨pre ++ [.nonTerminal name]⟩⟩⟩ ++ [⟨name, ⟨[⟨post⟩]⟩⟩]
  freshHead : ∀ i, ¬ g.Head i name
  freshUse : ∀ i alt, g.Alt i alt → Symbol.nonTerminal name ∉ alt.symbols

/-- `g'` comes from `g` by one such edit. -/
def Extracts (g g' : Grammar) : Prop := ∃ name j k r pre post, Extract g g' name j k r pre post

/-- `g'` comes from `g` by any number of such edits. -/
inductive Reshaped (g : Grammar) : Grammar → Prop
  | refl : Reshaped g g
  | step {h h' : Grammar} : Reshaped g h → Extracts h h' → Reshaped g h'

mutual
/-- A derivation tree without its nodes for rules numbered `n` and above: such a node is replaced by what is below it. -/
def DTree.splice (n : Nat) : DTree → List DTree
  | .leaf t => [.leaf t]
  | .empty => [.empty]
  | .node i k cs => if n ≤ i then DTree.splices n cs else [.node i k (DTree.splices n cs)]
def DTree.splices (n : Nat) : List DTree → List DTree
  | [] => []
  | c :: cs => c.splice n ++ DTree.splices n cs
end

end LL1
