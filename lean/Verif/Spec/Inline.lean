import Verif.Spec.DTree

/-!
# Writing out a rule that has only one alternative
-/

namespace LL1

/-- The symbols with every reference to `name` replaced by `body`. -/
def writeOut (name : Str) (body : List Symbol) (ys : List Symbol) : List Symbol :=
  ys.flatMap fun y => if y = .nonTerminal name then body else [y]

/-- `g'` is `g` with every reference to rule `q`, which is `name ::= body` and not the first rule, replaced by `body`; rule `q`
itself stays.  No other rule has that head, and `body` does not refer to it. -/
structure WrittenOut (g g' : Grammar) (name : Str) (q : Nat) (body : List Symbol) : Prop where
  rule : g.rules[q]? = some ⟨name, ⟨[⟨body⟩]⟩⟩
  notFirst : q ≠ 0
  only : ∀ i, g.Head i name → i = q
  free : Symbol.nonTerminal name ∉ body
  result : g'.rules = g.rules.map fun r => ⟨r.head, ⟨r.tail.sequences.map fun s => ⟨writeOut name body s.symbols⟩⟩⟩

mutual
/-- A derivation tree without its nodes for rule `q`: such a node is replaced by what is below it. -/
def DTree.without (q : Nat) : DTree → List DTree
  | .leaf t => [.leaf t]
  | .empty => [.empty]
  | .node i k cs => if i = q then DTree.withouts q cs else [.node i k (DTree.withouts q cs)]
def DTree.withouts (q : Nat) : List DTree → List DTree
  | [] => []
  | c :: cs => c.without q ++ DTree.withouts q cs
end

end LL1
