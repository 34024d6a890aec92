import Verif.Spec.Grammar

/-!
# Left recursion

When a parser asks for a non-terminal while it works on another one, in terms of tables and texts and in terms of
grammars.  No stacks here.
-/

namespace LL1

/-- Working on row `x.1` from offset `x.2` of the source, the next thing to do after some of the operations of the cell
have been derived is row `y.1`, at offset `y.2`. -/
def Enters (tbl : Table) (src : Str) (x y : Int × Nat) : Prop :=
  ∃ pre post cs, bodyFor tbl x.1 (byteAt src x.2) = some (pre ++ .nonTerminal y.1 :: post) ∧
    Derives tbl src pre x.2 y.2 cs

/-- In zero or more steps. -/
inductive Steps {α : Type} (r : α → α → Prop) : α → α → Prop
  | refl {x : α} : Steps r x x
  | step {x y z : α} : Steps r x y → r y z → Steps r x z

/-- In one or more steps. -/
def Steps1 {α : Type} (r : α → α → Prop) (x z : α) : Prop := ∃ y, Steps r x y ∧ r y z

/-- Left corner: some alternative of rule `i` refers to rule `k` after symbols that can all be empty. -/
def LeftCorner (g : Grammar) (i k : Nat) : Prop :=
  ∃ alt pre name post, g.Alt i alt ∧ alt.symbols = pre ++ .nonTerminal name :: post ∧ Nullable g pre ∧ g.Refers name k

/-- Some alternative of rule `i` refers to rule `k`. -/
def Mentions (g : Grammar) (i k : Nat) : Prop :=
  ∃ alt name, g.Alt i alt ∧ .nonTerminal name ∈ alt.symbols ∧ g.Refers name k

/-- Rule `i` is left-recursive (directly, indirectly, or behind symbols that can be empty). -/
def LeftRecursive (g : Grammar) (i : Nat) : Prop := Steps1 (LeftCorner g) i i

end LL1
