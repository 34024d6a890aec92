import Verif.Spec.Grammar

/-!
# Two rewritings of grammars: common beginnings and left recursion

The second is the one the repository's test grammars document (testgrammars.go:151-157):
`T ::= T "B" | "_"` becomes `T ::= "_" Ta`, `Ta ::= "" | "B" Ta`.
-/

namespace LL1

/-- An empty list of symbols is written `""`. -/
def orNothing (ys : List Symbol) : List Symbol := if ys = [] then [.nothing] else ys

/-- `""` before another symbol is left out. -/
def dropNothing (ys : List Symbol) : List Symbol := if ys = [.nothing] then [] else ys

/-- `name` is not used in `g`. -/
def Fresh (g : Grammar) (name : Str) : Prop :=
  (∀ i, ¬ g.Head i name) ∧ ∀ i alt, g.Alt i alt → Symbol.nonTerminal name ∉ alt.symbols

/-- `g'` is `g` with the alternatives of rule `j` (whose head stays) replaced by `alts`, and with a rule `name ::= new` added
at the end; `name` was not used. -/
structure Rewrites (g g' : Grammar) (j : Nat) (r : Rule) (alts : List Sequence) (name : Str) (new : List Sequence) : Prop where
  rule : g.rules[j]? = some r
  result : g'.rules = g.rules.set j ⟨r.head, ⟨alts⟩⟩ ++ [⟨name, ⟨new⟩⟩]
  fresh : Fresh g name

/-- Common beginnings: the alternatives `pre post` of rule `j`, for `post` in `posts`, become the one alternative `pre name`, with
`name ::= post | …`; the alternatives `keep` stay.  Places in the lists do not matter. -/
def Factors (g g' : Grammar) : Prop :=
  ∃ (j : Nat) (r : Rule) (alts : List Sequence) (name : Str) (new : List Sequence) (pre : List Symbol)
    (posts : List (List Symbol)) (keep : List Sequence), Rewrites g g' j r alts name new ∧ posts ≠ [] ∧
    r.tail.sequences.Perm (posts.map (fun p => Sequence.mk (pre ++ p)) ++ keep) ∧
    alts.Perm (⟨pre ++ [.nonTerminal name]⟩ :: keep) ∧
    new.Perm (posts.map fun p => Sequence.mk (orNothing p))

/-- Left recursion: the alternatives of rule `j` are `T a`, where `T` refers to the rule itself, and others, `b`.  They become
`b name`, with `name ::= "" | a name | …`. -/
def Resolves (g g' : Grammar) : Prop :=
  ∃ (j : Nat) (r : Rule) (alts : List Sequence) (name : Str) (new : List Sequence) (as bs : List (List Symbol)), Rewrites g g' j r alts name new ∧ g.Refers r.head j ∧
    r.tail.sequences.Perm (as.map (fun a => Sequence.mk (.nonTerminal r.head :: a)) ++ bs.map Sequence.mk) ∧
    alts.Perm (bs.map fun b => Sequence.mk (dropNothing b ++ [.nonTerminal name])) ∧
    new.Perm (⟨[.nothing]⟩ :: as.map fun a => Sequence.mk (a ++ [.nonTerminal name]))

/-- Any number of such rewritings. -/
inductive Remedied (g : Grammar) : Grammar → Prop
  | refl : Remedied g g
  | factor {h h' : Grammar} : Remedied g h → Factors h h' → Remedied g h'
  | resolve {h h' : Grammar} : Remedied g h → Resolves h h' → Remedied g h'

end LL1
