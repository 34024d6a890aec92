import Verif.Spec.Grammar
import Verif.Spec.Tree
import Verif.Spec.Derivation

/-!
# Cutting literals into pieces

`"abc"` or `"a" "bc"`: what it means that two grammars, tables or trees differ only in this.
-/

namespace LL1

/-- The second sequence of symbols is the first with some terminals cut into non-empty pieces. -/
inductive Cut : List Symbol → List Symbol → Prop
  | nil : Cut [] []
  | same (x : Symbol) {a b : List Symbol} : Cut a b → Cut (x :: a) (x :: b)
  | cut (u v : Str) {a b : List Symbol} : u ≠ [] → v ≠ [] → Cut (.terminal v :: a) b →
      Cut (.terminal (u ++ v) :: a) (.terminal u :: b)

/-- The second grammar is the first with some terminals cut into non-empty pieces. -/
def CutGrammar (g g' : Grammar) : Prop :=
  AllPairs (fun r r' => r.head = r'.head ∧
    AllPairs (fun s s' => Cut s.symbols s'.symbols) r.tail.sequences r'.tail.sequences) g.rules g'.rules

/-- The same for operations. -/
inductive CutOps : List ParserOp → List ParserOp → Prop
  | nil : CutOps [] []
  | same (x : ParserOp) {a b : List ParserOp} : CutOps a b → CutOps (x :: a) (x :: b)
  | cut (u v : Str) {a b : List ParserOp} : u ≠ [] → v ≠ [] → CutOps (.terminal v :: a) b →
      CutOps (.terminal (u ++ v) :: a) (.terminal u :: b)

/-- The same rows, with the same keys, whose cells differ in cut terminals only. -/
def CutTable (tbl tbl' : Table) : Prop :=
  AllPairs (fun e e' => e.1 = e'.1 ∧ AllPairs (fun c c' => c.1 = c'.1 ∧ CutOps c.2 c'.2) e.2 e'.2) tbl tbl'

/-- The second list of nodes is the first with some literal leaves cut into non-empty consecutive pieces, here or below. -/
inductive CutNodes : List Node → List Node → Prop
  | nil : CutNodes [] []
  | same (t : Int) (i k : Nat) {cs cs' a b : List Node} : CutNodes cs cs' → CutNodes a b →
      CutNodes (.mk t i k cs :: a) (.mk t i k cs' :: b)
  | cut (i j k : Nat) {a b : List Node} : i < j → j < k → CutNodes (.mk (-1) j k [] :: a) b →
      CutNodes (.mk (-1) i k [] :: a) (.mk (-1) i j [] :: b)

/-- The results of two `Parse` calls are the same, but for cut leaves in the trees. -/
def CutOutcome : Outcome → Outcome → Prop
  | .ok t m, .ok t' m' => m' = m ∧ CutNodes [t] [t']
  | .err e, .err e' => e' = e
  | .panic x, .panic x' => x' = x
  | _, _ => False

end LL1
