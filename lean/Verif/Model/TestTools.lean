import Verif.Model.Parser

/-!
# Model of the helpers in `test/`

`FprintTreeNamed` (test/cst/cst_test.go) and the map comparison of `testcommon`.  Not modelled: failing
writers, `testing.T` logging.
-/

namespace LL1
namespace TestTools

/-- Panics of `namedVisitor.Visit`. -/
inductive VPanic where
  | sliceBounds
  deriving DecidableEq, Repr

/-- `strings.Repeat(s, n)` for `n ≥ 0`. -/
def repeatStr (s : Str) : Nat → Str
  | 0 => []
  | n + 1 => s ++ repeatStr s n

/-- `(*v.str)[node.Pos():node.End()]` — test/cst/cst_test.go:44. -/
def nodeText (str : Str) (n : Node) : Except VPanic Str :=
  if n.pos ≤ n.stop ∧ n.stop ≤ str.length then .ok ((str.drop n.pos).take (n.stop - n.pos)) else .error .sliceBounds

/-- `namedVisitor.Visit` — test/cst/cst_test.go:32-52.  The visitor value is its `level`; the state is
the contents of the string builder.  `node == nil` cannot occur in the model. -/
def namedVisitor (names : Names) (str : Str) : Visitor Nat Str VPanic where
  visit level node out :=
    match nodeText str node with
    | .error p => .error p
    | .ok t => .ok (out ++ (repeatStr b!"  " level ++ ((nodeTypeName (some names) node.type).render ++
        (b!": string(" ++ (t ++ b!")\n")))), some (level + 1))

/-- The text `FprintTreeNamed` hands to the writer — test/cst/cst_test.go:54-58. -/
def fprintTreeNamed (root : Node) (names : Names) (str : Str) : Except VPanic Str :=
  walk (namedVisitor names str) 0 root []

/-- `delete(m, k)`. -/
def delete {V : Type} (m : GoMap Int V) (k : Int) : GoMap Int V := m.filter fun e => decide (e.1 ≠ k)

/-- One of the copying loops `for k := range a { adiff[k] = a[k] }` — test/testcommon/testcommon.go:20-22,
24-26; `keys` are the keys of `a` in iteration order. -/
def copyLoop (a : Names) : List Int → Names → Names
  | [], d => d
  | k :: ks, d => copyLoop a ks (d.set k ((a.get k).getD []))

/-- The comparing loop — test/testcommon/testcommon.go:28-39; `keys` are the keys of `adiff` in iteration
order (only the current key is deleted while iterating, so every key is visited once). -/
def compareLoop : List Int → Names → Names → GoMap Int (Str × Str) → Names × Names × GoMap Int (Str × Str)
  | [], adiff, bdiff, miss => (adiff, bdiff, miss)
  | k :: ks, adiff, bdiff, miss =>
    match adiff.get k with
    | none => compareLoop ks adiff bdiff miss
    | some aval =>
      match bdiff.get k with
      | none => compareLoop ks adiff bdiff miss
      | some bval =>
        compareLoop ks (delete adiff k) (delete bdiff k) (if aval ≠ bval then miss.set k (aval, bval) else miss)

/-- `IsMapsIntStringEqual` — test/testcommon/testcommon.go:9-45.  `ka`, `kb`, `kd`: the keys of `a`, `b` and
`adiff` in the order in which the three loops see them. -/
def isMapsIntStringEqual (ka kb kd : List Int) (a b : Names) :
    Names × Names × GoMap Int (Str × Str) × Bool :=
  let r := compareLoop kd (copyLoop a ka []) (copyLoop b kb []) []
  (r.1, r.2.1, r.2.2, decide (r.1.length = 0 ∧ r.2.1.length = 0 ∧ r.2.2.length = 0))

mutual
/-- Go's `%v` of a `cst` node (used for the reference files, test/parser/parser_test.go:79, 114). -/
def fmtNode : Node → Str
  | .mk t s e cs => b!"{" ++ (fmtInt t ++ (32 :: (fmtNat s ++ (32 :: (fmtNat e ++ (b!" [" ++ (fmtNodes cs ++ b!"]}")))))))
/-- The elements of the slice of children. -/
def fmtNodes : List Node → Str
  | [] => []
  | [c] => fmtNode c
  | c :: cs => fmtNode c ++ (32 :: fmtNodes cs)
end

/-- Puts an entry into a list sorted by keys. -/
def insertKey (e : Int × Str) : Names → Names
  | [] => [e]
  | f :: m => if e.1 ≤ f.1 then e :: f :: m else f :: insertKey e m

/-- Go's `%v` of a `map[int]string`: the entries in key order. -/
def fmtNames (m : Names) : Str :=
  b!"map[" ++ (List.intercalate [32] ((m.foldr insertKey []).map fun e => fmtInt e.1 ++ (58 :: e.2)) ++ b!"]")

end TestTools
end LL1
