import Verif.Model.ParserHeap

/-!
# What a tree in memory says
-/

namespace LL1
namespace PH

/-- The array a slice occupies, if any. -/
def own (s : SliceRef) : List Nat := if s.cap = 0 then [] else [s.arr]

mutual
/-- `Shows m t h fp`: in memory `m` the node `h` is the tree `t`, and `fp` lists the arrays of child slices in it, one
entry per node that has any. -/
def Shows (m : Mem HNode) : Node → HNode → List Nat → Prop
  | .mk ty p e cs, h, fp => h.type = ty ∧ h.pos = p ∧ h.stop = e ∧
      ∃ fp', ShowsAll m cs (m.read h.childs) fp' ∧ fp = own h.childs ++ fp'
def ShowsAll (m : Mem HNode) : List Node → List HNode → List Nat → Prop
  | [], hs, fp => hs = [] ∧ fp = []
  | n :: ns, hs, fp => ∃ h hs' fp1 fp2, hs = h :: hs' ∧ Shows m n h fp1 ∧ ShowsAll m ns hs' fp2 ∧ fp = fp1 ++ fp2
end

/-- How the two runs end: the same way, and the tree in memory is the tree as a value. -/
inductive OutRel (base : Nat) (m : Mem HNode) : HOutcome → Outcome → Prop
  | ok {h : HNode} {t : Node} {names : Names} {fp : List Nat} : Shows m t h fp → fp.Nodup →
      (∀ a ∈ fp, base ≤ a ∧ a < m.next) → OutRel base m (.ok h names) (.ok t names)
  | err {e : PErr} : OutRel base m (.err e) (.err e)
  | panic {p : PPanic} : OutRel base m (.panic p) (.panic p)

/-- In memory `m` the node `h` is the tree `t`: this is what a caller sees who looks at it. -/
def Says (m : Mem HNode) (h : HNode) (t : Node) : Prop := ∃ fp, Shows m t h fp

/-- Follow child positions from a node: `h.Childs()[i].Childs()[j]…` -/
def HNode.descend (m : Mem HNode) (h : HNode) : List Nat → Option HNode
  | [] => some h
  | i :: path =>
    match (m.read h.childs)[i]? with
    | none => none
    | some c => HNode.descend m c path

/-- The tree with the node at a path replaced. -/
def _root_.LL1.Node.replaceAt : Node → List Nat → Node → Node
  | _, [], x => x
  | .mk ty p e cs, i :: path, x => .mk ty p e (cs.modify i fun n => Node.replaceAt n path x)

/-- Some calls of `Parse` one after the other — by any parsers — on one memory, and how they end. -/
inductive Calls (grow : Nat → Nat → Nat) : Mem ParserOp → Mem HNode → List (Parser × Source) → Mem ParserOp → Mem HNode →
    List HOutcome → Prop
  | nil {om : Mem ParserOp} {nm : Mem HNode} : Calls grow om nm [] om nm []
  | cons {om om' om'' : Mem ParserOp} {nm nm' nm'' : Mem HNode} {p : Parser} {src : Source} {calls : List (Parser × Source)}
      {o : HOutcome} {os : List HOutcome} {fuel : Nat} : parseFuel grow p fuel src om nm = some (om', nm', o) →
      Calls grow om' nm' calls om'' nm'' os → Calls grow om nm ((p, src) :: calls) om'' nm'' (o :: os)

/-- In memory `m`, the results are those of the calls, and `fp` lists the arrays of all the trees. -/
inductive Results (m : Mem HNode) : List (Parser × Source) → List HOutcome → List Nat → Prop
  | nil : Results m [] [] []
  | ok {p : Parser} {src : Source} {calls : List (Parser × Source)} {os : List HOutcome} {fp fps : List Nat} {t : Node}
      {h : HNode} {names : Names} : p.Returns src (.ok t names) → Shows m t h fp → Results m calls os fps →
      Results m ((p, src) :: calls) (.ok h names :: os) (fp ++ fps)
  | err {p : Parser} {src : Source} {calls : List (Parser × Source)} {os : List HOutcome} {fps : List Nat} {e : PErr} :
      p.Returns src (.err e) → Results m calls os fps → Results m ((p, src) :: calls) (.err e :: os) fps
  | panic {p : Parser} {src : Source} {calls : List (Parser × Source)} {os : List HOutcome} {fps : List Nat} {e : PPanic} :
      p.Returns src (.panic e) → Results m calls os fps → Results m ((p, src) :: calls) (.panic e :: os) fps

end PH
end LL1
