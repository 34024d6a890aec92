import Verif.Model.World

/-!
# `NewParserOpList`

parser.go:134-136.  `append([]ParserOp{}, parserOps...)`.  Called with `list...`, its parameter is the caller's slice
itself; called with single operations, it is a slice over an array made for the call.
-/

namespace LL1

/-- `NewParserOpList(parserOps...)` — parser.go:134-136.  `append` to a slice without room: with nothing to append, it is
that empty slice; otherwise a new array `a`, with the operations and `spare` cells of unused room (nil interface values)
after them.  `a` and `spare` are chosen by the Go runtime; the theorems hold for each choice of an array that is not in
use.  Simplification: that the empty result is not nil is left out, no code asks. -/
def World.newParserOpList (w : World) (a spare : Nat) (parserOps : OpSlice) : World × OpSlice :=
  if w.ops parserOps = [] then (w, ⟨a, 0, 0⟩)
  else ({ w with arrays := upd w.arrays a (w.ops parserOps ++ List.replicate spare .nil) },
    ⟨a, 0, (w.ops parserOps).length⟩)

end LL1
