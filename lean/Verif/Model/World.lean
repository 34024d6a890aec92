import Verif.Model.Parser

/-!
# Several parsers over maps the caller still holds

`NewLL1Parser` (parser.go:143-146) stores the two maps it is given; nothing is copied.  A map value in Go is a
reference, and so are the inner maps of a table and the arrays under its operation slices.  The caller can keep them,
put them into other parsers, and edit them between calls.  This file models such a program: four heaps (operation
arrays, inner maps, outer maps, names maps), parsers that hold references, the caller's edits and the `Parse` calls.
Simplifications: calls do not overlap in time (`Model/Concurrent.lean` does that case); maps and arrays are never
freed or allocated — every reference names a map that starts out empty or as the caller filled it.
-/

namespace LL1

/-- A Go slice `[]ParserOp`: a window of a backing array. -/
structure OpSlice where
  arr : Nat
  lo : Nat
  len : Nat
  deriving DecidableEq, Repr

/-- The caller's memory.  In `rows` and `tables` the references are Go map values (`none` = a nil map). -/
structure World where
  arrays : Nat → List ParserOp
  rows : Nat → GoMap UInt8 OpSlice
  tables : Nat → GoMap Int (Option Nat)
  names : Nat → Names

/-- `ll1parser_t` — parser.go:138-141: two map values. -/
structure ParserRef where
  table : Option Nat
  names : Option Nat
  deriving DecidableEq, Repr

/-- `NewLL1Parser` — parser.go:143-146. -/
def newLL1Parser (table names : Option Nat) : ParserRef := { table := table, names := names }

/-- What the loop over `opsToPush` reads — parser.go:257-260. -/
def World.ops (w : World) (s : OpSlice) : List ParserOp := ((w.arrays s.arr).drop s.lo).take s.len

/-- What an inner map value shows; a nil map shows nothing. -/
def World.row (w : World) : Option Nat → Row
  | none => []
  | some r => (w.rows r).map fun e => (e.1, w.ops e.2)

/-- What an outer map value shows. -/
def World.table (w : World) : Option Nat → Table
  | none => []
  | some t => (w.tables t).map fun e => (e.1, w.row e.2)

/-- What a parser sees when it looks through its references: parser.go:235, 242, 248, 257-260, 476, 480. -/
def World.parser (w : World) (p : ParserRef) : Parser :=
  { table := w.table p.table, names := p.names.map w.names }

/-- Function update: memory cell `i` becomes `v`. -/
def upd {α : Type} (f : Nat → α) (i : Nat) (v : α) : Nat → α := fun j => if j = i then v else f j

/-- Something the program does. -/
inductive Event where
  /-- `arr[i] = op` -/
  | setOp (arr i : Nat) (op : ParserOp)
  /-- `row[c] = slice` -/
  | setCell (row : Nat) (c : UInt8) (s : OpSlice)
  /-- `delete(row, c)` -/
  | delCell (row : Nat) (c : UInt8)
  /-- `table[n] = row` -/
  | setRow (table : Nat) (n : Int) (row : Option Nat)
  /-- `delete(table, n)` -/
  | delRow (table : Nat) (n : Int)
  /-- `names[n] = s` -/
  | setName (names : Nat) (n : Int) (s : Str)
  /-- `delete(names, n)` -/
  | delName (names : Nat) (n : Int)
  /-- `p.Parse(src)` -/
  | parse (p : ParserRef) (src : Source)

/-- `delete(m, k)` -/
def GoMap.del {K V : Type} [DecidableEq K] (m : GoMap K V) (k : K) : GoMap K V := m.filter fun e => decide (e.1 ≠ k)

/-- The caller's edits; a `Parse` call is not one. -/
def World.edit (w : World) : Event → World
  | .setOp a i op => { w with arrays := upd w.arrays a ((w.arrays a).set i op) }
  | .setCell r c s => { w with rows := upd w.rows r ((w.rows r).set c s) }
  | .delCell r c => { w with rows := upd w.rows r ((w.rows r).del c) }
  | .setRow t n r => { w with tables := upd w.tables t ((w.tables t).set n r) }
  | .delRow t n => { w with tables := upd w.tables t ((w.tables t).del n) }
  | .setName m n s => { w with names := upd w.names m ((w.names m).set n s) }
  | .delName m n => { w with names := upd w.names m ((w.names m).del n) }
  | .parse _ _ => w

/-- The memory after a call that ended with `o`: a successful call has written its two names into the parser's
names map — parser.go:367-369. -/
def World.afterParse (w : World) (p : ParserRef) : Outcome → World
  | .ok _ m =>
    match p.names with
    | none => w
    | some r => { w with names := upd w.names r m }
  | _ => w

/-- One event, and what the program sees of it (`none` for an edit). -/
inductive World.Does (w : World) : Event → World → Option Outcome → Prop
  | edit {e : Event} (h : ∀ p src, e ≠ .parse p src) : World.Does w e (w.edit e) none
  | parse {p : ParserRef} {src : Source} {o : Outcome} (h : (w.parser p).Returns src o) :
      World.Does w (.parse p src) (w.afterParse p o) (some o)

/-- A program run: its events one after the other, and what it sees of each. -/
inductive World.Runs : World → List Event → World → List (Option Outcome) → Prop
  | nil {w : World} : World.Runs w [] w []
  | cons {w w' w'' : World} {e : Event} {es : List Event} {o : Option Outcome} {os : List (Option Outcome)}
      (h : w.Does e w' o) (ht : World.Runs w' es w'' os) : World.Runs w (e :: es) w'' (o :: os)

end LL1
