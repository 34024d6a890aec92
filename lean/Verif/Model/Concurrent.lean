import Verif.Model.Parser

/-!
# Several goroutines calling `Parse` on one parser

`ll1parser_t` holds two maps; `Parse` has a value receiver (parser.go:474), so every call shares the
maps and owns everything else (`realParser` is a local variable, parser.go:490-496).  A goroutine is
therefore the state of one call; the only shared mutable thing is the names map.  One `tstep` is one
iteration of the parsing loop, except that `processEOS` (parser.go:352-372) is split so that its two
map writes are separate steps.  Simplification: a map read or write is atomic.  (In Go unsynchronised
map writes are a data race; `Props/Concurrent.lean` proves that the race is reachable.)
-/

namespace LL1

/-- What a finished call hands back.  On success the names are a pointer to the shared map. -/
inductive TResult where
  | ok (tree : Node)
  | err (e : PErr)
  | panic (p : PPanic)

/-- The state of one call of `Parse`: not started; inside the loop; between the two map writes
(parser.go:368 and :369); returned. -/
inductive Thread where
  | ready (src : Source)
  | run (text : Str) (s : PState)
  | wroteLiteral (tree : Node)
  | finished (r : TResult)

/-- The call after a loop iteration: parser.go:413-415, 438-441. -/
def Thread.ofStep (text : Str) : StepRes → Thread
  | .next s' => .run text s'
  | .done (.ok t _) => .finished (.ok t)
  | .done (.err e) => .finished (.err e)
  | .done (.panic p) => .finished (.panic p)

/-- One step of one call: new shared map, new state.  `ready`: parser.go:474-496;  `run`: one loop
iteration, parser.go:396-449, where reaching `opEOS` runs parser.go:352-368;  `wroteLiteral`:
parser.go:369-371. -/
def tstep (table : Table) (names : Option Names) : Thread → Option Names × Thread
  | .ready src =>
    (names,
      if table.length = 0 then .finished (.err .emptyTable)
      else match table.get 0 with
        | none => .finished (.err .noEntry)
        | some _ =>
          match readSource src with
          | .error e => .finished (.err e)
          | .ok text => .run text initState)
  | .run text s =>
    match s.opStack with
    | .eos :: _ =>
      if peek text s.offset ≠ 0 then (names, .finished (.err (.expectedEnd (peek text s.offset))))
      else
        match s.prodStack with
        | [] => (names, .finished (.err .prodStackEmpty))
        | n :: _ =>
          match names with
          | none => (names, .finished (.panic .nilMapWrite))
          | some m => (some (m.set builtinTerminal b!"_literal"), .wroteLiteral n)
    | _ => (names, Thread.ofStep text (step table names text s))
  | .wroteLiteral n =>
    match names with
    | none => (names, .finished (.panic .nilMapWrite))
    | some m => (some (m.set builtinNothing b!"_nothing"), .finished (.ok n))
  | .finished r => (names, .finished r)

/-- The whole system: the shared map and the calls in progress. -/
structure System where
  names : Option Names
  threads : List Thread

/-- Goroutine `i` makes a step (a number without goroutine is a no-op). -/
def System.step (table : Table) (sys : System) (i : Nat) : System :=
  match sys.threads[i]? with
  | none => sys
  | some th =>
    let r := tstep table sys.names th
    { names := r.1, threads := sys.threads.set i r.2 }

/-- A schedule: which goroutine moves at each moment. -/
def System.runSchedule (table : Table) (sys : System) (schedule : List Nat) : System :=
  schedule.foldl (System.step table) sys

/-- All calls about to start. -/
def System.start (names : Option Names) (srcs : List Source) : System :=
  { names := names, threads := srcs.map .ready }

end LL1
