# Formal model of TooManySugar/ll1parser in Lean 4

(Plan written before the proofs; the sections "Status", "Findings" and "Trusted base" are kept current.)

## 1. Layout

* `lean/Verif/Model/*`  – executable model, function by function, each definition cites `/repo` file and lines.
* `lean/Verif/Spec/*`   – small independent specifications (languages, FIRST/FOLLOW, LL(1), derivation trees, set semantics).
* `lean/Verif/Proofs/*` – helper lemmas.
* `lean/Verif/Props/*`  – the property theorems `C01_...` … and, beside each, `example`s showing the hypotheses are met.
* `lean/Verif/Golden/*` – conformance: model outputs vs. the reference files committed in `/repo/test`.

## 2. What is modelled and how

| code | model |
|---|---|
| `byteset.go` | four `UInt64` words, same shifts/masks; loops are fuelled and return `none` when fuel runs out (proved never to) |
| `cst.go` | `Node` inductive tree, `Walk` over an arbitrary stateful, possibly panicking visitor |
| `parser.go` | stack machine: `step : State → State ⊕ Outcome`; `parse` with fuel; "diverges" = no fuel suffices. Go panics are explicit outcomes. Maps are association lists, nil maps are `none` |
| `tablegen.go` | `Res` monad with `ok/err/panic/diverge`; slices are lists with checked index; fix-point loops fuelled by `256·rules+1`; Go's random map iteration order is an arbitrary-permutation parameter |
| `ast.go` | `String()` functions on byte lists |
| `fromcst.go` | every `parseX` with the flexVisitor/Walk machinery, sentinel errors, checked slicing, `sort` + binary search |
| `selfgrammar.go` | generated literally by `tools/gen_selfgrammar.py` |

Go `string`/`[]byte` = `List UInt8`. Go `int` = `Int`/`Nat` without overflow (offsets are bounded by the source length).

## 3. Plan per property

* C01–C05: bit-level lemmas (`getBit` of and/or/not/shift), refinement to `UInt8 → Prop`; De Bruijn lookup by kernel evaluation on all 64 powers (the whole finite table), lifted by the "v & (v-1) clears the lowest bit" lemma.
* C06–C07: structural induction on trees; specification is an independently defined visit log.
* C08, C10–C13: big-step relation `Derives` (spec) and machine `step`; simulation in both directions.
* C09, C14, C15, C16, C19: case analysis + C13; C17: interleaving semantics of N machines sharing the names map, invariant on the map.
* C18: two-run simulation on agreeing prefixes. C21: the same with NUL.
* C20: rank/lexicographic termination argument; divergence by invariant (stack never empties).
* C22: strict growth of set sizes bounded by 256·rules. C23, C24: invariants of the Res computations.
* C25: permutations of an injective map. C26: exact content of cells by induction on alternatives.
* C27: least fix-point both directions vs. inductive textbook FIRST/nullable. C28: same for the code's follow rules; textbook FOLLOW under a gap condition; witnesses for the differences.
* C29–C31: from C26–C28. C30: exact condition.
* C32–C36: from C13 + C26–C28, grammar-level language `Gen`.
* C37–C38: induction on strings. C39–C42: construct the derivation of every printed layout with the golden table, evaluate ToAST on it; inversion of derivations for C41.
* C43, C44, C47: lrTraverse = early-exit fold over the list of maximal matching nodes.
* C45: certificate for FIRST/FOLLOW of the concrete grammar, checked in the kernel, then C32–C34.
* C46: from C26 with `enumerate`.

* C49: the messages are specified independently (`Spec/Messages.lean`); case analysis of the machine's stuck states.
* C50–C52: predictive derivations (`Spec/Predictive.lean`) vs. table derivations; viable prefixes; a potential argument for the linear bound. With nullable gaps (C51_premature, C51_first_error_iff) the stuck state is replayed on the sentence and C93 applied to its derivation tree.
* C53–C55: the programs in `examples/` (`Model/Examples.lean`). `json.bnf` is translated by `tools/gen_json.py` to its bytes, its grammar and its layout; the layout is checked in the kernel (C40 applies). The JSON dialect is specified without grammar in `Spec/Json.lean`; LL(1) certificate as for C45; induction on trees for the printed lines; unique readability by cases on first bytes.
* C56, C57: test helpers (`Model/TestTools.lean`); induction on trees and on key lists. `Props/TestTools.lean` also checks the model against every reference file in `/repo/test/parser` and `/repo/test/cst`.
* C58: renaming (`Spec/Rename.lean`); lock-step simulation of every function of the generator and of the parser's loop (`Proofs/Rename.lean`, `Props/Rename.lean`).
* C59, C60: composition of C40/C41, C29, C34; derivation trees (`Spec/DTree.lean`) independent of tables; two derivation trees are compared in lock-step under a FOLLOW context; the parser's derivation is built along the tree (`Proofs/DTree.lean`, `Props/EndToEnd.lean`).
* C61: lock-step simulation under a renumbering (`Proofs/Renumber.lean`); cells of rearranged grammars from C26 (`Proofs/Rearrange.lean`).
* C62: slices as windows on a store of arrays (`Model/Slices.lean`), a call returns result and store; permutation/window lemmas, induction on the call history (`Props/Slices.lean`).
* C63: readers as state machines, the loop of `io.ReadAll` with arbitrary buffer growth (`Model/Reader.lean`); "delivers" is an inductive predicate quantifying over all request sizes (`Props/Reader.lean`).
* C64: the table-building functions again with their standard output (`Model/Stdout.lean`), proved to have the same results; an invariant "silent, or conflict and one printed cell" through every loop (`Proofs/Stdout.lean`).
* C65: states reached after k iterations; invariant on stacks; linear bound from C52 (`Props/Memory.lean`).
* C66: the read-compare loop over reader state machines (`Model/TestReader.lean`); induction over the blocks (`Props/TestReader.lean`).
* C67: four heaps, parsers as references, edit/call histories (`Model/World.lean`); agreement relation kept by every event (`Props/World.lean`).
* C68: transfer of NULLABLE/FIRST/FOLLOW and derivation trees to the larger grammar, then C29, C34, C60 (`Props/Unused.lean`).
* C69: table generation over a memory of arrays (`Model/Memory.lean`, `Model/TableHeap.lean`), simulation with the value model, cells on pairwise different fresh arrays (`Props/TableHeap.lean`).
* C70: the parser over such memories (`Model/ParserHeap.lean`), simulation invariant "stack array, child arrays of all nodes on the stack pairwise different" (`Proofs/ParserHeap.lean`, `Props/ParserHeap.lean`).
* C71: accesses to the shared map defined by their effect on a step, reachability of conflicting pairs from C17's interleaving theorem (`Props/Races.lean`).
* C72: `Walk` with a call-depth counter (`Model/WalkDepth.lean`), erasing the counter gives `Model/Cst.lean`'s `walk`; height of a tree by its paths; linear bound from C52; lower bound by an explicit derivation for every n (`Props/WalkDepth.lean`).
* C73: `Walk` over abstract interface implementations with memory, slices read during the loop, nil and a bounded stack (`Model/WalkGraph.lean`); refinement to `Model/Cst.lean`; ways as index paths; depth-first search invariant (`Props/WalkGraph.lean`).
* C74: `Spec/Reading` restates Nullable/FIRST/FOLLOW/clash/prediction with the one changed case; the FIRST, FOLLOW and row proofs are done for it without conditions, and the textbook versions (C26-C31, C64) follow through `Proofs/Reading` when no terminal begins with NUL.
* C75: C75: second model of tablegen.go over own|other symbols (Model/Foreign), simulation relation function by function against Model/TableGen on the grammar with a fresh undefined name; corollary from C31.
* C76: `Proofs/Truth.lean`: a predicate `Blame` (every error value of a computation is true of the grammar) closed under the model's bind and loops, proved function by function for `Model/TableGen.lean`; statements in `Spec/Complaint.lean`; the clash case from C74.
* C77: `Model/Examples.lean` (with what `FromGrammar` prints, `Model/Stdout.lean`, and what had been printed before a panic); C40/C41 for the grammar file, C76 for the reasons, C64 for standard output, a walk lemma for the key printer on arbitrary trees.
* C78: `Model/FromCstCost.lean` repeats fromcst.go with two counters (calls of `Visit`, `Walk` frames); `C78_same_results` (erasing the counters gives `Model/FromCst.lean`), `C78_bound` by induction on the tree for a traversal with a closure of known cost, then level by level; `C78_bnf` combines it with C52. The stack bound is reached (example).
* C79: Spec/Hang (relations `Enters`, `LeftCorner`, `LeftRecursive`, no stacks), Proofs/Hang: accessibility of `Enters` from (0,0) is equivalent to `Derives` or `FailsAt` existing (hence to termination, C20/C21); infinite chain from non-accessibility; pigeonhole on (row, offset); left corners of cells from `TableOk`; rank from acyclicity for the linear bound.
* C80: Model/ForeignOp models parser.go again over operations of any type (`XOp`); Props/ForeignOp: lock-step simulation with the model of C08 (unknown = nil), lock-step simulation of two tables that differ at unknown operations, invariant that unknown operations on the stack come from the table.
* C81: Spec/Cut (relations on symbol lists, tables, trees); Proofs/Cut: FIRST and FOLLOW loops compute identical sets (the loop over a sequence from the right rewritten front to back), rows related by one append of the operations of a sequence; derivations and failures carried over in both directions, so termination too (C13, C20).
* C82: `Model/TableGenCost` is `Model/TableGen` in a monad that counts loop iterations (proved to compute the same results); upper bound by adding up the loops with the pass bound of C22; lower bound: after k passes over the family the end-of-input marker has reached only the last k rules (invariant over the two nested loops), while C28's exactness says it must reach rule 1.
* C83: Model/ToAstRaces: `ToAST` as a program of single reads and writes of the slice's elements (sort, then the conversion with the binary searches read by read); schedules interleave programs. Spec/ToAstRaces: race, `Sorts` (what is assumed of `sort.Sort`). Proofs: evaluation lemma to Model/FromCst, quiet programs are invariant under interleaving, first write of two equal prefixes collide. Go's insertion sort is proved to meet `Sorts`.
* C84: Model/ToAstGraph: the conversion over an abstract node interface with integer positions, nil children and a bound on the active calls of `Walk`. Proofs/ToAstGraph: one two-run simulation (`Sim`) from which sharing, stack size, panic causes and overflow follow as instances; equality with Model/FromCst on trees by induction on the tree. Cycles: invariant of the outermost walk.
* C85: Spec/Acceptance states in terms of the grammar where the generator looks (`FirstLooksAt`, `Examined`). Totality lemmas of FIRST/FOLLOW/rows take `Examined` instead of well-formedness (the FIRST loop: every intermediate state is sound, so it reads no further than the final one); the converse comes from the last, unchanged passes. Props/Acceptance.
* C86: Spec/Steered defines the reading on the grammar alone (no tables, no stack). Proofs/Steered relates a table cell to what a rule stands for (from the exact row characterisation) and both directions of the table-level meaning of C13 to it. Props/Steered.
* C87: Model/ToAstHeap repeats the appending part of fromcst.go with slices in memory (panics keep the memory); Proofs/ToAstHeap: simulation of two walks side by side, invariant `only new arrays written, no two slices of a kind in one array`; Props/ToAstHeap. What a caller sees and his edits are in Spec/MemGrammar.
* C88: Spec/CanHang: relations on rows and bytes only; Proofs/CanHang: each is sound (a source is put together piece by piece, sources that agree up to an offset are interchangeable up to it) and complete (read off the derivation); hanging by the chain criterion of C79 and a pigeonhole on rows, behind the end of the input on rows alone; Props/CanHang.
* C89: Model/ForeignText repeats the printing loops and the comparison with interface values; Spec/AnySymbol: words, lines and the lockstep comparison; Props/AnySymbol: each loop is `first panic or text`, the comparison by induction over the lists, C39 for the way back.
* C90: Spec/Restart: the shifted tree and 'begins with rule i, other rules permuted'. First/Follow/Nullable/derivations are transported along the correspondence of rules (FOLLOW and the generator's follow sets differ only at the end marker 0, which is in no FIRST set); derivation trees are transported with renumbering and shift, and the nodes of the picture of a derivation tree are pictures of derivation trees; then C34, C60, C29 and C30 for both grammars.
* C91: Spec/ToAstFaults lists the faults of a rule node with the text of the complaint; on top of C44 (ToAST is a direct reading of the tree): an error of the reading is traced to its node, and a rule that was read has no fault; C48 and C44_returns exclude panics and divergence.
* C92: Spec/Recode: exchanged grammars, tables, errors. FIRST, nullability, FOLLOW and clashes as the generator reads them (C74) are transported along the exchange and back along its inverse; C85 and C74 give acceptance and the table's cells; the parser's steps commute with the exchange.
* C93: Spec/Vanish on derivation trees. Accepted => tree with only foreseen vanishing rules (from C50's predictive derivations), unique by C60; conversely by induction on the tree the parser either builds it or is stuck at a vanishing rule without a cell. For the grammar-level statement contexts are built from reachability and FOLLOW derivations.
* C94: the languages and trees are written down in Spec/TestLanguages without grammars or parsers; the recorded tables (C45) are inverted cell by cell, the chain of B's by induction; termination because every cell starts with a literal; the sentences by C34 and a kernel-checked LL(1) certificate, those of the left-recursive grammar by induction on derivations.
* C95: Model/Live numbers the reads of the loop and gives the contents at each of them; Spec/Live has derivations from a changing source; both directions by simulation as for C08; hanging by accessibility of entered rows, offsets being bounded; the adversary writes one byte at a time, chosen along the loop; for LL(1) grammars induction on FIRST shows that a loop of left corners contradicts disjointness. Linear time (Proofs/LiveLinear): a row weighs more than all rows it can come to without consuming, a body that must consume is paid by the byte before.
* C96: Model/AnyReader makes io.ReadAll's array explicit with the lowest index the reader was ever handed; Spec/AnyReader has text-level readers (no buffer) and the calls made; simulation by induction on the reader, invariants low <= len < cap; late writes reduce to C95's live sources, re-entrancy to C16's histories.
* C97: Spec/Extract defines the edit on grammars and the taking-out on derivation trees; language, FIRST, FOLLOW are compared through the expansion of the new name; LL(1) is kept because a nullable end of an alternative inherits FOLLOW; the sum of squared lengths of the alternatives decreases with every repaired gap; then C29, C34, C60 apply.
* C98: Spec/Edit defines grafting on the package's trees, with no grammar; by induction on the grafting, the replaced node depicts a derivation tree and replacing that gives a derivation tree which the grafted tree depicts; then C34, C60 (decides, returned tree, unambiguous) apply.
* C99: Spec/Remedy defines the rewritings; one direction by closing the new rules under the old alternatives, the other by interpreting the new name as a set of strings (chains of a's, or the union of the ends); then C29, C34, C97 apply.
* C100: Model/OpList adds append's allocation to the heaps of Model/World; the operation arrays after a run are those the edits alone make (C67), so only writes into the new array matter.
* C101: Model/ByteSetShared splits Add/Remove into load and store and a value receiver into four word copies in any order; invariants per byte (bounds) and per word with one writer (owner); explicit schedules for lost calls, torn copies and races.
* C102: Cut the cells out that no source can want (same run, step by step); a table in which no row comes to itself can be ranked, and then the potential argument of C52 works also behind the end of the input. Memory of a hang: an operation that pushes leaves a function in its own place, so each height is the top at most twice after the last lower one.
* C103: ToAST as a program that makes calls and goes on with the answers (Model/ToAstCalls), run with an arbitrary implementation; simulation with the model on pure nodes (C84) under an abstraction relation; an invariant of the nodes and slices known so far; induction over programs for panics and determinacy.
* C104: Potential: C*R per byte left, C per rule that can still be entered before the next byte is read (at most R, as none is entered twice), plus the cost of the operations on the stack; every iteration lets it fall.
* C105: Composite literals modelled as allocations. Ownership: every grammar owns a set of arrays, and so does each rule and sequence in it; sets of different ones are disjoint; a step writes only to what it owns and to new arrays; framing lifts each edit through the levels; induction over the program.
* C106: Spec/Grow: the extension relations. Nullable, FIRST, FOLLOW, the next-symbol FOLLOW and Clash are monotone; the LL(1) condition is antitone. A cell of the old table that is there because of FIRST is kept by disjointness; one that is there because something follows is kept where the derivation ends in something that really follows (induction over the derivation with the textbook FOLLOW of the byte behind it). Tables: step-by-step simulation.
* C107: Proofs/Join: the rules of a grammar inside a bigger one at an offset: nullable, FIRST, derivations and derivation trees agree in both directions for symbols the part owns; FOLLOW of the choice is FOLLOW of the parts. Then C29, C34 and C60 for the joined grammar.
* C108: Model/StringCalls: String over arrays in memory and an abstract world changed by foreign methods. Spec: a history of calls in which each element is read when its turn comes; existence and uniqueness by a generic lemma on lists processed in turn, then the three loops by induction along the history.
* C109: Proofs/Inline: in both grammars a symbol list and its written-out form derive the same, have the same FIRST and nullability; FOLLOW shrinks to what stands behind the written-out places; a nullable piece in the middle of an alternative of an LL(1) grammar cannot begin with what can come behind it. Then C29, C34, C60.
* C110: Model/TypeCalls: the comparison over a world with memory; Spec/TypeCalls: asking, and comparing in order, as relations; each loop is proved equivalent to the existence of a sequence of worlds, the rest is unfolding; refinement of C89 for constant answers.
* C111: Model/TestDriver: both drivers over a file system (creating and writing never fail, a parser is its answers); unique decodability of the printed forms by induction on the tree / the entries; the drivers by induction on the cases.
* C112: Model/TableText: %#v of tables (fmt and strconv.Quote on ASCII from their documentation; reproduces a reference file); unique decodability layer by layer: quoted strings, operations, lists, sorted maps.

Nothing in the list is considered inexpressible. C17 can only be partial with respect to the real runtime: Go's map is not safe for unsynchronised writes (fatal error "concurrent map writes"), which an interleaving model with atomic map operations cannot exhibit; the model additionally proves that two successful calls do perform conflicting accesses.

## 4. Status

All properties in `properties.jsonl` are proved for all inputs; `MANIFEST.json` names the theorems. Concrete
witnesses (`C30_unreported`, `C33_gap_incomplete`, …) are kernel-evaluated runs of the model on one grammar and are
only used for "this can happen" statements and as non-vacuity examples.

## 5. Trusted base

* Lean 4.33.0's kernel. No axioms of our own, no `native_decide`/`bv_decide`. Every theorem in `MANIFEST.json`
  depends on a subset of `propext`, `Classical.choice`, `Quot.sound` (about half of them on `propext` and `Quot.sound`
  only; `#print axioms` on each name reproduces this).
* That the model says what the Go code does. The model was written by reading; the code was never run. Checks in the
  model's favour: `Golden/*` evaluates the modelled `FromGrammar` on the repository's test grammars in the kernel and
  compares with the reference tables committed in `/repo/test` (tables that the real Go program produced); likewise
  the modelled `Parse` and `FprintTreeNamed` reproduce all reference trees, names maps, messages and the printed tree in
  `/repo/test/parser` and `/repo/test/cst` (last examples of `Props/TestTools.lean`).
* That the specification files in `Spec/*` express the English statements. They do not import the model, except that
  they share the plain data types (grammars, trees, tables).

### Modelled
* `pkg/bnf/tablegen/byteset/byteset.go` – everything.
* `pkg/cst/cst.go` – everything (`Node`, `Visitor`, `Walk`, including panicking visitors).
* `pkg/parser/parser.go`, `interface.go` – everything: `NewLL1Parser`, `OpTerminal`, `OpNonTerminal`, `Parse`, source
  conversion, the stack machine, built-ins, error messages, the writes to the names map.
* `pkg/bnf/tablegen/tablegen.go` – everything, including the line printed on a conflict (C64).
* `pkg/bnf/ast.go`, `pkg/bnf/fromcst/fromcst.go` – everything; `pkg/bnf/selfgrammar.go` – generated literally.
* `examples/json/main.go`, `examples/parseownsyntax/main.go` – everything after reading the files (reading gives the
  contents or an error text); `examples/json/json.bnf` – literally.

### Not modelled / simplified
* Go `int` is unbounded (`Int`/`Nat`); memory is unlimited; strings are byte lists; `%c` of a byte ≥ 128 is
  modelled as its UTF-8 encoding.
* Data races: C17 treats every map operation as atomic. Two concurrently successful `Parse` calls do write the shared
  names map without synchronisation (`C17_race_reachable`), which the Go runtime may turn into a fatal error.
* `io.ReadAll` is modelled from the documented source of Go's standard library (C63, and C96 for readers that misuse their slices, counts or the maps, or panic); a reader that blocks for ever is outside the model.
* A `[]byte` or `*bytes.Buffer` source that is written to while `Parse` runs is modelled in C95 (reads of single bytes are atomic;
  its length is fixed, as a slice header is copied); everywhere else the source stands still.
* Aliasing: the maps handed to and returned by parsers (C15–C17, C67), the slices of a generated table (C69) and of the
  parser's stacks and trees (C70) and of an AST made by `ToAST`, `SelfGrammar` or a literal and of bindings (C87, C105) are modelled in memory; slices that start inside their array occur only in C62.
* `sort.Sort` is modelled by its contract (C62 proves the sorted rearrangement is unique; C83 additionally assumes that it
  writes nothing to a sorted slice, and proves the contract for Go's insertion sort, which serves up to 12 elements).
  Concurrent `ToAST` calls sharing one slice (C83) interleave atomic reads and writes of elements.
* Methods of `cst.Node` that write to the slices or the map of the bindings while `ToAST` runs (other effects: C103, in `Walk`: C73).
  Methods of foreign symbols that change from call to call are modelled in C108 (`String`) and C110 (`Type`); `FromGrammar` calls
  none. Asking a foreign operation ends `Parse` (C80), so that its answers within one `Parse` cannot differ.
* Failing writes to standard output/error in the examples.
* The remaining `/repo/test/*` code (the `Test*` functions and the other drivers; the parser test driver: C111).  C111 leaves out failing file operations; C112 models `%#v` of tables from the documentation of `fmt` and `strconv.Quote`, the latter on ASCII only.

## 6. Findings (each is a theorem or a remark on the modelled code)

1. A nil names map makes every otherwise successful `Parse` panic (assignment to nil map); `Parse` writes to the shared
   names map and returns it (C08, C15, C17).
2. A NUL byte in the source is taken for the end of input; a terminal containing NUL can "match" past the end (C21).
3. The builtin number −2 means both the EOL non-terminal and the `_nothing` node (C19).
4. `FromGrammar` panics on the empty grammar, on empty terminals and on sequences such as `"a" ""` (`C23_panics`).
5. FIRST/FIRST clashes are not reported: the cell becomes the concatenation of both alternatives, so the parser accepts
   strings outside the language (`C30_unreported`, `C32_needs_disjoint`); nullable-before-FIRST clashes are unreported.
   The repository's LRecursive test expects an error, but none is given (that test is disabled in `executetests.go`).
6. FOLLOW looks only at the next symbol: it misses bytes (`C33_gap_incomplete`) and over-approximates (`C28_differs`,
   `C29_gap_rejected`); an accepted grammar whose parser loops forever exists (`C34_loops`).
7. Left recursion is not detected; the generated parser hangs (C36).
8. Duplicate rule heads: references go to the last, parsing starts at the first rule, no error; the earlier duplicate's
   row is unnamed (`C46_witness`).
9. An undefined non-terminal is unnoticed when its alternative has an empty FIRST set (`A ::= A "x" <undef>`) (C31).
10. An alternative that is empty only through nullable non-terminals yields a node with a single `_nothing` child
    instead of the derivation's children (C35).
11. `parseTerminalName` hard-codes node type 16 and ignores `IgnoreNodeTypes` (C47). `SymbolNothing` and the terminal
    `""` print identically (`C37_empty_ambiguous`).
12. A terminal starting with NUL is conflated with end-of-input/empty in the FIRST sets.
13. `FromGrammar` prints to standard output when it finds a conflict.
14. `ToAST` reorders the caller's `IgnoreNodeTypes`; bindings whose lists overlap in memory influence each other
    (`C62_overlap`). `Parse` on a reader reads it to the end even when the first byte is already wrong (`C63_endless`).
15. The JSON dialect of `json.bnf` differs from json.org: `\u` takes three hex digits, `[ ]` is rejected (C53).
16. `ReaderContentMustBeEqual` (test helper) ignores the byte counts of its reads, so it passes on some different contents: trailing NULs within the first block, left-over bytes of the previous block later; bytes delivered together with EOF are not compared (C66).
17. FOLLOW counts uses in unreachable rules, so an unused rule can make a grammar rejected (C68).
18. Concurrent `Parse` calls on one parser race as soon as one succeeds while another succeeds or names a rule in its error (C71).
19. `Walk` (and every visitor-driven traversal) recurses once per tree level and parse trees can be as deep as the source is long (C72), while `Parse` itself needs no recursion: a source that parses can still exhaust the goroutine stack in `Walk`.
20. `Walk` has no protection against shared or cyclic `cst.Node` implementations: it visits shared nodes once per way and never returns on cycles unless the visitor prunes (C73).
21. A terminal beginning with NUL reads as 'can be empty': `S ::= "a" | "\0b"` is LL(1), but its parser accepts the empty source, which is no sentence, and takes any source beginning with NUL as empty (C74). Likewise `S ::= A S | "b"`, `A ::= "\0a"` is LL(1) and accepted, but its parser hangs on every source beginning with `b` (`C74_hangs`).
22. A nil or pointer symbol in a grammar makes `FromGrammar` panic or return an error depending on where it stands, and is silently accepted in alternatives that derive nothing (`C75_witness`).
23. The JSON example indexes `Childs()[0].Childs()[1]` of nodes of type 6 without checks: with another grammar file in the place of json.bnf it can panic with index out of range after a successful parse, and a grammar file with `"a" ""` in it makes FromGrammar panic (`C77_witness`).
24. A parser made by FromGrammar (no terminal begins with NUL) can hang only if the grammar is left-recursive. Left recursion is never reported by FromGrammar (C79, C34_loops).
25. C82_cubic_needed: `findFollows` compares every rule with every rule in every pass and may need as many passes as there are rules, so generating a table can take time cubic in the number of rules (it depends on the order of the rules).
26. `ToAST` sorts the caller's `IgnoreNodeTypes` in place: concurrent conversions with shared bindings are a data race unless the list is already ascending; the race can make a call fail and can destroy an entry of the list (C83). The package's own `SelfCSTtoASTBindings` list one type and are safe.
27. `ToAST` follows every child of nodes that are neither ignored nor rules, without protection against cycles (stack overflow, which Go cannot recover from) and nil (panic); below ignored nodes anything is harmless (C84).
28. `Grammar.String` does not escape names: a rule named `a> ::= "x"\n<b` is printed and read back as two rules (`C39_injection`).
29. `FromGrammar` accepts some ill-formed grammars: `S ::= "a"` followed by an empty terminal, and undefined names or a `""` beside other symbols in alternatives that cannot begin with any byte (C85).
30. Alternatives that begin alike are not rejected but concatenated: the parser of `S ::= "a" "b" | "a" "c"` accepts `abac` and rejects `ab` (C32, C86).
31. The test grammar LRecursive is accepted by FromGrammar (its test, which expects an error, is not run) and its parser rejects every source.
32. The expected-but-got messages read the source a second time, so with a changing source they can name the expected byte itself.
33. Growing a grammar is only safe if it stays LL(1), which FromGrammar does not check: `S ::= "a"` grown to `S ::= "a" | "a"` is accepted and its parser rejects `a` (C106_needs_ll1).
34. Writing out a rule with one alternative is not always safe: it can bring back a nullable gap (wrong parser, `C109_gap`) or put the empty-string symbol into a longer alternative (`FromGrammar` panics, `C109_nothing`).
35. The comparison of examples/parseownsyntax trusts the second answer of the first symbol's `Type`: a foreign symbol that answers 0 and then 2 counts as equal to any non-terminal (`C110_fickle`).
36. A names map printed with %v does not determine the map: {1: "a 2:b"} and {1: "a", 2: "b"} print alike, so the parser tests cannot tell them apart (`C111_names_ambiguous`).
