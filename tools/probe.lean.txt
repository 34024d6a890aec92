import Verif.Model.ByteSet
import Verif.Model.Cst
import Verif.Model.Parser
import Verif.Model.Concurrent
import Verif.Model.TableGen
import Verif.Model.FromCst
import Verif.Model.Ast
import Verif.Model.SelfGrammar
import Verif.Spec.Derivation
import Verif.Spec.Bnf
import Verif.Spec.ToAst
import Verif.Spec.Messages
import Verif.Golden.Tables
import Verif.Golden.TestGrammars

/-! Instances of the property statements, evaluated on the (possibly edited) model.  Used by
`tools/mutate.py` in the scratch copy only: prints `PROBE-FAIL Cnn` for every property that a sample
instance shows to be false of the edited program.  No part of the proofs. -/
open LL1

partial def nodeEq : Node → Node → Bool
  | .mk a b c d, .mk a' b' c' d' => a == a' && b == b' && c == c' && d.length == d'.length &&
    (d.zip d').all fun (x, y) => nodeEq x y

deriving instance Inhabited for Node
def probe (name : String) (b : Bool) : IO Unit := unless b do IO.println s!"PROBE-FAIL {name}"
def allBytes : List UInt8 := (List.range 256).map UInt8.ofNat

-- C01-C05
def histories : List (List UInt8 × List (Bool × UInt8)) :=
  [([], []), ([1,2,255], [(true,3),(false,2),(true,64),(true,130),(false,130),(true,200)]),
   ([0,63,64,127,128,191,192,255], []), (allBytes, []), (allBytes, [(false,0),(false,77),(true,77)]), ([10,25,65], [(true,130)])]
def runH (h : List UInt8 × List (Bool × UInt8)) : ByteSet :=
  h.2.foldl (fun s (a, b) => if a then s.add b else s.remove b) (ByteSet.new h.1)
def memH (h : List UInt8 × List (Bool × UInt8)) (x : UInt8) : Bool :=
  h.2.foldl (fun m (a, b) => if b == x then a else m) (h.1.contains x)
def hexs : List UInt8 := b!"0123456789ABCDEF"
def hexL (bs : List UInt8) : Str := ([91] : Str) ++ List.intercalate ([32] : Str) (bs.map fun (b : UInt8) => ([hexs[b.toNat/16]!, hexs[b.toNat%16]!] : Str)) ++ ([93] : Str)
def pByteSet : IO Unit := do
  for h in histories do
    probe "C01" (allBytes.all fun x => (runH h).contains x == memH h x)
    probe "C03" ((runH h).len == some ((allBytes.filter (memH h)).length))
    probe "C04" ((runH h).bytes == some (allBytes.filter (memH h)))
    probe "C05" ((runH h).toStr == some (hexL (allBytes.filter (memH h))))
    for k in histories do
      let s := runH h; let t := runH k
      probe "C02" (allBytes.all fun x => (s.union t).contains x == (memH h x || memH k x))
      probe "C02" (s.equal t == allBytes.all fun x => memH h x == memH k x)
      probe "C02" (s.isSubSet t == allBytes.all fun x => !memH h x || memH k x)
      probe "C02" (s.isSuperSet t == allBytes.all fun x => memH h x || !memH k x)

-- C06, C07
def tree : Node := .mk 0 0 9 [.mk 1 0 3 [.mk 2 0 1 [], .mk 3 1 3 [.mk 2 1 2 []]], .mk 4 3 9 [.mk 1 3 4 []], .mk 5 9 9 []]
def vis (prune : Int) : Visitor Nat (List (Nat × Int)) Unit where
  visit v n s := .ok (s ++ [(v, n.type)], if n.type = prune then none else some (v + n.type.toNat + 1))
partial def refWalk (prune : Int) (v : Nat) : Node → List (Nat × Int)
  | .mk t _ _ cs => (v, t) :: (if t = prune then [] else cs.flatMap (refWalk prune (v + t.toNat + 1)))
def pCst : IO Unit := do
  for p in [-7, 0, 1, 3, 4] do
    let ok := match walk (vis p) 0 tree [] with | .ok l => l == refWalk p 0 tree | .error _ => false
    probe (if p = -7 then "C06" else "C07") ok

-- Parser: an independent recursive evaluation of the table
inductive RR | ok (j : Nat) (cs : List Node) | err (k : Nat) (msg : Str) | out
  deriving Nonempty
def refMsgRow (names : Names) (n : Int) : Str := called (some names) n
partial def refOps (fuel : Nat) (tbl : Table) (names : Names) (src : Str) (ops : List ParserOp) (i : Nat) : RR :=
  match fuel, ops with
  | 0, _ => .out
  | _, [] => .ok i []
  | fuel+1, .terminal s :: ops =>
    let rec lit (k : Nat) : Option Nat := if k ≥ s.length then none else if s[k]! == byteAt src (i+k) then lit (k+1) else some k
    match lit 0 with
    | some k => .err (i+k) (b!"expected char " ++ shown s[k]! ++ b!", got " ++ shown (byteAt src (i+k)))
    | none => match refOps fuel tbl names src ops (i + s.length) with
      | .ok j cs => .ok j (.mk (-1) i (i+s.length) (if s.isEmpty then [.mk (-2) i i []] else []) :: cs)
      | r => r
  | fuel+1, .nonTerminal n :: ops =>
    let b := byteAt src i
    let body : Except Str (List ParserOp) :=
      if n ≥ 0 then match tbl.get n with
        | none => .error (b!"no rules for non terminal: " ++ refMsgRow names n)
        | some row => match GoMap.get row b with
          | none => .error (b!"no rules for " ++ shown b ++ b!" and non terminal op <" ++ refMsgRow names n ++ b!">")
          | some x => .ok x
      else if n = -2 then (if b = 10 then .ok [.terminal [10]] else if b = 13 then .ok [.terminal [13], .terminal [10]]
        else .error (b!"no rules for " ++ shown b ++ b!" and builtin terminal op <EOL>"))
      else .error (b!"unknown built in type: " ++ decimalInt n)
    match body with
    | .error m => .err i m
    | .ok body => match refOps fuel tbl names src body i with
      | .ok j cs => match refOps fuel tbl names src ops j with
        | .ok k ds => .ok k (.mk n i j (if body.isEmpty then [.mk (-2) i i []] else cs) :: ds)
        | r => r
      | r => r
  | _, _ => .out
def tables : List (Table × Names) :=
  [([(0, [(40, [.terminal [40], .nonTerminal 0, .terminal [41]]), (41, []), (0, [])])], [(0, b!"pairs")]),
   ([(0, [(97, [.terminal b!"abc", .nonTerminal (-2), .nonTerminal 1]), (98, [.nonTerminal (-1)]), (99, [.nonTerminal 7]), (100,[.terminal [], .terminal b!"d"])]), (1, [(0, []), (120, [.terminal b!"x", .nonTerminal 1])])], [(0, b!"S"), (7, b!"Seven"), (-1, b!"q")]),
   (Golden.selfTable, [])]
def texts : List Str := [[], b!"()", b!"(())", b!"((", b!"(]", b!"())", b!"abc\n", b!"abc\r\nxx", b!"abc\rxx", b!"abc\nxxy", b!"abd", b!"b", b!"c", b!"d", b!"dd", b!"zé",
  b!"<a> ::= 'x' | \"\"\r\n<b> ::= <a>\n", b!"a", b!"<a> ::= ", [40, 41, 0, 5]]
def pParser : IO Unit := do
  for (tbl, names) in tables do
    for t in texts do
      let r := (Parser.mk tbl (some names)).parseFuel 5000 (.string t)
      match r, refOps 5000 tbl names t [.nonTerminal 0] 0 with
      | some (.ok tr m), .ok j cs =>
        probe "C13" (byteAt t j = 0 && cs.length == 1 && nodeEq tr cs[0]!)
        probe "C12" (tr.type = 0 && tr.pos = 0 && (tr.stop = t.length || t.contains 0))
        probe "C10" ((preorder tr).all fun n => n.pos ≤ n.stop && n.stop ≤ t.length &&
          (n.childs.isEmpty || ((n.childs.head?.map (·.pos)) == some n.pos && (n.childs.getLast?.map (·.stop)) == some n.stop)))
        probe "C11" (((leaves tr).map fun n => LL1.slice t n.pos n.stop).flatten == t.take tr.stop)
        probe "C15" (m.get (-1) == some b!"_literal" && m.get (-2) == some b!"_nothing" &&
          [0,1,7,3].all fun k => m.get k == GoMap.get names k)
        -- reuse
        let p2 := (Parser.mk tbl (some names)).after (.ok tr m)
        for t2 in texts do
          let a := match (Parser.mk tbl (some names)).parseFuel 5000 (.string t2) with
            | some (.err e) => some e.render | _ => none
          let b := match p2.parseFuel 5000 (.string t2) with | some (.err e) => some e.render | _ => none
          probe "C16" (a == b)
        probe "C08" (match (Parser.mk tbl none).parseFuel 5000 (.string t) with | some (.panic .nilMapWrite) => true | _ => false)
      | some (.err e), .err _ m => probe "C49" (e.render == m); probe "C13" (e.render == m)
      | some (.err e), .ok j _ => probe "C13" (byteAt t j ≠ 0); probe "C49" (e.render == b!"expected end of input got " ++ shown (byteAt t j))
      | none, .out => pure ()
      | some (.panic _), _ => probe "C08" false
      | _, _ => probe "C13" false; probe "C12" false
      for s in [Source.bytes t, .buffer (some t), .reader t none] do
        let s2 := (Parser.mk tbl (some names)).parseFuel 5000 s
        probe "C14" (match r, s2 with | some (.ok a _), some (.ok b _) => nodeEq a b | some (.err a), some (.err b) => a == b | some (.panic _), some (.panic _) => true | none, none => true | _, _ => false)
  let isErr (p : Parser) (s : Source) (e : PErr) : Bool := match p.parseFuel 50 s with | some (.err e') => e == e' | _ => false
  let p1 := Parser.mk tables[0]!.1 (some [])
  probe "C09" (isErr ⟨[], some []⟩ (.string []) .emptyTable && isErr ⟨[(1,[])], some []⟩ (.string []) .noEntry && isErr p1 .nil .emptySource && isErr p1 .other .invalidSource && isErr p1 (.buffer none) .invalidSource && isErr p1 (.reader [40] (some b!"boom")) (.reader b!"boom"))
  let eol : Table := [(0, allBytes.map fun b => (b, [.nonTerminal (-2)]))]
  for t in [[10],[13,10],[13],[10,10],[],[13,13],[65]] do
    probe "C19" ((match (Parser.mk eol (some [])).parseFuel 50 (.string t) with | some (.ok _ _) => true | _ => false) == (t == [10] || t == [13,10]))
  probe "C19" (isErr ⟨[(0, [(65,[.nonTerminal (-1)])]), (-1,[(65,[])])], some []⟩ (.string [65]) (.unknownBuiltin (-1)))

-- Concurrent
def pConc : IO Unit := do
  let (tbl, names) := tables[0]!
  let srcs := [b!"(())", b!"(]", b!"()"]
  for sch in [(List.range 300).map (· % 3), (List.range 100).map (fun _ => 0) ++ (List.range 100).map (fun _ => 1) ++ (List.range 100).map (fun _ => 2), (List.range 600).map (fun i => (i * i / 3) % 3)] do
    let sys := (System.start (some names) (srcs.map .string)).runSchedule tbl sch
    for (s, th) in srcs.zip sys.threads do
      probe "C17" (match (Parser.mk tbl (some names)).parseFuel 500 (.string s), th with
        | some (.ok a _), .finished (.ok b) => nodeEq a b
        | some (.err a), .finished (.err b) => a == b
        | _, _ => false)
    probe "C17" (match sys.names with | some m => m.get (-1) == some b!"_literal" && m.get (-2) == some b!"_nothing" && m.get 0 == names.get 0 | none => false)

-- Table generation: brute-force FIRST / NextFollow
abbrev R' (h : Str) (alts : List (List Symbol)) : Rule := ⟨h, ⟨alts.map fun a => ⟨a⟩⟩⟩
def T (s : Str) : Symbol := .terminal s
def N (s : Str) : Symbol := .nonTerminal s
instance : Inhabited Rule := ⟨⟨[], ⟨[]⟩⟩⟩
def ruleAt (g : Grammar) (i : Nat) : Rule := g.rules.getD i default
def refer (g : Grammar) (n : Str) : Option Nat := (List.range g.rules.length).reverse.find? fun i => (ruleAt g i).head == n
def seqNull (g : Grammar) (nl : List Bool) (s : List Symbol) : Bool := s.all fun
  | .terminal t => t.isEmpty | .nothing => true | .nonTerminal n => match refer g n with | some i => nl.getD i false | none => false
def iter {α} (n : Nat) (f : α → α) (a : α) : α := match n with | 0 => a | n+1 => iter n f (f a)
def nulls (g : Grammar) : List Bool := iter (g.rules.length + 2) (fun nl => g.rules.map fun r => r.tail.sequences.any fun s => seqNull g nl s.symbols) (g.rules.map fun _ => false)
def seqFirst (g : Grammar) (nl : List Bool) (fs : List (List UInt8)) : List Symbol → List UInt8
  | [] => []
  | .terminal [] :: r => seqFirst g nl fs r
  | .terminal (c :: _) :: _ => [c]
  | .nothing :: r => seqFirst g nl fs r
  | .nonTerminal n :: r => match refer g n with
    | none => []
    | some i => fs.getD i [] ++ (if nl.getD i false then seqFirst g nl fs r else [])
def firstsB (g : Grammar) : List (List UInt8) := let nl := nulls g; iter (g.rules.length + 2) (fun fs => g.rules.map fun r => (r.tail.sequences.flatMap fun s => seqFirst g nl fs s.symbols).eraseDups) (g.rules.map fun _ => [])
def nextFollow (g : Grammar) : List (List UInt8) :=
  let nl := nulls g; let fs := firstsB g
  iter (g.rules.length * 3 + 3) (fun fo => (List.range g.rules.length).map fun i =>
    ((if i = 0 then ([0] : List UInt8) else []) ++ (List.range g.rules.length).flatMap fun j =>
      (ruleAt g j).tail.sequences.flatMap fun (s : Sequence) =>
        let rec go : List Symbol → List UInt8
          | [] => []
          | [.nonTerminal n] => if n == (ruleAt g i).head then fo.getD j [] else []
          | .nonTerminal n :: x :: r => (if n == (ruleAt g i).head then seqFirst g nl fs [x] ++ (if seqNull g nl [x] then fo.getD j [] else []) else []) ++ go (x :: r)
          | _ :: r => go r
        go s.symbols).eraseDups) (g.rules.map fun _ => [])
def grammars : List Grammar := [
  Golden.linearMultiRule, Golden.or, Golden.resolvedLRecursive, selfGrammar,
  ⟨[R' b!"S" [[T b!"(", N b!"S", T b!")", N b!"T"], [T b!"x", N b!"T"]], R' b!"T" [[T b!",", N b!"S"], [.nothing]]]⟩,
  ⟨[R' b!"S" [[N b!"A", N b!"B", T b!"d"]], R' b!"A" [[T b!"a"], [.nothing]], R' b!"B" [[T b!"b"], [.nothing]]]⟩,
  ⟨[R' b!"S" [[N b!"A"]], R' b!"A" [[.nothing], [T b!"ab"]]]⟩,
  ⟨[R' b!"S" [[N b!"A", N b!"B"], [T b!"z"]], R' b!"A" [[.nothing], [T b!"a", N b!"A"]], R' b!"B" [[.nothing], [T b!"b", N b!"C"]], R' b!"C" [[N b!"B", T b!"c"]]]⟩,
  ⟨[R' b!"S" [[T b!"a", T b!"b"], [T b!"a", T b!"c"]]]⟩,
  ⟨[R' b!"S" [[T b!"x", N b!"S", T b!"y"], [.nothing]], R' b!"S" [[T b!"y"]]]⟩,
  ⟨[R' b!"S" [[N b!"A", N b!"A", T b!"c"]], R' b!"A" [[T b!"a"], [.nothing]]]⟩,
  ⟨[R' b!"R" [[N b!"S", T b!"a"]], R' b!"S" [[N b!"A", N b!"B", T b!"d"]], R' b!"A" [[T b!"a"], [.nothing]], R' b!"B" [[T b!"b"], [.nothing]]]⟩,
  ⟨[R' b!"S" [[T b!"q", N b!"L"]], R' b!"L" [[N b!"I", N b!"M"]], R' b!"M" [[.nothing], [T b!",", N b!"I", N b!"M"]], R' b!"I" [[T b!"i", N b!"O"]], R' b!"O" [[.nothing],[T b!"?"]]]⟩]
def setEq (a b : List UInt8) : Bool := a.all b.contains && b.all a.contains
def clash (g : Grammar) : Bool := let nl := nulls g; let fs := firstsB g; let nf := nextFollow g; (List.range g.rules.length).any fun i =>
  let seqs := (ruleAt g i).tail.sequences
  (List.range seqs.length).any fun k =>
    let s := seqs.getD k ⟨[]⟩
    seqNull g nl s.symbols && (nf.getD i []).any fun b =>
      (List.range k).any fun l => let e := seqs.getD l ⟨[]⟩
        seqNull g nl e.symbols || (seqFirst g nl fs e.symbols).contains b
def opsOf (g : Grammar) (s : List Symbol) : List ParserOp := s.filterMap fun
  | .terminal t => some (.terminal t) | .nonTerminal n => (refer g n).map fun i => .nonTerminal i | .nothing => none
def pTable : IO Unit := do
  for g in grammars do
    let nl := nulls g; let fs := firstsB g; let nf := nextFollow g
    match fromGrammar id g with
    | .ok (tbl, names) =>
      probe "C30" (!clash g)
      probe "C24" (setEq ((tbl.map fun (k, _) => UInt8.ofNat k.toNat).eraseDups) ((List.range g.rules.length).map UInt8.ofNat) && tbl.all fun (k, row) => k ≥ 0 && row.all fun (_, ops) => ops.all fun | .terminal _ => true | .nonTerminal n => 0 ≤ n && n < g.rules.length | _ => false)
      for i in List.range g.rules.length do
        let last := refer g (ruleAt g i).head == some i
        probe "C25" (GoMap.get names (i : Int) == (if last then some (ruleAt g i).head else none))
        let seqs := (ruleAt g i).tail.sequences
        let row := (GoMap.get tbl (i : Int)).getD []
        for b in allBytes do
          let sel := seqs.filter fun s => (seqFirst g nl fs s.symbols).contains b
          let nul := seqs.any (fun s => seqNull g nl s.symbols)
          let exp : Option (List ParserOp) := if !sel.isEmpty then some (sel.flatMap fun s => opsOf g s.symbols)
            else if nul && (nf.getD i []).contains b then some [] else none
          let got := GoMap.get row b
          probe "C26" (got == exp)
          probe "C27" ((match got with | some (_ :: _) => true | _ => false) == !sel.isEmpty)
          probe "C28" (!(nul && sel.isEmpty) || (got == some []) == (nf.getD i []).contains b)
    | .err .conflict => probe "C30" (clash g)
    | .err _ => probe "C23" false; probe "C31" false
    | .panic _ => probe "C23" false
    | .diverge => probe "C22" false
  let isP (g : Grammar) (p : TG.Panic) : Bool := match fromGrammar id g with | .panic q => p == q | _ => false
  probe "C23" (isP ⟨[]⟩ .indexOutOfRange && isP ⟨[R' b!"S" [[T []]]]⟩ .indexOutOfRange && isP ⟨[R' b!"S" [[T b!"a", .nothing]]]⟩ .unreachable)
  probe "C31" (match fromGrammar id ⟨[R' b!"S" [[T b!"a", N b!"nope"]]]⟩ with | .err (.undefined n) => n == b!"nope" | _ => false)
  for (g, t) in [(Golden.linearMultiRule, Golden.linearMultiRuleTable), (Golden.or, Golden.orTable), (Golden.resolvedLRecursive, Golden.resolvedLRecursiveTable), (selfGrammar, Golden.selfTable)] do
    probe "C45" (match fromGrammar id g with
      | .ok (tbl, _) => (List.range (g.rules.length + 2)).all fun i => match tbl.get (i : Int), t.get (i : Int) with
        | some a, some b => allBytes.all fun c => GoMap.get a c == GoMap.get b c
        | none, none => true
        | _, _ => false
      | _ => false)
  -- reversed map order
  for g in grammars do
    probe "C25" (match fromGrammar id g, fromGrammar List.reverse g with
      | .ok (_, a), .ok (_, b) => (List.range (g.rules.length+2)).all fun i => GoMap.get a (i:Int) == GoMap.get b (i:Int)
      | .ok _, _ => false | _, .ok _ => false | _, _ => true)

-- Printing, reading back
def names' : List Str := [[], b!"a", b!"\"", b!"'", b!"\"'", b!"\\", b!"\\t", b!"\t\n\r", b!"a\"b\\\"", b!"ab"]
partial def unq (q : UInt8) : Str → Option (Str × Str)
  | [] => none
  | 92 :: c :: r => ((match c with | 116 => some (9 : UInt8) | 110 => some 10 | 114 => some 13 | 34 => some 34 | 92 => some 92 | _ => none) : Option UInt8).bind fun (d : UInt8) => (unq q r).map fun (a, b) => (d :: a, b)
  | c :: r => if c = q then some ([], r) else (unq q r).map fun (a, b) => (c :: a, b)
def legal : List Grammar := [selfGrammar, Golden.or, Golden.linearMultiRule,
  ⟨[R' b!"a" [[T b!"\"'\\\n\r\t x", N b!"b-1"], [.nothing]], R' b!"b-1" [[T b!"\""], [T b!"'", T b!"z"], [N b!"a", .nothing]], R' b!"c" [[T b!"1"]]]⟩]
def linesOf (s : Str) : List Str := s.foldr (fun c acc => if c = 10 then [] :: acc else match acc with | [] => [[c]] | l :: ls => (c :: l) :: ls) [[]]
def symStr : Symbol → Str | y => y.toStr
def pAst : IO Unit := do
  for n in names' do
    let s := (Symbol.terminal n).toStr
    probe "C37" (match s with | q :: body => (q == 34 || q == 39) && unq q body == some (n, []) | [] => false)
    probe "C37" (s.all fun c => c ≠ 9 && c ≠ 10 && c ≠ 13)
  for g in legal do
    probe "C38" (linesOf g.toStr == g.rules.map Rule.toStr)
    for r in g.rules do
      probe "C38" (r.toStr == b!"<" ++ r.head ++ b!"> ::= " ++ List.intercalate b!" | " (r.tail.sequences.map fun s => List.intercalate b!" " (s.symbols.map symStr)))
    probe "C39" (match (Parser.mk Golden.selfTable (some [])).parseFuel 1000000 (.string g.toStr) with
      | some (.ok t _) => match FC.selfBindings.toAST t g.toStr with | .ok g' => g' == g | _ => false
      | _ => false)
  let lay := b!"<a>::=  'x'|\"\"  \r\n   \n<b> ::=<a>'\"'"
  probe "C40" (match (Parser.mk Golden.selfTable (some [])).parseFuel 1000000 (.string lay) with
      | some (.ok t _) => match FC.selfBindings.toAST t lay with | .ok g' => g' == ⟨[R' b!"a" [[T b!"x"],[.nothing]], R' b!"b" [[N b!"a", T b!"\""]]]⟩ | _ => false
      | _ => false)

-- ToAST
def someBindings : List FC.Bindings := [FC.selfBindings,
  { FC.selfBindings with ignoreNodeTypes := [25, 3, 99, 0 - 5, 12] }, { FC.selfBindings with ignoreNodeTypes := [12, 11] },
  { FC.selfBindings with ignoreNodeTypes := [] }, { FC.selfBindings with ruleType := 0, ruleHeadType := 4 },
  { FC.selfBindings with ruleTailType := 77 }, { FC.selfBindings with ruleHeadType := 77 }, { FC.selfBindings with symbolNonTerminalType := 78, symbolTerminalTypes := [] },
  { FC.selfBindings with escapeMapping := [] }, { FC.selfBindings with ruleType := 9, ruleHeadType := -1, ruleTailType := 18 }]
def pFrom : IO Unit := do
  let t1 := b!"<a> ::= 'x\\t' \"\\\"y\" | \"\" <b>\r\n\n<b> ::= <a> 'q'\n"
  match (Parser.mk Golden.selfTable (some [])).parseFuel 1000000 (.string t1) with
  | some (.ok t _) =>
    for b in someBindings do
      for str in [t1, t1.take 20, t1 ++ b!"zz"] do
        for root in [t, tree] do
          let a := b.toAST root str
          let r := Read.grammar (fun t => decide (t ∈ b.ignoreNodeTypes)) b str root
          probe "C44" (a == r)
          probe "C43" (a == ({ b with ignoreNodeTypes := b.ignoreNodeTypes.reverse ++ b.ignoreNodeTypes }).toAST root str)
          probe "C43" (a == r)
    probe "C47" (match FC.selfBindings.toAST t t1 with | .ok g => (g.rules.head?.bind fun r => r.tail.sequences.head?) == some ⟨[T b!"x\t", T b!"\"y"]⟩ | _ => false)
    probe "C48" ((someBindings.all fun b => match b.toAST t t1 with | .panic _ => false | _ => true))
  | _ => probe "C41" false
  for c in allBytes do
    probe "C47" (FC.selfBindings.escapeMapping.get [c] == (match c with | 116 => some [9] | 110 => some [10] | 114 => some [13] | 34 => some [34] | 92 => some [92] | _ => none))

#eval pByteSet
#eval pCst
#eval pParser
#eval pConc
#eval pTable
#eval pAst
#eval pFrom
