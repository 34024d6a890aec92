import Verif.Model.TestDriver

/-!
# Model of `fmt.Fprintf(&sb, "%#v", *table)` (test/bnftablegen/tablegen_test.go:33, 56, 90, 153)

Go's `%#v` of a `ParsingTable`, from the documented behaviour of package `fmt`: map entries in key order, elements
separated by a comma and a blank, bytes in hexadecimal, strings as by `strconv.Quote`.  Simplified: quoting is modelled
for bytes below 128 only (others are printed as they are); nil maps and slices are printed like empty ones.
-/

namespace LL1
namespace TestTools

/-- `strconv.Quote` of one ASCII byte. -/
def goQuoteByte (c : UInt8) : Str :=
  if c = 34 then [92, 34] else if c = 92 then [92, 92]
  else if c = 7 then [92, 97] else if c = 8 then [92, 98] else if c = 12 then [92, 102] else if c = 10 then [92, 110]
  else if c = 13 then [92, 114] else if c = 9 then [92, 116] else if c = 11 then [92, 118]
  else if c < 32 ∨ c = 127 then
    let d := fun n : UInt8 => if n < 10 then 48 + n else 87 + n
    [92, 120, d (c / 16), d (c % 16)]
  else [c]

/-- `strconv.Quote` of an ASCII string. -/
def goQuote (s : Str) : Str := 34 :: (s.flatMap goQuoteByte ++ [34])

/-- `%#v` of a byte: `0x` and one or two digits. -/
def goByte (c : UInt8) : Str :=
  let d := fun n : UInt8 => if n < 10 then 48 + n else 87 + n
  if c < 16 then [48, 120, d c] else [48, 120, d (c / 16), d (c % 16)]

/-- `%#v` of an operation — the structs of parser.go:41-135. -/
def goOp : ParserOp → Str
  | .nonTerminal n => b!"parser.nonTerminal_t{name:" ++ (fmtInt n ++ [125])
  | .terminal s => b!"parser.terminal_t{value:" ++ (goQuote s ++ [125])
  | .function n p a => b!"parser.function_t{name:" ++ (fmtInt n ++ (b!", pos:" ++ (fmtNat p ++ (b!", amount:" ++ (fmtNat a ++ [125])))))
  | .eos => b!"parser.opEOS_t{}"
  | .char c => b!"parser.opChar_t{value:" ++ (goByte c ++ [125])
  | .nil => b!"parser.ParserOp(nil)"

/-- Elements separated by a comma and a blank, and the closing brace. -/
def goList {α : Type} (f : α → Str) : List α → Str
  | [] => [125]
  | a :: l => f a ++ (if l.isEmpty then [125] else 44 :: 32 :: goList f l)

/-- Insertion into a list sorted by keys (the order in which package `fmt` prints maps). -/
def insertBy {α : Type} (key : α → Int) (e : α) : List α → List α
  | [] => [e]
  | f :: l => if key e ≤ key f then e :: f :: l else f :: insertBy key e l

/-- The entries in key order. -/
def sortBy {α : Type} (key : α → Int) (l : List α) : List α := l.foldr (insertBy key) []

/-- `%#v` of a list of operations. -/
def goOps (l : List ParserOp) : Str := b!"[]parser.ParserOp{" ++ goList goOp l

/-- `%#v` of a row. -/
def goRow (r : Row) : Str :=
  b!"map[uint8][]parser.ParserOp{" ++
    goList (fun e : UInt8 × List ParserOp => goByte e.1 ++ (58 :: goOps e.2)) (sortBy (fun e => (e.1.toNat : Int)) r)

/-- `%#v` of a table. -/
def goTable (t : Table) : Str :=
  b!"map[int]map[uint8][]parser.ParserOp{" ++
    goList (fun e : Int × Row => fmtInt e.1 ++ (58 :: goRow e.2)) (sortBy (fun e => e.1) t)

end TestTools
end LL1
