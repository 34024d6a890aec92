import Verif.Model.Parser
import Verif.Spec.Grammar

/-!
# Exchanging bytes

The same grammar, text, table and result with other bytes in place of the bytes of terminals and texts.
-/

namespace LL1

/-- An exchange of the 256 bytes that leaves NUL alone. -/
structure Recoding where
  enc : UInt8 → UInt8
  dec : UInt8 → UInt8
  dec_enc : ∀ b, dec (enc b) = b
  enc_dec : ∀ b, enc (dec b) = b
  zero : enc 0 = 0

def Symbol.recode (c : Recoding) : Symbol → Symbol
  | .terminal t => .terminal (t.map c.enc)
  | y => y

def Sequence.recode (c : Recoding) (s : Sequence) : Sequence := ⟨s.symbols.map (Symbol.recode c)⟩

def Rule.recode (c : Recoding) (r : Rule) : Rule := ⟨r.head, ⟨r.tail.sequences.map (Sequence.recode c)⟩⟩

/-- The grammar with the bytes of its terminals exchanged (the names of its rules stay). -/
def Grammar.recode (c : Recoding) (g : Grammar) : Grammar := ⟨g.rules.map (Rule.recode c)⟩

def ParserOp.recode (c : Recoding) : ParserOp → ParserOp
  | .terminal t => .terminal (t.map c.enc)
  | .char b => .char (c.enc b)
  | op => op

/-- The error with the bytes it mentions exchanged. -/
def PErr.recode (c : Recoding) : PErr → PErr
  | .noRule b nt => .noRule (c.enc b) nt
  | .noEOLRule b => .noEOLRule (c.enc b)
  | .expectedEnd b => .expectedEnd (c.enc b)
  | .expectedChar w b => .expectedChar (c.enc w) (c.enc b)
  | e => e

/-- The result of a call with the bytes an error mentions exchanged; trees hold no bytes. -/
def Outcome.recode (c : Recoding) : Outcome → Outcome
  | .err e => .err (e.recode c)
  | o => o

/-- `tbl'` is `tbl` with the bytes exchanged: those that index the cells and those of the terminals in them. -/
def Table.Recoded (c : Recoding) (tbl tbl' : Table) : Prop :=
  ∀ n, match tbl.get n with
    | none => tbl'.get n = none
    | some row => ∃ row', tbl'.get n = some row' ∧
        ∀ b, GoMap.get row' (c.enc b) = (GoMap.get row b).map (List.map (ParserOp.recode c))

/-- A cell of the table uses the built-in non-terminal for line ends. -/
def Table.UsesEOL (tbl : Table) : Prop :=
  ∃ n row b ops, tbl.get n = some row ∧ GoMap.get row b = some ops ∧ ParserOp.nonTerminal (-2) ∈ ops

end LL1
