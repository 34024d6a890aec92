import Verif.Model.Ast

/-!
# Textual BNF

What a grammar looks like as text: the layouts a user may write, and which grammars can be written.
Independent of the parser, of its tables and of the BNF grammar in the package.
-/

namespace LL1

/-- `A`..`Z`, `a`..`z`. -/
def IsLetter (c : UInt8) : Prop := (65 ≤ c ∧ c ≤ 90) ∨ (97 ≤ c ∧ c ≤ 122)

/-- `0`..`9`. -/
def IsDigit (c : UInt8) : Prop := 48 ≤ c ∧ c ≤ 57

/-- Printable ASCII except the two quotes and the backslash. -/
def IsPlain (c : UInt8) : Prop := 32 ≤ c ∧ c ≤ 126 ∧ c ≠ 34 ∧ c ≠ 39 ∧ c ≠ 92

/-- Printable ASCII, TAB, LF, CR. -/
def IsText (c : UInt8) : Prop := (32 ≤ c ∧ c ≤ 126) ∨ c = 9 ∨ c = 10 ∨ c = 13

instance (c : UInt8) : Decidable (IsLetter c) := inferInstanceAs (Decidable (_ ∨ _))
instance (c : UInt8) : Decidable (IsDigit c) := inferInstanceAs (Decidable (_ ∧ _))
instance (c : UInt8) : Decidable (IsPlain c) := inferInstanceAs (Decidable (_ ∧ _))
instance (c : UInt8) : Decidable (IsText c) := inferInstanceAs (Decidable (_ ∨ _))

/-- A letter, then letters, digits and dashes. -/
def LegalName (n : Str) : Prop :=
  ∃ c rest, n = c :: rest ∧ IsLetter c ∧ ∀ d ∈ rest, IsLetter d ∨ IsDigit d ∨ d = 45

/-- Symbols that can be written in BNF. -/
def LegalSymbol : Symbol → Prop
  | .nonTerminal n => LegalName n
  | .terminal t => t ≠ [] ∧ ∀ c ∈ t, IsText c
  | .nothing => True

/-- Grammars that can be written in BNF. -/
structure Grammar.Legal (g : Grammar) : Prop where
  rules : g.rules ≠ []
  heads : ∀ r ∈ g.rules, LegalName r.head
  alts : ∀ r ∈ g.rules, r.tail.sequences ≠ []
  symbols : ∀ r ∈ g.rules, ∀ s ∈ r.tail.sequences, s.symbols ≠ [] ∧ ∀ y ∈ s.symbols, LegalSymbol y

/-- `k` blanks. -/
def blanks (k : Nat) : Str := List.replicate k 32

/-- One character of a literal between quotes `q`: itself, or an escape. -/
inductive CharText (q : UInt8) : UInt8 → Str → Prop
  | plain {c : UInt8} : IsPlain c → CharText q c [c]
  | otherQuote {c : UInt8} : c = 34 ∨ c = 39 → c ≠ q → CharText q c [c]
  | tab : CharText q 9 b!"\\t"
  | lf : CharText q 10 b!"\\n"
  | cr : CharText q 13 b!"\\r"
  | quote : CharText q 34 b!"\\\""
  | backslash : CharText q 92 b!"\\\\"

/-- The inside of a literal. -/
inductive CharsText (q : UInt8) : Str → Str → Prop
  | nil : CharsText q [] []
  | cons {c : UInt8} {name x y : Str} : CharText q c x → CharsText q name y → CharsText q (c :: name) (x ++ y)

/-- A literal: quoted by `"` or by `'`. -/
inductive LiteralText (name : Str) : Str → Prop
  | mk {q : UInt8} {body : Str} : q = 34 ∨ q = 39 → CharsText q name body →
      LiteralText name (q :: (body ++ [q]))

/-- A symbol; the empty literal is the empty-string symbol. -/
inductive SymbolText : Symbol → Str → Prop
  | nonTerminal {n : Str} : LegalName n → SymbolText (.nonTerminal n) (60 :: (n ++ [62]))
  | terminal {t x : Str} : t ≠ [] → LiteralText t x → SymbolText (.terminal t) x
  | nothing {x : Str} : LiteralText [] x → SymbolText .nothing x

/-- One or more symbols, each followed by any number of blanks. -/
inductive SeqText : List Symbol → Str → Prop
  | one {y : Symbol} {x : Str} (k : Nat) : SymbolText y x → SeqText [y] (x ++ blanks k)
  | cons {y : Symbol} {ys : List Symbol} {x z : Str} (k : Nat) : SymbolText y x → SeqText ys z →
      SeqText (y :: ys) (x ++ (blanks k ++ z))

/-- One or more alternatives separated by `|` and any number of blanks. -/
inductive AltsText : List Sequence → Str → Prop
  | one {s : Sequence} {x : Str} : SeqText s.symbols x → AltsText [s] x
  | cons {s : Sequence} {ss : List Sequence} {x z : Str} (k : Nat) : SeqText s.symbols x → AltsText ss z →
      AltsText (s :: ss) (x ++ 124 :: (blanks k ++ z))

/-- `<head> ::= alternatives`, any number of blanks around `::=`. -/
inductive RuleText : Rule → Str → Prop
  | mk {head : Str} {alts : List Sequence} {x : Str} (k l : Nat) : LegalName head → AltsText alts x →
      RuleText ⟨head, ⟨alts⟩⟩ (60 :: (head ++ 62 :: (blanks k ++ (b!"::=" ++ (blanks l ++ x)))))

/-- LF or CR LF. -/
def IsEol (e : Str) : Prop := e = [10] ∨ e = [13, 10]

/-- Further lines: each is blank or holds a rule. -/
inductive LinesText : List Rule → Str → Prop
  | nil : LinesText [] []
  | blank {rs : List Rule} {e z : Str} (k : Nat) : IsEol e → LinesText rs z →
      LinesText rs (e ++ (blanks k ++ z))
  | rule {r : Rule} {rs : List Rule} {e x z : Str} (k : Nat) : IsEol e → RuleText r x → LinesText rs z →
      LinesText (r :: rs) (e ++ (blanks k ++ (x ++ z)))

/-- `text` is a way to write the grammar: the first rule on the first line, then further lines. -/
inductive GrammarText : Grammar → Str → Prop
  | mk {r : Rule} {rs : List Rule} {x z : Str} (k : Nat) : RuleText r x → LinesText rs z →
      GrammarText ⟨r :: rs⟩ (blanks k ++ (x ++ z))

/-! ## Reading a quoted literal -/

/-- The character an escape letter stands for. -/
def escaped : UInt8 → Option UInt8
  | 116 => some 9
  | 110 => some 10
  | 114 => some 13
  | 34 => some 34
  | 92 => some 92
  | _ => none

/-- Read up to the first unescaped quote `q`: the characters and what comes after the quote. -/
def readUntil (q : UInt8) : Str → Option (Str × Str)
  | [] => none
  | c :: rest =>
    if c = q then some ([], rest)
    else if c = 92 then
      match rest with
      | [] => none
      | e :: rest =>
        match escaped e, readUntil q rest with
        | some d, some (s, tail) => some (d :: s, tail)
        | _, _ => none
    else
      match readUntil q rest with
      | some (s, tail) => some (c :: s, tail)
      | none => none

/-- The lines of a text: split at every LF. -/
def lines : Str → List Str
  | [] => [[]]
  | c :: rest =>
    if c = 10 then [] :: lines rest
    else
      match lines rest with
      | [] => [[c]]
      | l :: ls => (c :: l) :: ls

end LL1
