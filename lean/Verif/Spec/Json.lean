import Verif.Spec.Bnf

/-!
# JSON texts, as the example understands them

The dialect of `examples/json/json.bnf` described directly, without grammar, table or tree, and what the
example is supposed to print.  Differences to json.org: printable ASCII only, blanks are space, LF and
CR LF, `\u` takes three hex digits, no blank inside an empty array.
-/

namespace LL1

/-- A JSON value.  Strings and keys are the raw text between the quotes, numbers and words the raw text. -/
inductive Json where
  | object (members : List (Str × Json))
  | array (elements : List Json)
  | string (s : Str)
  | number (s : Str)
  | word (s : Str)

/-- White space: blanks, LF, CR LF. -/
inductive Ws : Str → Prop
  | nil : Ws []
  | blank {w : Str} : Ws w → Ws (32 :: w)
  | lf {w : Str} : Ws w → Ws (10 :: w)
  | crlf {w : Str} : Ws w → Ws (13 :: 10 :: w)

/-- `0`..`9`, `A`..`F`, `a`..`f`. -/
def IsHex (c : UInt8) : Prop := IsDigit c ∨ (65 ≤ c ∧ c ≤ 70) ∨ (97 ≤ c ∧ c ≤ 102)

instance (c : UInt8) : Decidable (IsHex c) := inferInstanceAs (Decidable (_ ∨ _))

/-- The text between the quotes of a string. -/
inductive StringBody : Str → Prop
  | nil : StringBody []
  | plain {c : UInt8} {w : Str} : 32 ≤ c → c ≤ 126 → c ≠ 34 → c ≠ 92 → StringBody w → StringBody (c :: w)
  | escape {c : UInt8} {w : Str} : c ∈ b!"\"\\/bfnrt" → StringBody w → StringBody (92 :: c :: w)
  | unicode {a b c : UInt8} {w : Str} : IsHex a → IsHex b → IsHex c → StringBody w →
      StringBody (92 :: 117 :: a :: b :: c :: w)

/-- Digits only. -/
def Digits (w : Str) : Prop := ∀ c ∈ w, IsDigit c

/-- `-`? (`0` | nonzero digit, digits) (`.` digits)? ((`e`|`E`) (`+`|`-`)? digits)? -/
def NumberText (w : Str) : Prop :=
  ∃ sign int frac exp : Str, w = sign ++ (int ++ (frac ++ exp)) ∧
    (sign = [] ∨ sign = b!"-") ∧
    (int = b!"0" ∨ ∃ d ds, int = d :: ds ∧ IsDigit d ∧ d ≠ 48 ∧ Digits ds) ∧
    (frac = [] ∨ ∃ ds, frac = 46 :: ds ∧ Digits ds ∧ ds ≠ []) ∧
    (exp = [] ∨ ∃ e s ds, exp = e :: (s ++ ds) ∧ (e = 69 ∨ e = 101) ∧ (s = [] ∨ s = b!"+" ∨ s = b!"-") ∧
      Digits ds ∧ ds ≠ [])

/-- What a piece of text can stand for. -/
inductive JsonPart where
  | value (v : Json)
  | elements (vs : List Json)
  | members (ms : List (Str × Json))

/-- `JsonText p w`: `w` is a way to write `p`. -/
inductive JsonText : JsonPart → Str → Prop
  | string {s : Str} : StringBody s → JsonText (.value (.string s)) (34 :: (s ++ [34]))
  | number {s : Str} : NumberText s → JsonText (.value (.number s)) s
  | word {s : Str} : s = b!"true" ∨ s = b!"false" ∨ s = b!"null" → JsonText (.value (.word s)) s
  | emptyArray : JsonText (.value (.array [])) b!"[]"
  | array {vs : List Json} {x : Str} : JsonText (.elements vs) x →
      JsonText (.value (.array vs)) (91 :: (x ++ [93]))
  | emptyObject {a : Str} : Ws a → JsonText (.value (.object [])) (123 :: (a ++ [125]))
  | object {ms : List (Str × Json)} {a x : Str} : Ws a → JsonText (.members ms) x →
      JsonText (.value (.object ms)) (123 :: (a ++ (x ++ [125])))
  | element {v : Json} {a x b : Str} : Ws a → JsonText (.value v) x → Ws b →
      JsonText (.elements [v]) (a ++ (x ++ b))
  | elements {v : Json} {vs : List Json} {a x b y : Str} : Ws a → JsonText (.value v) x → Ws b →
      JsonText (.elements vs) y → JsonText (.elements (v :: vs)) (a ++ (x ++ (b ++ 44 :: y)))
  | member {k : Str} {v : Json} {a b x c : Str} : StringBody k → Ws a → Ws b → JsonText (.value v) x → Ws c →
      JsonText (.members [(k, v)]) (34 :: (k ++ 34 :: (a ++ 58 :: (b ++ (x ++ c)))))
  | members {k : Str} {v : Json} {ms : List (Str × Json)} {a b x c d y : Str} :
      StringBody k → Ws a → Ws b → JsonText (.value v) x → Ws c → Ws d → JsonText (.members ms) y →
      JsonText (.members ((k, v) :: ms)) (34 :: (k ++ 34 :: (a ++ 58 :: (b ++ (x ++ (c ++ 44 :: (d ++ y)))))))

/-- A JSON document: white space, a value, white space. -/
def JsonDocument (v : Json) (w : Str) : Prop :=
  ∃ a x b, w = a ++ (x ++ b) ∧ Ws a ∧ JsonText (.value v) x ∧ Ws b

mutual
/-- What the example prints for a value that lies inside `level` objects and arrays: a line for each key,
in order of appearance, indented by two blanks per enclosing object or array. -/
def keyLines (level : Nat) : Json → Str
  | .object ms => keyLinesMembers (level + 1) ms
  | .array vs => keyLinesElements (level + 1) vs
  | .string _ => []
  | .number _ => []
  | .word _ => []
/-- Lines for the members of an object. -/
def keyLinesMembers (level : Nat) : List (Str × Json) → Str
  | [] => []
  | (k, v) :: ms => blanks (2 * level) ++ k ++ [10] ++ keyLines level v ++ keyLinesMembers level ms
/-- Lines for the elements of an array. -/
def keyLinesElements (level : Nat) : List Json → Str
  | [] => []
  | v :: vs => keyLines level v ++ keyLinesElements level vs
end

end LL1
