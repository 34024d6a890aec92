import Verif.Model.Parser

/-!
# How bytes, numbers and rows are shown in messages
-/

namespace LL1

/-- Decimal notation of a natural number. -/
def decimal (n : Nat) : Str :=
  if n < 10 then [48 + UInt8.ofNat n] else decimal (n / 10) ++ [48 + UInt8.ofNat (n % 10)]

/-- Decimal notation of an integer. -/
def decimalInt (n : Int) : Str := if 0 ≤ n then decimal n.toNat else 45 :: decimal (-n).toNat

/-- A byte: the character with that code in quotes (UTF-8), and the code in decimal. -/
def shown (b : UInt8) : Str :=
  [39] ++ String.utf8EncodeChar (Char.ofNat b.toNat) ++ [39, 32, 40] ++ decimal b.toNat ++ [41]

/-- A row: its name, or `Unknown_` and its number. -/
def called (names : Option Names) (n : Int) : Str :=
  match names.bind (fun m => m.get n) with
  | some s => s
  | none => b!"Unknown_" ++ decimalInt n

end LL1
