import Verif.Spec.Messages
import Verif.Spec.Derivation
import Verif.Proofs.ByteSet

/-!
# The formatted messages
-/

namespace LL1

theorem digitChar_byte : ∀ d : Nat, d < 10 → UInt8.ofNat (Nat.digitChar d).toNat = 48 + UInt8.ofNat d := by
  decide +kernel

theorem fmtNat_eq (n : Nat) : fmtNat n = decimal n := by
  induction n using decimal.induct with
  | case1 n h =>
    rw [decimal, if_pos h]
    unfold fmtNat
    rw [Nat.toDigits_of_lt_base h]
    simp [digitChar_byte n h]
  | case2 n h ih =>
    rw [decimal, if_neg h, ← ih]
    unfold fmtNat
    rw [Nat.toDigits_of_base_le (by omega) (by omega)]
    simp only [List.map_append, List.map_cons, List.map_nil]
    rw [digitChar_byte _ (Nat.mod_lt _ (by omega))]

theorem fmtInt_eq (n : Int) : fmtInt n = decimalInt n := by
  cases n with
  | ofNat n => simp [fmtInt, decimalInt, fmtNat_eq]
  | negSucc n =>
    have h : ¬ (0 ≤ Int.negSucc n) := by omega
    simp [fmtInt, decimalInt, fmtNat_eq, h]

theorem runeOfByte_eq : ∀ b : UInt8, runeOfByte b = String.utf8EncodeChar (Char.ofNat b.toNat) :=
  forall_byte (by decide +kernel)

theorem charCode_eq (b : UInt8) : charCode b = shown b := by
  simp [charCode, shown, runeOfByte_eq, fmtNat_eq]

theorem rowName_render (names : Option Names) (n : Int) : (rowName names n).render = called names n := by
  unfold rowName called
  cases names with
  | none => simp [NameRef.render, fmtInt_eq]
  | some m =>
    cases h : m.get n with
    | none => simp [NameRef.render, fmtInt_eq, h]
    | some s => simp [NameRef.render, h]

end LL1
