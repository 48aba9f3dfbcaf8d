import Verif.Model.Basic
/-
The value of a double, and the number that `as usize` makes of it.
-/
namespace Verif.Spec

/-- The three fields of the bit pattern. -/
def F64.sign (x : F64) : Bool := x.bits.msb
def F64.exponent (x : F64) : Nat := (x.bits.extractLsb' 52 11).toNat
def F64.fraction (x : F64) : Nat := (x.bits.extractLsb' 0 52).toNat

/-- The value of a finite double, in units of `2 ^ -1074`, the least positive double. -/
def F64.units (x : F64) : Int :=
  (if F64.sign x then -1 else 1) *
    (if F64.exponent x = 0 then F64.fraction x else (F64.fraction x + 2 ^ 52) * 2 ^ (F64.exponent x - 1) : Nat)

/-- `n` is what becomes of the double as a `usize` of 64 bits: the largest one that is not above the value, or 0 if
there is none. -/
def F64.IsUsize (x : F64) (n : Nat) : Prop :=
  if F64.exponent x = 2047 then n = if F64.fraction x = 0 ∧ F64.sign x = false then 2 ^ 64 - 1 else 0
  else n < 2 ^ 64 ∧ (n = 0 ∨ (n : Int) * 2 ^ 1074 ≤ F64.units x) ∧
    ∀ m : Nat, m < 2 ^ 64 → (m : Int) * 2 ^ 1074 ≤ F64.units x → m ≤ n

end Verif.Spec
