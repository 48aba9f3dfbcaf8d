import Verif.Spec.Float
/-
What numbers say, and the double that is nearest to a number.
-/
namespace Verif.Spec

/-- All are digits. -/
def AllDigits (ds : List Char) : Prop := ∀ c ∈ ds, '0' ≤ c ∧ c ≤ '9'

/-- The number that digits say. -/
def decimal : List Char → Nat
  | [] => 0
  | c :: cs => (c.toNat - '0'.toNat) * 10 ^ cs.length + decimal cs

/-- The part after the point, with its digits. -/
inductive FracText : List Char → List Char → Prop
  | none : FracText [] []
  | some {ds} (h : AllDigits ds) : FracText ('.' :: ds) ds

/-- The exponent, with its value. -/
inductive ExpText : List Char → Int → Prop
  | none : ExpText [] 0
  | plain {c ds} (hc : c = 'e' ∨ c = 'E') (h0 : ds ≠ []) (h : AllDigits ds) : ExpText (c :: ds) (decimal ds)
  | plus {c ds} (hc : c = 'e' ∨ c = 'E') (h0 : ds ≠ []) (h : AllDigits ds) : ExpText (c :: '+' :: ds) (decimal ds)
  | minus {c ds} (hc : c = 'e' ∨ c = 'E') (h0 : ds ≠ []) (h : AllDigits ds) : ExpText (c :: '-' :: ds) (-(decimal ds : Int))

/-- `NumText s neg m e`: the text says `m * 10 ^ e`, with a minus if `neg`. -/
inductive NumText : List Char → Bool → Nat → Int → Prop
  | mk {neg : Bool} {int frac ds ex : List Char} {e : Int} (h0 : int ≠ []) (hi : AllDigits int) (hf : FracText frac ds) (he : ExpText ex e) :
      NumText ((if neg then ['-'] else []) ++ (int ++ (frac ++ ex))) neg (decimal (int ++ ds)) (e - ds.length)

/-- The text says some number. -/
def SaysNumber (s : List Char) : Prop := ∃ neg m e, NumText s neg m e

/-- Not "not a number". -/
def F64.IsNumber (x : F64) : Prop := F64.exponent x = 2047 → F64.fraction x = 0

/-- How far a double is from `m * 10 ^ e` (with a minus if `neg`), in units of `2 ^ -1074`, times `10 ^ -e` if `e` is negative.  Infinity counts
as `2 ^ 1024`. -/
def F64.away (x : F64) (neg : Bool) (m : Nat) (e : Int) : Nat :=
  (F64.units x * 10 ^ (-e).toNat - (if neg then -1 else 1) * ((m * 10 ^ e.toNat * 2 ^ 1074 : Nat) : Int)).natAbs

/-- No double of the same sign is nearer to `m * 10 ^ e` (with a minus if `neg`), and if another one is as near, this one is even. -/
def F64.IsNearest (x : F64) (neg : Bool) (m : Nat) (e : Int) : Prop :=
  F64.sign x = neg ∧ F64.IsNumber x ∧ ∀ z : F64, F64.sign z = neg → F64.IsNumber z → z ≠ x →
    F64.away x neg m e < F64.away z neg m e ∨ F64.away x neg m e = F64.away z neg m e ∧ F64.fraction x % 2 = 0

/-- The formatter prints a decimal text to which `x` is the nearest double. -/
def PrintsNear (fmt : F64 → Str) (x : F64) : Prop := ∃ neg m e, NumText (fmt x) neg m e ∧ F64.IsNearest x neg m e

end Verif.Spec
