import Verif.Proofs.NumberText
import Verif.Props.Numbers
import Verif.Props.DataOf
/-
C132: the doubles that number rules give.
-/
namespace Verif.Props
open Spec

/-- The values of numbers are all doubles except those that are "not a number", whether underscores are allowed or not. -/
theorem C132_values {us : Bool} {v : F64} : NumberValue stdLexer us v ↔ (F64.exponent v = 2047 → F64.fraction v = 0) := by
  rw [exponent_eq, fraction_eq]
  constructor
  · rintro ⟨y, -, h⟩ he
    have := Std.parseNum_number (us := us) h
    simpa [F64.isNaN, he] using this
  · intro h
    by_cases he : v.expo = 2047
    · have hb := Std.bits_fields v
      have h1 := Std.numberValue_of us v.neg (2 ^ 1024) 0
      have h2 : Std.ratBits (2 ^ 1024) 1 = 2047 * 2 ^ 52 := by decide +kernel
      rw [if_pos rfl, h2] at h1
      rw [he, h he] at hb
      rw [show 2047 * 2 ^ 52 + (if v.neg then 2 ^ 63 else 0) = v.bits.toNat by omega] at h1
      cases v
      simpa using h1
    · exact Std.finite_read us he

/-- If `digits e - digits`, perhaps with a sign, says exactly the value of a finite double other than zero, that double is read. -/
theorem C132_exact {us neg : Bool} {ds es : List Char} (hd : ds ≠ []) (hds : ∀ c ∈ ds, Std.isDigit c = true) (he : es ≠ [])
    (hes : ∀ c ∈ es, Std.isDigit c = true) {x : F64} (hx : F64.exponent x ≠ 2047) (hs : F64.sign x = neg) (h0 : F64.units x ≠ 0)
    (h : (if neg then -1 else 1) * (Std.natOf ds : Int) * 2 ^ 1074 = F64.units x * 10 ^ Std.natOf es) :
    stdLexer.parseNum us ((if neg then ['-'] else []) ++ (ds ++ 'e' :: '-' :: es))
      ((if neg then ['-'] else []) ++ (ds ++ 'e' :: '-' :: es)).length = .ok x := by
  have h1 := Std.parseNum_text hd hds he hes us neg
  have hb := Std.bits_fields x
  have hm : x.mant < 2 ^ 52 := Nat.mod_lt _ (by decide)
  have hE : x.expo < 2 ^ 11 := Nat.mod_lt _ (by decide)
  rw [exponent_eq] at hx
  simp only [F64.units, exponent_eq, fraction_eq, hs] at h h0
  rw [sign_eq] at hs
  obtain ⟨q, T, hq, hT1, hT2, h3, hres, hun⟩ : ∃ (q : Nat) (T : Int), q < 2 ^ 53 ∧ T ≤ 1023 ∧ -1022 ≤ T ∧ (2 ^ 52 ≤ q ∨ T = -1022) ∧
      (if q < 2 ^ 52 then q else (T + 1023).toNat * 2 ^ 52 + (q - 2 ^ 52)) = x.expo * 2 ^ 52 + x.mant ∧
      (if x.expo = 0 then x.mant else (x.mant + 2 ^ 52) * 2 ^ (x.expo - 1)) = q * 2 ^ (T + 1022).toNat := by
    by_cases h0 : x.expo = 0
    · exact ⟨x.mant, -1022, by omega, by omega, by omega, .inr rfl, by rw [if_pos hm, h0]; omega, by simp [h0]⟩
    · refine ⟨2 ^ 52 + x.mant, (x.expo : Int) - 1023, by omega, by omega, by omega, .inl (by omega), ?_, ?_⟩
      · rw [if_neg (by omega), show ((x.expo : Int) - 1023 + 1023).toNat = x.expo by omega]
        omega
      · rw [if_neg h0, show ((x.expo : Int) - 1023 + 1022).toNat = x.expo - 1 by omega, Nat.add_comm]
  rw [hun] at h h0
  have hnat : Std.natOf ds * 2 ^ 1074 = q * 10 ^ Std.natOf es * 2 ^ (T + 1022).toNat := by
    have : (Std.natOf ds : Int) * 2 ^ 1074 = ((q * 2 ^ (T + 1022).toNat : Nat) : Int) * 10 ^ Std.natOf es := by
      cases neg with
      | false => simpa using h
      | true =>
        simp only [if_true, Int.neg_mul, Int.one_mul] at h
        exact Int.neg_inj.1 h
    have h' : ((Std.natOf ds * 2 ^ 1074 : Nat) : Int) = ((q * 2 ^ (T + 1022).toNat * 10 ^ Std.natOf es : Nat) : Int) := by
      rw [Int.natCast_mul, Int.natCast_mul (q * _), Int.natCast_pow, Int.natCast_pow]
      exact this
    rw [Int.ofNat.inj h', Nat.mul_right_comm]
  have hq0 : 0 < q := by
    rcases Nat.eq_zero_or_pos q with rfl | h
    · exact absurd (by simp) h0
    · exact h
  have hv : (if Std.natOf es = 0 then Std.ratBits (Std.natOf ds) 1 else Std.ratBits (Std.natOf ds) (10 ^ Std.natOf es)) = x.expo * 2 ^ 52 + x.mant := by
    rw [← hres]
    split
    · rename_i hz
      rw [hz] at hnat
      exact Std.ratBits_exact (u := 1074) (w := (T + 1022).toNat) Nat.one_pos hq0 hnat (by omega) hq hT1 hT2 h3
    · exact Std.ratBits_exact (u := 1074) (w := (T + 1022).toNat) (Nat.pow_pos (by decide)) hq0 hnat (by omega) hq hT1 hT2 h3
  rw [hv, show x.expo * 2 ^ 52 + x.mant + (if neg then 2 ^ 63 else 0) = x.bits.toNat by rw [← hs]; omega] at h1
  refine Eq.trans h1 ?_
  cases x
  simp

/-! ### Examples -/

/-- All data of the syntax `a = ["(" a:"deep" ")"] b = [.$:"num" ?"%":"percent"] {a:"a" b:"b" ["x":"x" a]}` (C130). -/
theorem C132_named {ind : Indent} {ds : List MetaData} : (∃ text ts, Accepts stdLexer Named.syn text ind ts ∧ ts.map (·.data) = ds) ↔
    ∃ v : F64, (F64.exponent v = 2047 → F64.fraction v = 0) ∧ (ds = [.startNode c!"b", .f64 c!"num" v, .endNode c!"b"] ∨
      ds = [.startNode c!"b", .f64 c!"num" v, .bool c!"percent" true, .endNode c!"b"]) := by
  rw [C130_named]
  exact exists_congr fun v => and_congr_left' C132_values

/-- `5e-1` is a half, `1e-0` is one, `1e999` is infinite, and `-0` is not `0`. -/
example : ((stdLexer.parseNum false c!"5e-1" 4).toOption.map (·.bits) = some 0x3FE0000000000000) ∧
    ((stdLexer.parseNum false c!"1e-0" 4).toOption.map (·.bits) = some 0x3FF0000000000000) ∧
    ((stdLexer.parseNum false c!"1e999" 5).toOption.map (·.bits) = some 0x7FF0000000000000) ∧
    ((stdLexer.parseNum false c!"-0" 2).toOption.map (·.bits) = some 0x8000000000000000) := by decide +kernel

/-- The half has `2 ^ 1073` units. -/
example : F64.units ⟨0x3FE0000000000000⟩ = 2 ^ 1073 := by decide +kernel

end Verif.Props
