import Verif.Spec.Float
import Verif.Props.ConvertRead
/-
The numbers of nodes: C39.
-/
namespace Verif.Props
open Verif Verif.Spec

theorem sign_eq (x : F64) : F64.sign x = x.neg := by
  simp only [F64.sign, F64.neg, BitVec.msb_eq_decide]
  have := x.bits.isLt
  by_cases h : 2 ^ 63 ≤ x.bits.toNat
  · have : x.bits.toNat / 2 ^ 63 = 1 := by omega
    simp [h, this]
  · have : x.bits.toNat / 2 ^ 63 = 0 := by omega
    simp [h, this]

theorem exponent_eq (x : F64) : F64.exponent x = x.expo := by
  simp [F64.exponent, F64.expo, BitVec.extractLsb'_toNat, Nat.shiftRight_eq_div_pow]

theorem fraction_eq (x : F64) : F64.fraction x = x.mant := by
  simp [F64.fraction, F64.mant, BitVec.extractLsb'_toNat]

theorem isUsize_unique {x : F64} {n m : Nat} (hn : F64.IsUsize x n) (hm : F64.IsUsize x m) : n = m := by
  unfold F64.IsUsize at hn hm
  split at hn
  · rename_i h
    rw [if_pos h] at hm
    omega
  · rename_i h
    rw [if_neg h] at hm
    obtain ⟨h1, h2, h3⟩ := hn
    obtain ⟨h4, h5, h6⟩ := hm
    have a : n ≤ m := by
      rcases h2 with rfl | h2
      · exact Nat.zero_le _
      · exact h6 n h1 h2
    have b : m ≤ n := by
      rcases h5 with rfl | h5
      · exact Nat.zero_le _
      · exact h3 m h4 h5
    omega

/-- The quotient as in the code. -/
theorem quotient_eq (m e : Nat) (he : 1 ≤ e) :
    (if e ≥ 1075 then m * 2 ^ (e - 1075) else m / 2 ^ (1075 - e)) = m * 2 ^ (e - 1) / 2 ^ 1074 := by
  split
  · rename_i h
    obtain ⟨k, rfl⟩ : ∃ k, e = k + 1075 := ⟨e - 1075, by omega⟩
    rw [show k + 1075 - 1075 = k by omega, show k + 1075 - 1 = k + 1074 by omega, Nat.pow_add, ← Nat.mul_assoc,
      Nat.mul_div_cancel _ (Nat.pow_pos (by omega))]
  · rename_i h
    have : (2 : Nat) ^ 1074 = 2 ^ (e - 1) * 2 ^ (1075 - e) := by
      rw [← Nat.pow_add]
      congr 1
      omega
    rw [this, Nat.mul_comm m, Nat.mul_div_mul_left _ _ (Nat.pow_pos (by omega))]

/-- The number of a node that is read is cut off at the point, is 0 for negative numbers and NaN, and is at most
`2 ^ 64 - 1`. -/
theorem C39_as_usize (x : F64) (n : Nat) : F64.IsUsize x n ↔ n = x.toUsize := by
  have key : F64.IsUsize x x.toUsize := by
    unfold F64.IsUsize
    simp only [F64.units, sign_eq, exponent_eq, fraction_eq]
    split
    · rename_i h
      simp only [F64.toUsize, F64.isNaN, F64.isInf, h]
      by_cases h0 : x.mant = 0 <;> cases hs : x.neg <;> simp [h0]
    · rename_i h
      have hnan : x.isNaN = false := by simp [F64.isNaN, h]
      have hinf : x.isInf = false := by simp [F64.isInf, h]
      cases hs : x.neg with
      | true =>
        have h0 : x.toUsize = 0 := by simp [F64.toUsize, hnan, hs]
        rw [h0]
        refine ⟨by decide, .inl rfl, fun m _ hm => ?_⟩
        generalize (if x.expo = 0 then _ else _ : Nat) = u at hm
        simp only [if_true] at hm
        refine Nat.le_zero.2 (Classical.byContradiction fun hne => ?_)
        have h1 : (1 : Int) * 2 ^ 1074 ≤ m * 2 ^ 1074 := Int.mul_le_mul_of_nonneg_right (by omega) (Int.pow_nonneg (by decide))
        have h2 : (0 : Int) < 2 ^ 1074 := Int.pow_pos (by decide)
        omega
      | false =>
        have hu : x.toUsize = min ((if x.expo = 0 then x.mant else (x.mant + 2 ^ 52) * 2 ^ (x.expo - 1)) / 2 ^ 1074) (2 ^ 64 - 1) := by
          simp only [F64.toUsize, hnan, hs, hinf, Bool.false_eq_true, if_false]
          by_cases he : x.expo = 0
          · simp only [he, if_true]
            rw [quotient_eq _ _ (Nat.le_refl _)]
            simp
          · simp only [he, if_false]
            rw [quotient_eq _ _ (by omega)]
        rw [hu]
        generalize (if x.expo = 0 then _ else _ : Nat) = u
        simp only [Bool.false_eq_true, if_false, Int.one_mul]
        have hc : ∀ m : Nat, (m : Int) * 2 ^ 1074 ≤ u ↔ m ≤ u / 2 ^ 1074 := by
          intro m
          rw [Nat.le_div_iff_mul_le (Nat.pow_pos (by decide)), ← Int.ofNat_le]
          simp
        refine ⟨by omega, .inr ((hc _).2 (by omega)), fun m h1 h2 => ?_⟩
        have := (hc m).1 h2
        omega
  constructor
  · exact fun h => isUsize_unique h key
  · rintro rfl
    exact key

/-- Two nodes whose numbers are the same before the point share ids: the ids of one are the first of the other. -/
theorem C39_same_number {doc : Doc} {rs : List (Str × Rule × Nat)} (h : Doc.nodesOf doc.strings doc.nodes = some rs)
    {i j n : Nat} {v w : F64} {a b : Str} {d e : Desc} (hi : doc.nodes[i]? = some (v, a, d))
    (hj : doc.nodes[j]? = some (w, b, e)) (hv : F64.IsUsize v n) (hw : F64.IsUsize w n) :
    ∃ r q x y, rs[i]? = some (a, r, x) ∧ rs[j]? = some (b, q, y) ∧ 1000 * n + 1 ∈ Rule.ids r ∧ 1000 * n + 1 ∈ Rule.ids q ∧
      (Rule.ids r <+: Rule.ids q ∨ Rule.ids q <+: Rule.ids r) := by
  obtain ⟨r, x, h1, h2, -⟩ := C39_document_ids h hi
  obtain ⟨q, y, h3, h4, -⟩ := C39_document_ids h hj
  rw [← (C39_as_usize v n).1 hv] at h2
  rw [← (C39_as_usize w n).1 hw] at h4
  have hr : 0 < (Rule.ids r).length := by cases r <;> simp [Rule.ids] <;> omega
  have hq : 0 < (Rule.ids q).length := by cases q <;> simp [Rule.ids] <;> omega
  refine ⟨r, q, x, y, h1, h3, ?_, ?_, ?_⟩
  · rw [h2, List.mem_range'_1]; omega
  · rw [h4, List.mem_range'_1]; omega
  · rw [h2, h4]
    generalize (Rule.ids r).length = m
    generalize (Rule.ids q).length = k
    have key : ∀ {m k : Nat}, m ≤ k → List.range' (1000 * n + 1) m <+: List.range' (1000 * n + 1) k := by
      intro m k hmk
      refine ⟨List.range' (1000 * n + 1 + m) (k - m), ?_⟩
      rw [List.range'_append_1]
      congr 1
      omega
    rcases Nat.le_total m k with hmk | hmk
    · exact .inl (key hmk)
    · exact .inr (key hmk)

/-- 1, 1.5 and 1.99999 are the number 1; -1, -0.5, NaN and minus infinity are 0; infinity and 1e20 are `2 ^ 64 - 1`. -/
example : F64.IsUsize ⟨0x3FF0000000000000⟩ 1 ∧ F64.IsUsize ⟨0x3FF8000000000000⟩ 1 ∧ F64.IsUsize ⟨0x3FFFFFD60E94EE39⟩ 1 ∧
    F64.IsUsize ⟨0xBFF0000000000000⟩ 0 ∧ F64.IsUsize ⟨0xBFE0000000000000⟩ 0 ∧ F64.IsUsize ⟨0x7FF8000000000000⟩ 0 ∧
    F64.IsUsize ⟨0xFFF0000000000000⟩ 0 ∧ F64.IsUsize ⟨0x7FF0000000000000⟩ (2 ^ 64 - 1) ∧
    F64.IsUsize ⟨0x4415AF1D78B58C40⟩ (2 ^ 64 - 1) := by
  simp only [C39_as_usize]
  decide +kernel

/-- `1 a = .w?` and `1.5 b = .w!` have the same id, 1001. -/
example : (Doc.nodesOf [] [(⟨0x3FF0000000000000⟩, c!"a", .whitespace true), (⟨0x3FF8000000000000⟩, c!"b", .whitespace false)]).map
    (·.map fun x => Rule.ids x.2.1) = some [[1001], [1001]] := by decide +kernel

end Verif.Props
