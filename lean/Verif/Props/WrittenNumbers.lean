import Verif.Props.ReadNumbers
/-
C135: the numbers written before the rules of a rule file.
-/
namespace Verif.Std
open Spec

/-- The natural numbers up to `2 ^ 53` are doubles. -/
theorem natural_double {n : Nat} (h : n ≤ 2 ^ 53) : ∃ r < 2047 * 2 ^ 52, unitsOf r = n * 2 ^ 1074 := by
  by_cases h0 : n = 0
  · subst h0
    exact ⟨0, by decide, by simp only [unitsOf, Nat.zero_mul]; rfl⟩
  by_cases h1 : n = 2 ^ 53
  · subst h1
    exact ⟨1074 * 2 ^ 52 + 2 ^ 53, by omega, unitsOf_eq (.inl (by omega)) (by omega)⟩
  have a1 := Nat.log2_self_le h0
  have a2 := Nat.lt_log2_self (n := n)
  obtain ⟨l, hl⟩ : ∃ l, l = n.log2 := ⟨_, rfl⟩
  rw [← hl] at a1 a2
  have hl52 : l ≤ 52 := by
    have : 2 ^ l < 2 ^ 53 := by omega
    have := (Nat.pow_lt_pow_iff_right (by decide : 1 < 2)).1 this
    omega
  have q1 : 2 ^ 52 ≤ n * 2 ^ (52 - l) := by
    calc 2 ^ 52 = 2 ^ l * 2 ^ (52 - l) := by rw [← Nat.pow_add, show l + (52 - l) = 52 by omega]
      _ ≤ n * 2 ^ (52 - l) := Nat.mul_le_mul_right _ a1
  have q2 : n * 2 ^ (52 - l) < 2 ^ 53 := by
    calc n * 2 ^ (52 - l) < 2 ^ (l + 1) * 2 ^ (52 - l) := Nat.mul_lt_mul_of_pos_right a2 (Nat.two_pow_pos _)
      _ = 2 ^ 53 := by rw [← Nat.pow_add, show l + 1 + (52 - l) = 53 by omega]
  refine ⟨(l + 1022) * 2 ^ 52 + n * 2 ^ (52 - l), by omega, ?_⟩
  rw [unitsOf_eq (.inl q1) (by omega), Nat.mul_assoc, ← Nat.pow_add, show 52 - l + (l + 1022) = 1074 by omega]

end Verif.Std

namespace Verif.Props
open Spec

/-- What is written before a rule says a number, and it is taken for the nearest double. -/
theorem C135_written {v : F64} {cs rest : Str} (h : IsNumber stdLexer v cs rest) : ∃ neg m e, NumText (cs.filter (· ≠ '_')) neg m e ∧ F64.IsNearest v neg m e := by
  obtain ⟨neg, m, e, h1⟩ := C133_says h.2.1
  have h2 := (C133_nearest h1).1 h.2.2
  rw [List.take_left] at h1
  exact ⟨neg, m, e, h1, h2⟩

/-- A natural number up to `2 ^ 53` is taken for itself. -/
theorem C135_natural {n : Nat} (hn : n ≤ 2 ^ 53) {v : F64} : F64.IsNearest v false n 0 ↔ F64.sign v = false ∧ F64.units v = n * 2 ^ 1074 ∧ F64.exponent v ≠ 2047 := by
  obtain ⟨r, hr, hu⟩ := Std.natural_double hn
  obtain ⟨h1, h2⟩ := Std.ofMagnitude false (Nat.le_of_lt hr)
  generalize hx : (⟨BitVec.ofNat 64 (r + if false then 2 ^ 63 else 0)⟩ : F64) = x at h1 h2
  have hxu : F64.units x = n * 2 ^ 1074 := by
    rw [Std.magnitude_units, h2, h1, hu, Int.natCast_mul, Int.natCast_pow]
    simp
  have hxe : F64.exponent x ≠ 2047 := by
    rw [exponent_eq]
    unfold Std.magnitude at h1
    omega
  have hnear : F64.IsNearest x false n 0 := by
    refine C134_exact (by rw [sign_eq]; exact h2) (fun h => absurd h hxe) ?_
    rw [Std.away_eq h2, h1, hu]
    simp [Std.apart]
  constructor
  · intro h
    obtain ⟨y, -, hy⟩ := C133_unique false n 0
    rw [(hy v h).trans (hy x hnear).symm]
    exact ⟨by rw [sign_eq]; exact h2, hxu, hxe⟩
  · rintro ⟨g1, g2, g3⟩
    rw [sign_eq] at g1
    have hm : Std.unitsOf (Std.magnitude v) = Std.unitsOf (Std.magnitude x) := by
      have h3 := g2.trans hxu.symm
      rw [Std.magnitude_units, Std.magnitude_units, g1, h2] at h3
      simp only [Bool.false_eq_true, if_false, Int.one_mul] at h3
      exact Int.ofNat.inj h3
    have hvx : Std.magnitude v = Std.magnitude x := by
      rcases Nat.lt_trichotomy (Std.magnitude v) (Std.magnitude x) with h | h | h
      · have := Std.unitsOf_mono h; omega
      · exact h
      · have := Std.unitsOf_mono h; omega
    rw [Std.eq_of_magnitude hvx (g1.trans h2.symm)]
    exact hnear

/-- As a `usize` it is the number that was written. -/
theorem C135_usize {n : Nat} (hn : n ≤ 2 ^ 53) {v : F64} (h : F64.IsNearest v false n 0) : F64.IsUsize v n := by
  obtain ⟨-, h2, h3⟩ := (C135_natural hn).1 h
  rw [F64.IsUsize, if_neg h3, h2]
  refine ⟨by omega, .inr (Int.le_refl _), fun m _ hm => ?_⟩
  exact Int.ofNat_le.1 (Int.le_of_mul_le_mul_right hm (Int.pow_pos (by decide)))

/-- So the debug ids of a rule that is numbered `n` in the file are `1000 * n + 1`, `1000 * n + 2`, ... -/
theorem C135_ids {doc : Doc} {rs : List (Str × Rule × Nat)} (h : Doc.nodesOf doc.strings doc.nodes = some rs) {j n : Nat} {v : F64} {name cs rest : Str}
    {d : Desc} (hj : doc.nodes[j]? = some (v, name, d)) (hv : IsNumber stdLexer v cs rest) (hc : NumText cs false n 0) (hn : n ≤ 2 ^ 53) :
    ∃ r i, rs[j]? = some (name, r, i) ∧ Rule.ids r = List.range' (1000 * n + 1) (Rule.ids r).length := by
  have h1 : F64.IsNearest v false n 0 := by
    refine (C133_nearest (us := false) (src := cs ++ rest) (n := cs.length) ?_).1 hv.2.2
    rw [List.take_left, Std.numText_plain hc]
    exact hc
  have h2 := (C39_as_usize v n).1 (C135_usize hn h1)
  obtain ⟨r, i, h3, h4, -⟩ := C39_document_ids h hj
  rw [← h2] at h4
  exact ⟨r, i, h3, h4⟩

/-- Rules with different numbers share no ids, if each has fewer than a thousand. -/
theorem C135_apart {doc : Doc} {rs : List (Str × Rule × Nat)} (h : Doc.nodesOf doc.strings doc.nodes = some rs) {i j n m : Nat} {v w : F64}
    {a b cs cs' rest rest' : Str} {d e : Desc} (hi : doc.nodes[i]? = some (v, a, d)) (hj : doc.nodes[j]? = some (w, b, e))
    (hv : IsNumber stdLexer v cs rest) (hw : IsNumber stdLexer w cs' rest') (hc : NumText cs false n 0) (hc' : NumText cs' false m 0)
    (hn : n ≤ 2 ^ 53) (hm : m ≤ 2 ^ 53) (hne : n ≠ m) :
    ∃ r q x y, rs[i]? = some (a, r, x) ∧ rs[j]? = some (b, q, y) ∧
      ((Rule.ids r).length < 1000 → (Rule.ids q).length < 1000 → ∀ k ∈ Rule.ids r, k ∉ Rule.ids q) := by
  obtain ⟨r, x, h1, h2⟩ := C135_ids h hi hv hc hn
  obtain ⟨q, y, h3, h4⟩ := C135_ids h hj hw hc' hm
  refine ⟨r, q, x, y, h1, h3, fun l1 l2 k hk hk' => ?_⟩
  rw [h2, List.mem_range'_1] at hk
  rw [h4, List.mem_range'_1] at hk'
  omega

/-- Larger numbers are never taken for smaller ones. -/
theorem C135_order {n m k l : Nat} {v w : F64} (hv : F64.IsNearest v false n 0) (hw : F64.IsNearest w false m 0) (h : n ≤ m)
    (hk : F64.IsUsize v k) (hl : F64.IsUsize w l) : k ≤ l := by
  have hu := C133_mono hv hw h
  have hv2 := (Std.isNearest_iff.1 hv).1
  have hw2 := (Std.isNearest_iff.1 hw).1
  by_cases hwe : F64.exponent w = 2047
  · rw [F64.IsUsize, if_pos hwe, if_pos ⟨hw.2.1 hwe, hw.1⟩] at hl
    have : k < 2 ^ 64 := by
      rw [F64.IsUsize] at hk
      split at hk
      · split at hk <;> omega
      · exact hk.1
    omega
  · have hve : F64.exponent v ≠ 2047 := by
      intro hve
      have h1 : Std.magnitude w < Std.magnitude v := by
        rw [exponent_eq] at hve hwe
        have hm : w.mant < 2 ^ 52 := Nat.mod_lt _ (by decide)
        have hE : w.expo < 2 ^ 11 := Nat.mod_lt _ (by decide)
        unfold Std.magnitude
        omega
      have h2 := Std.unitsOf_mono h1
      rw [Std.magnitude_units, Std.magnitude_units, hv2, hw2] at hu
      simp only [Bool.false_eq_true, if_false, Int.one_mul] at hu
      have := Int.ofNat_le.1 hu
      omega
    rw [F64.IsUsize, if_neg hwe] at hl
    rw [F64.IsUsize, if_neg hve] at hk
    rcases hk.2.1 with h0 | h0
    · omega
    · exact hl.2.2 k hk.1 (Int.le_trans h0 hu)

/-! ### Examples -/

/-- Rules numbered `9007199254740992` and `9007199254740993` share the number `2 ^ 53`. -/
theorem C135_shared : F64.IsNearest ⟨0x4340000000000000⟩ false (2 ^ 53) 0 ∧ F64.IsNearest ⟨0x4340000000000000⟩ false (2 ^ 53 + 1) 0 := by
  have key : ∀ n : Nat, Std.ratBits (n * 10 ^ (0 : Int).toNat) (10 ^ (-(0 : Int)).toNat) = 0x4340000000000000 → F64.IsNearest ⟨0x4340000000000000⟩ false n 0 := by
    intro n hn
    have h2 := Std.ratBits_nearest (a := n * 10 ^ (0 : Int).toNat) (b := 10 ^ (-(0 : Int)).toNat) (Nat.pow_pos (by decide))
    rw [hn] at h2
    refine Std.isNearest_iff.2 ⟨by decide, ?_⟩
    rw [show Std.magnitude ⟨0x4340000000000000⟩ = 0x4340000000000000 by decide +kernel]
    exact h2
  exact ⟨key _ (by decide +kernel), key _ (by decide +kernel)⟩

/-- `12` is a number written before a rule. -/
example : IsNumber stdLexer ⟨0x4028000000000000⟩ c!"12" c!" a = \"x\"" ∧ NumText c!"12" false 12 0 := by
  refine ⟨⟨by simp; decide, by decide +kernel, ?_⟩, NumText.mk (neg := false) (int := c!"12") (frac := []) (ds := []) (ex := []) (by decide) (by simp [AllDigits]) .none .none⟩
  have h : (stdLexer.parseNum false (c!"12" ++ c!" a = \"x\"") 2).toOption = some ⟨0x4028000000000000⟩ := by decide +kernel
  show stdLexer.parseNum false (c!"12" ++ c!" a = \"x\"") 2 = _
  cases e : stdLexer.parseNum false (c!"12" ++ c!" a = \"x\"") 2 <;> rw [e] at h <;> cases h
  rfl

end Verif.Props
