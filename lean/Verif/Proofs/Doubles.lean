import Verif.Model.StdLexer
/-
Reading doubles: what is read is never "not a number", and everything else can be read.
-/
namespace Verif.Std

/-- The last steps of `ratBits`, after scaling. -/
def roundBits (a b : Nat) (e : Int) : Nat :=
  let (b, e) := if a / b ≥ 2 ^ 53 then (b * 2, e + 1) else (b, e)
  let q := a / b
  let r := a % b
  let q := if 2 * r > b ∨ (2 * r = b ∧ q % 2 = 1) then q + 1 else q
  let (q, e) := if q ≥ 2 ^ 53 then (q / 2, e + 1) else (q, e)
  if e > 1023 then 0x7FF0000000000000
  else if q < 2 ^ 52 then q
  else (e + 1023).toNat * 2 ^ 52 + (q - 2 ^ 52)

/-- The exponent tried first. -/
def firstExp (a b : Nat) : Int :=
  let e0 : Int := (Nat.log2 a : Int) - (Nat.log2 b : Int) - 1
  if e0 < -1022 then -1022 else e0

theorem ratBits_round' {a b : Nat} (ha : a ≠ 0) : ratBits a b =
    (fun x : Nat × Nat => roundBits x.1 x.2 (firstExp a b)) (if 52 - firstExp a b ≥ 0 then (a * 2 ^ (52 - firstExp a b).toNat, b)
      else (a, b * 2 ^ (-(52 - firstExp a b)).toNat)) := by
  unfold ratBits
  rw [if_neg ha]
  rfl

theorem ratBits_round {a b : Nat} (ha : a ≠ 0) : ratBits a b =
    if 52 - firstExp a b ≥ 0 then roundBits (a * 2 ^ (52 - firstExp a b).toNat) b (firstExp a b)
    else roundBits a (b * 2 ^ (-(52 - firstExp a b)).toNat) (firstExp a b) := by
  rw [ratBits_round' ha]
  split <;> rfl

/-- No rounding is needed. -/
theorem roundBits_exact {q b : Nat} {T : Int} (hb : 0 < b) (hq : q < 2 ^ 53) (hT : T ≤ 1023) :
    roundBits (q * b) b T = if q < 2 ^ 52 then q else (T + 1023).toNat * 2 ^ 52 + (q - 2 ^ 52) := by
  have h1 : q * b / b = q := Nat.mul_div_cancel _ hb
  have h2 : q * b % b = 0 := Nat.mul_mod_left _ _
  have h3 : ¬ (2 * 0 > b ∨ 2 * 0 = b ∧ q % 2 = 1) := by omega
  simp only [roundBits, h1, if_neg (Nat.not_le.2 hq), h2, if_neg h3, ge_iff_le]
  rw [if_neg (by omega : ¬ T > 1023)]

/-- Nor if the quotient has a bit too many. -/
theorem roundBits_double {q b : Nat} {T : Int} (hb : 0 < b) (hq : q < 2 ^ 53) (hq' : 2 ^ 52 ≤ q) (hT : T ≤ 1023) :
    roundBits (2 * q * b) b (T - 1) = (T + 1023).toNat * 2 ^ 52 + (q - 2 ^ 52) := by
  have h0 : 2 * q * b / b = 2 * q := Nat.mul_div_cancel _ hb
  have h1 : 2 * q * b / (b * 2) = q := by
    rw [show 2 * q * b = q * (b * 2) by rw [Nat.mul_comm 2 q, Nat.mul_assoc, Nat.mul_comm 2 b]]
    exact Nat.mul_div_cancel _ (by omega)
  have h2 : 2 * q * b % (b * 2) = 0 := by
    rw [show 2 * q * b = q * (b * 2) by rw [Nat.mul_comm 2 q, Nat.mul_assoc, Nat.mul_comm 2 b]]
    exact Nat.mul_mod_left _ _
  have h3 : ¬ (2 * 0 > b * 2 ∨ 2 * 0 = b * 2 ∧ q % 2 = 1) := by omega
  have h4 : 2 * q ≥ 2 ^ 53 := by omega
  simp only [roundBits, h0, if_pos h4, h1, h2, if_neg h3, if_neg (Nat.not_le.2 hq), ge_iff_le]
  rw [if_neg (by omega : ¬ T - 1 + 1 > 1023), if_neg (by omega), show T - 1 + 1 + 1023 = T + 1023 by omega]

theorem two_pow_lt {m n : Nat} (h : 2 ^ m < 2 ^ n) : m < n := (Nat.pow_lt_pow_iff_right (by decide)).1 h

/-- A fraction that is a double is read as it. -/
theorem ratBits_exact {a b q u w : Nat} {T : Int} (hb : 0 < b) (hq0 : 0 < q) (h : a * 2 ^ u = q * b * 2 ^ w) (hT : (w : Int) - u = T - 52)
    (hq : q < 2 ^ 53) (h1 : T ≤ 1023) (h2 : -1022 ≤ T) (h3 : 2 ^ 52 ≤ q ∨ T = -1022) :
    ratBits a b = if q < 2 ^ 52 then q else (T + 1023).toNat * 2 ^ 52 + (q - 2 ^ 52) := by
  have hu : 0 < 2 ^ u := Nat.two_pow_pos u
  have hw : 0 < 2 ^ w := Nat.two_pow_pos w
  have ha : a ≠ 0 := by
    rintro rfl
    have : 0 < q * b * 2 ^ w := Nat.mul_pos (Nat.mul_pos hq0 hb) hw
    omega
  have a1 := Nat.log2_self_le ha
  have a2 := Nat.lt_log2_self (n := a)
  have b1 := Nat.log2_self_le (Nat.pos_iff_ne_zero.1 hb)
  have b2 := Nat.lt_log2_self (n := b)
  have hup : a.log2 + u < 53 + (b.log2 + 1) + w := by
    apply two_pow_lt
    rw [Nat.pow_add, Nat.pow_add, Nat.pow_add]
    calc 2 ^ a.log2 * 2 ^ u ≤ a * 2 ^ u := Nat.mul_le_mul_right _ a1
      _ = q * b * 2 ^ w := h
      _ < 2 ^ 53 * 2 ^ (b.log2 + 1) * 2 ^ w := Nat.mul_lt_mul_of_pos_right (Nat.mul_lt_mul'' hq b2) hw
  have hlo : 2 ^ 52 ≤ q → 52 + b.log2 + w < a.log2 + 1 + u := by
    intro hq'
    apply two_pow_lt
    rw [Nat.pow_add, Nat.pow_add, Nat.pow_add]
    calc 2 ^ 52 * 2 ^ b.log2 * 2 ^ w ≤ q * b * 2 ^ w := Nat.mul_le_mul_right _ (Nat.mul_le_mul hq' b1)
      _ = a * 2 ^ u := h.symm
      _ < 2 ^ (a.log2 + 1) * 2 ^ u := Nat.mul_lt_mul_of_pos_right a2 hu
  have he : firstExp a b = T ∨ firstExp a b = T - 1 ∧ 2 ^ 52 ≤ q := by
    unfold firstExp
    rcases h3 with h3 | h3
    · have := hlo h3
      simp only
      split <;> omega
    · simp only
      split
      · omega
      · left; omega
  obtain ⟨d, hd⟩ : ∃ d : Nat, (d : Int) = T - firstExp a b := ⟨(T - firstExp a b).toNat, by omega⟩
  have hfin : ∃ x, 0 < x ∧ ratBits a b = roundBits (2 ^ d * q * x) x (firstExp a b) := by
    rw [ratBits_round ha]
    split
    · rename_i hs
      refine ⟨b, hb, ?_⟩
      congr 1
      apply Nat.eq_of_mul_eq_mul_right hu
      obtain ⟨s, hs'⟩ : ∃ s, s = (52 - firstExp a b).toNat := ⟨_, rfl⟩
      rw [← hs']
      have hk : w + s = d + u := by omega
      calc a * 2 ^ s * 2 ^ u = a * 2 ^ u * 2 ^ s := by rw [Nat.mul_right_comm]
        _ = q * b * 2 ^ w * 2 ^ s := by rw [h]
        _ = q * b * (2 ^ w * 2 ^ s) := Nat.mul_assoc _ _ _
        _ = q * b * (2 ^ d * 2 ^ u) := by rw [← Nat.pow_add, ← Nat.pow_add, hk]
        _ = 2 ^ d * q * b * 2 ^ u := by rw [← Nat.mul_assoc, Nat.mul_comm (q * b), ← Nat.mul_assoc]
    · rename_i hs
      obtain ⟨s, hs'⟩ : ∃ s, s = (-(52 - firstExp a b)).toNat := ⟨_, rfl⟩
      rw [← hs']
      refine ⟨b * 2 ^ s, Nat.mul_pos hb (Nat.two_pow_pos s), ?_⟩
      congr 1
      apply Nat.eq_of_mul_eq_mul_right hu
      have hk : w = d + s + u := by omega
      rw [h, hk, Nat.pow_add, Nat.pow_add]
      simp only [Nat.mul_assoc, Nat.mul_comm, Nat.mul_left_comm]
  obtain ⟨x, hx, hfin⟩ := hfin
  rw [hfin]
  rcases he with he | ⟨he, hq'⟩
  · have : d = 0 := by omega
    subst this
    rw [he, Nat.pow_zero, Nat.one_mul]
    exact roundBits_exact hx hq h1
  · have : d = 1 := by omega
    subst this
    rw [he, Nat.pow_one, roundBits_double hx hq hq' h1, if_neg (by omega)]

/-- What is rounded fits. -/
theorem roundBits_le {a b : Nat} {e : Int} (hb : 0 < b) (h : a < 2 ^ 54 * b) : roundBits a b e ≤ 0x7FF0000000000000 := by
  have key : ∀ (q : Nat) (e : Int), q ≤ 2 ^ 53 → (match (if q ≥ 2 ^ 53 then (q / 2, e + 1) else (q, e) : Nat × Int) with
      | (q, e) => if e > 1023 then 0x7FF0000000000000 else if q < 2 ^ 52 then q else (e + 1023).toNat * 2 ^ 52 + (q - 2 ^ 52)) ≤ 0x7FF0000000000000 := by
    intro q e hq
    split
    rename_i q' e' hqe
    have : q' < 2 ^ 53 := by
      split at hqe <;> cases hqe <;> omega
    split
    · omega
    · split
      · omega
      · have h1 : (e' + 1023).toNat ≤ 2046 := by omega
        have h2 : (e' + 1023).toNat * 2 ^ 52 ≤ 2046 * 2 ^ 52 := Nat.mul_le_mul_right _ h1
        have h3 : q' - 2 ^ 52 ≤ 2 ^ 52 := by omega
        exact Nat.le_trans (Nat.add_le_add h2 h3) (by decide)
  have hq : ∀ b' : Nat, 0 < b' → a < 2 ^ 53 * b' → (if 2 * (a % b') > b' ∨ 2 * (a % b') = b' ∧ a / b' % 2 = 1 then a / b' + 1 else a / b') ≤ 2 ^ 53 := by
    intro b' hb' hl
    have : a / b' < 2 ^ 53 := (Nat.div_lt_iff_lt_mul hb').2 hl
    split <;> omega
  unfold roundBits
  by_cases h' : a / b ≥ 2 ^ 53
  · simp only [if_pos h']
    exact key _ _ (hq (b * 2) (by omega) (by omega))
  · simp only [if_neg h']
    exact key _ _ (hq b hb ((Nat.div_lt_iff_lt_mul hb).1 (by omega)))

theorem ratBits_le {a b : Nat} (hb : 0 < b) : ratBits a b ≤ 0x7FF0000000000000 := by
  by_cases ha : a = 0
  · simp [ratBits, ha]
  have a2 := Nat.lt_log2_self (n := a)
  have b1 := Nat.log2_self_le (Nat.pos_iff_ne_zero.1 hb)
  have he : (a.log2 : Int) - b.log2 - 1 ≤ firstExp a b := by
    unfold firstExp
    simp only
    split <;> omega
  rw [ratBits_round ha]
  split
  · rename_i hs
    refine roundBits_le hb ?_
    obtain ⟨s, hs'⟩ : ∃ s, s = (52 - firstExp a b).toNat := ⟨_, rfl⟩
    rw [← hs']
    calc a * 2 ^ s < 2 ^ (a.log2 + 1) * 2 ^ s := Nat.mul_lt_mul_of_pos_right a2 (Nat.two_pow_pos s)
      _ = 2 ^ (a.log2 + 1 + s) := (Nat.pow_add ..).symm
      _ ≤ 2 ^ (54 + b.log2) := Nat.pow_le_pow_right (by decide) (by omega)
      _ = 2 ^ 54 * 2 ^ b.log2 := Nat.pow_add ..
      _ ≤ 2 ^ 54 * b := Nat.mul_le_mul_left _ b1
  · rename_i hs
    obtain ⟨s, hs'⟩ : ∃ s, s = (-(52 - firstExp a b)).toNat := ⟨_, rfl⟩
    rw [← hs']
    refine roundBits_le (Nat.mul_pos hb (Nat.two_pow_pos s)) ?_
    calc a < 2 ^ (a.log2 + 1) := a2
      _ ≤ 2 ^ (54 + (b.log2 + s)) := Nat.pow_le_pow_right (by decide) (by omega)
      _ = 2 ^ 54 * (2 ^ b.log2 * 2 ^ s) := by rw [Nat.pow_add, Nat.pow_add]
      _ ≤ 2 ^ 54 * (b * 2 ^ s) := Nat.mul_le_mul_left _ (Nat.mul_le_mul_right _ b1)

end Verif.Std
