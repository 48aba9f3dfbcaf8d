import Verif.Proofs.Doubles
/-
`ratBits` rounds to the nearest double, and halfway to the even one.
-/
namespace Verif.Std

/-- The value of a double without sign, in units of the least positive one; infinity counts as the next power of two. -/
def unitsOf (n : Nat) : Nat := if n < 2 ^ 52 then n else (n % 2 ^ 52 + 2 ^ 52) * 2 ^ (n / 2 ^ 52 - 1)

theorem unitsOf_eq {k q : Nat} (h : 2 ^ 52 ≤ q ∨ k = 0) (hq : q ≤ 2 ^ 53) : unitsOf (k * 2 ^ 52 + q) = q * 2 ^ k := by
  unfold unitsOf
  by_cases h1 : q < 2 ^ 52
  · have : k = 0 := by omega
    subst this
    rw [if_pos (by omega)]
    simp
  · rw [if_neg (by omega)]
    by_cases h2 : q = 2 ^ 53
    · subst h2
      rw [show (k * 2 ^ 52 + 2 ^ 53) % 2 ^ 52 = 0 by omega, show (k * 2 ^ 52 + 2 ^ 53) / 2 ^ 52 - 1 = k + 1 by omega, Nat.zero_add, Nat.pow_succ 2 k,
        Nat.mul_comm (2 ^ k), ← Nat.mul_assoc]
    · rw [show (k * 2 ^ 52 + q) % 2 ^ 52 + 2 ^ 52 = q by omega, show (k * 2 ^ 52 + q) / 2 ^ 52 - 1 = k by omega]

theorem unitsOf_succ (n : Nat) : unitsOf n < unitsOf (n + 1) := by
  by_cases h : n < 2 ^ 52
  · have h1 := unitsOf_eq (k := 0) (q := n) (.inr rfl) (by omega)
    have h2 := unitsOf_eq (k := 0) (q := n + 1) (.inr rfl) (by omega)
    simp only [Nat.zero_mul, Nat.zero_add, Nat.pow_zero, Nat.mul_one] at h1 h2
    omega
  · obtain ⟨k, q, hq1, hq2, hn⟩ : ∃ k q, 2 ^ 52 ≤ q ∧ q < 2 ^ 53 ∧ n = k * 2 ^ 52 + q :=
      ⟨n / 2 ^ 52 - 1, n % 2 ^ 52 + 2 ^ 52, by omega, by omega, by omega⟩
    rw [hn, Nat.add_assoc, unitsOf_eq (.inl hq1) (by omega), unitsOf_eq (.inl (by omega)) (by omega)]
    exact Nat.mul_lt_mul_of_pos_right (by omega) (Nat.two_pow_pos k)

theorem unitsOf_mono {m n : Nat} (h : m < n) : unitsOf m < unitsOf n := by
  induction h with
  | refl => exact unitsOf_succ m
  | step _ ih => exact Nat.lt_trans ih (unitsOf_succ _)

theorem unitsOf_le {m n : Nat} (h : m ≤ n) : unitsOf m ≤ unitsOf n := by
  rcases Nat.lt_or_eq_of_le h with h | rfl
  · exact Nat.le_of_lt (unitsOf_mono h)
  · exact Nat.le_refl _

/-- How far two numbers lie apart. -/
def apart (m n : Nat) : Nat := (m - n) + (n - m)

theorem apart_mul (m n c : Nat) : apart m n * c = apart (m * c) (n * c) := by
  simp only [apart, Nat.add_mul, Nat.sub_mul]

/-- No other double is as near to `N / D` units, or one is and this one is even. -/
def NearestBits (N D r : Nat) : Prop := r ≤ 2047 * 2 ^ 52 ∧ ∀ s ≤ 2047 * 2 ^ 52, s ≠ r →
  apart (unitsOf r * D) N < apart (unitsOf s * D) N ∨ apart (unitsOf r * D) N = apart (unitsOf s * D) N ∧ r % 2 = 0

theorem nearestBits_same {N D N' D' r : Nat} (hD : 0 < D) (hD' : 0 < D') (h : N * D' = N' * D) (hr : NearestBits N D r) : NearestBits N' D' r := by
  refine ⟨hr.1, fun s hs hne => ?_⟩
  have key : ∀ u, apart (u * D) N * D' = apart (u * D') N' * D := by
    intro u
    rw [apart_mul, apart_mul, h, Nat.mul_right_comm]
  rcases hr.2 s hs hne with h1 | ⟨h1, h2⟩
  · left
    have h3 := Nat.mul_lt_mul_of_pos_right h1 hD'
    rw [key, key] at h3
    exact Nat.lt_of_mul_lt_mul_right h3
  · right
    have h3 := congrArg (· * D') h1
    simp only [key] at h3
    exact ⟨Nat.eq_of_mul_eq_mul_right hD h3, h2⟩

/-- Between two neighbours. -/
theorem nearest_between {N D r : Nat} {up : Prop} [Decidable up] (h1 : unitsOf r * D ≤ N) (h2 : N < unitsOf (r + 1) * D) (hD : 0 < D)
    (hr : r + 1 ≤ 2047 * 2 ^ 52) (hup : up ↔ N + N > unitsOf r * D + unitsOf (r + 1) * D ∨ (N + N = unitsOf r * D + unitsOf (r + 1) * D ∧ r % 2 = 1)) :
    NearestBits N D (if up then r + 1 else r) := by
  refine ⟨by split <;> omega, fun s hs hne => ?_⟩
  have hlow : s ≤ r → unitsOf s * D ≤ unitsOf r * D := fun h => Nat.mul_le_mul_right _ (unitsOf_le h)
  have hlow' : s < r → unitsOf s * D < unitsOf r * D := fun h => Nat.mul_lt_mul_of_pos_right (unitsOf_mono h) hD
  have hhigh : r + 1 ≤ s → unitsOf (r + 1) * D ≤ unitsOf s * D := fun h => Nat.mul_le_mul_right _ (unitsOf_le h)
  have hhigh' : r + 1 < s → unitsOf (r + 1) * D < unitsOf s * D := fun h => Nat.mul_lt_mul_of_pos_right (unitsOf_mono h) hD
  by_cases hu : up
  · rw [if_pos hu] at hne ⊢
    rw [hup] at hu
    generalize unitsOf s * D = us at *
    generalize unitsOf r * D = u at *
    generalize unitsOf (r + 1) * D = u' at *
    unfold apart
    rcases Nat.lt_or_ge r s with hs' | hs'
    · have := hhigh' (by omega)
      omega
    · have := hlow hs'
      omega
  · rw [if_neg hu] at hne ⊢
    rw [hup] at hu
    generalize unitsOf s * D = us at *
    generalize unitsOf r * D = u at *
    generalize unitsOf (r + 1) * D = u' at *
    unfold apart
    rcases Nat.lt_or_ge s r with hs' | hs'
    · have := hlow' hs'
      omega
    · have := hhigh (by omega)
      omega

/-- Beyond all doubles. -/
theorem nearest_beyond {N D : Nat} (h : unitsOf (2047 * 2 ^ 52) * D ≤ N) (hD : 0 < D) : NearestBits N D (2047 * 2 ^ 52) := by
  refine ⟨Nat.le_refl _, fun s hs hne => ?_⟩
  have := Nat.mul_lt_mul_of_pos_right (unitsOf_mono (m := s) (n := 2047 * 2 ^ 52) (by omega)) hD
  generalize unitsOf s * D = us at *
  generalize unitsOf (2047 * 2 ^ 52) * D = u at *
  unfold apart
  omega

/-- The rounding step, after the quotient has got its final size. -/
def finishBits (a b : Nat) (e : Int) : Nat :=
  let q := a / b
  let r := a % b
  let q := if 2 * r > b ∨ (2 * r = b ∧ q % 2 = 1) then q + 1 else q
  let (q, e) := if q ≥ 2 ^ 53 then (q / 2, e + 1) else (q, e)
  if e > 1023 then 0x7FF0000000000000
  else if q < 2 ^ 52 then q
  else (e + 1023).toNat * 2 ^ 52 + (q - 2 ^ 52)

theorem roundBits_finish {a b : Nat} {e : Int} : roundBits a b e = if a / b ≥ 2 ^ 53 then finishBits a (b * 2) (e + 1) else finishBits a b e := by
  unfold roundBits
  by_cases h : a / b ≥ 2 ^ 53
  · simp only [if_pos h]
    rfl
  · simp only [if_neg h]
    rfl

theorem finishBits_nearest {a b : Nat} {e : Int} {k : Nat} (hk : (k : Int) = e + 1022) (hb : 0 < b) (hq : a / b < 2 ^ 53) (h : 2 ^ 52 ≤ a / b ∨ k = 0) :
    NearestBits (a * 2 ^ k) b (finishBits a b e) := by
  have hdm := Nat.div_add_mod a b
  have hml := Nat.mod_lt a hb
  obtain ⟨q, hqd⟩ : ∃ q, q = a / b := ⟨_, rfl⟩
  obtain ⟨r, hrd⟩ : ∃ r, r = a % b := ⟨_, rfl⟩
  rw [← hqd, ← hrd] at hdm
  rw [← hrd] at hml
  rw [← hqd] at hq h
  have hk0 : 0 < 2 ^ k := Nat.two_pow_pos k
  have u1 := unitsOf_eq h (Nat.le_of_lt hq)
  have u2 := unitsOf_eq (k := k) (q := q + 1) (by omega) (by omega)
  by_cases he : e > 1023
  · have hfin : finishBits a b e = 2047 * 2 ^ 52 := by
      unfold finishBits
      simp only
      generalize (if 2 * (a % b) > b ∨ 2 * (a % b) = b ∧ a / b % 2 = 1 then a / b + 1 else a / b) = q'
      by_cases h' : q' ≥ 2 ^ 53
      · simp only [if_pos h']
        rw [if_pos (by omega)]
      · simp only [if_neg h']
        rw [if_pos he]
    rw [hfin]
    refine nearest_beyond ?_ hb
    have h3 : unitsOf (2047 * 2 ^ 52) ≤ unitsOf (k * 2 ^ 52 + q) := unitsOf_le (by omega)
    rw [u1] at h3
    calc unitsOf (2047 * 2 ^ 52) * b ≤ q * 2 ^ k * b := Nat.mul_le_mul_right _ h3
      _ = b * q * 2 ^ k := by rw [Nat.mul_right_comm, Nat.mul_comm q b]
      _ ≤ a * 2 ^ k := Nat.mul_le_mul_right _ (by omega)
  · have hfin : finishBits a b e = if 2 * r > b ∨ (2 * r = b ∧ q % 2 = 1) then k * 2 ^ 52 + q + 1 else k * 2 ^ 52 + q := by
      have key : ∀ q' : Nat, q' ≤ 2 ^ 53 → (2 ^ 52 ≤ q' ∨ k = 0) → (match (if q' ≥ 2 ^ 53 then (q' / 2, e + 1) else (q', e) : Nat × Int) with
          | (q, e) => if e > 1023 then 0x7FF0000000000000 else if q < 2 ^ 52 then q else (e + 1023).toNat * 2 ^ 52 + (q - 2 ^ 52)) = k * 2 ^ 52 + q' := by
        intro q' h1 h2
        by_cases h3 : q' ≥ 2 ^ 53
        · have h4 : q' = 2 ^ 53 := by omega
          simp only [if_pos h3]
          by_cases h5 : e + 1 > 1023
          · rw [if_pos h5]
            have : k = 2045 := by omega
            subst this
            subst h4
            rfl
          · rw [if_neg h5, if_neg (by omega), show (e + 1 + 1023).toNat = k + 2 by omega]
            subst h4
            omega
        · simp only [if_neg h3]
          rw [if_neg he]
          split
          · have : k = 0 := by omega
            subst this
            omega
          · rw [show (e + 1023).toNat = k + 1 by omega]
            omega
      have h1 := key (if 2 * r > b ∨ (2 * r = b ∧ q % 2 = 1) then q + 1 else q) (by split <;> omega) (by split <;> omega)
      have h2 : finishBits a b e = k * 2 ^ 52 + (if 2 * r > b ∨ (2 * r = b ∧ q % 2 = 1) then q + 1 else q) := by
        rw [← h1, hqd, hrd]
        rfl
      rw [h2]
      split
      · exact (Nat.add_assoc _ _ _).symm
      · rfl
    have hq1 : (q + 1) * b = b * q + b := by rw [Nat.add_mul q 1 b, Nat.one_mul, Nat.mul_comm q b]
    rw [hfin]
    refine nearest_between (r := k * 2 ^ 52 + q) ?_ ?_ hb (by omega) ?_
    · rw [u1]
      calc q * 2 ^ k * b = b * q * 2 ^ k := by rw [Nat.mul_right_comm, Nat.mul_comm q b]
        _ ≤ a * 2 ^ k := Nat.mul_le_mul_right _ (by omega)
    · rw [Nat.add_assoc, u2]
      calc a * 2 ^ k < (b * q + b) * 2 ^ k := Nat.mul_lt_mul_of_pos_right (by omega) hk0
        _ = (q + 1) * 2 ^ k * b := by rw [Nat.mul_right_comm, hq1]
    · rw [Nat.add_assoc, u1, u2]
      have e1 : a * 2 ^ k + a * 2 ^ k = (2 * (b * q) + 2 * r) * 2 ^ k := by
        rw [← Nat.add_mul, ← hdm]
        congr 1
        omega
      have e2 : q * 2 ^ k * b + (q + 1) * 2 ^ k * b = (2 * (b * q) + b) * 2 ^ k := by
        rw [Nat.mul_right_comm q, Nat.mul_right_comm (q + 1), ← Nat.add_mul, hq1, Nat.mul_comm q b]
        congr 1
        omega
      rw [e1, e2]
      have hgt : (2 * (b * q) + 2 * r) * 2 ^ k > (2 * (b * q) + b) * 2 ^ k ↔ 2 * r > b := by
        rw [gt_iff_lt, Nat.mul_lt_mul_right hk0]
        omega
      have heq : (2 * (b * q) + 2 * r) * 2 ^ k = (2 * (b * q) + b) * 2 ^ k ↔ 2 * r = b := by
        constructor
        · intro h
          have := Nat.eq_of_mul_eq_mul_right hk0 h
          omega
        · intro h
          rw [h]
      rw [hgt, heq]
      have : (k * 2 ^ 52 + q) % 2 = q % 2 := by omega
      rw [this]

/-- The rounding is right. -/
theorem ratBits_nearest {a b : Nat} (hb : 0 < b) : NearestBits (a * 2 ^ 1074) b (ratBits a b) := by
  by_cases ha : a = 0
  · subst ha
    have h0 : ratBits 0 b = 0 := by simp [ratBits]
    rw [h0, Nat.zero_mul]
    have h1 := nearest_between (N := 0) (D := b) (r := 0) (up := False) (by simp [unitsOf]) (by
      rw [show unitsOf (0 + 1) = 1 by simp [unitsOf], Nat.one_mul]; exact hb) hb (by omega) (by
      rw [show unitsOf (0 + 1) = 1 by simp [unitsOf], show unitsOf 0 = 0 by simp [unitsOf], Nat.one_mul, Nat.zero_mul]
      exact ⟨False.elim, by omega⟩)
    rwa [if_neg (by simp)] at h1
  have a1 := Nat.log2_self_le ha
  have a2 := Nat.lt_log2_self (n := a)
  have b1 := Nat.log2_self_le (Nat.pos_iff_ne_zero.1 hb)
  have b2 := Nat.lt_log2_self (n := b)
  obtain ⟨E, hE⟩ : ∃ E, E = firstExp a b := ⟨_, rfl⟩
  have he : (a.log2 : Int) - b.log2 - 1 ≤ E ∧ -1022 ≤ E ∧ (E = -1022 ∨ E = (a.log2 : Int) - b.log2 - 1) := by
    rw [hE]
    unfold firstExp
    simp only
    split <;> omega
  have hk : ∃ k : Nat, (k : Int) = E + 1022 := ⟨(E + 1022).toNat, by omega⟩
  obtain ⟨k, hk⟩ := hk
  -- the scaled fraction
  obtain ⟨x, y, hy, hxy, hlt, hge, hbits⟩ : ∃ x y, 0 < y ∧ x * 2 ^ k * b = a * 2 ^ 1074 * y ∧ x < 2 ^ 54 * y ∧ (2 ^ 52 * y ≤ x ∨ k = 0) ∧
      ratBits a b = roundBits x y E := by
    rw [ratBits_round ha, ← hE]
    by_cases hs : 52 - E ≥ 0
    · obtain ⟨s, hs'⟩ : ∃ s, s = (52 - E).toNat := ⟨_, rfl⟩
      rw [if_pos hs, ← hs']
      refine ⟨_, _, hb, ?_, ?_, ?_, rfl⟩
      · rw [Nat.mul_assoc a, ← Nat.pow_add, show s + k = 1074 by omega]
      · calc a * 2 ^ s < 2 ^ (a.log2 + 1) * 2 ^ s := Nat.mul_lt_mul_of_pos_right a2 (Nat.two_pow_pos s)
          _ = 2 ^ (a.log2 + 1 + s) := (Nat.pow_add ..).symm
          _ ≤ 2 ^ (54 + b.log2) := Nat.pow_le_pow_right (by decide) (by omega)
          _ = 2 ^ 54 * 2 ^ b.log2 := Nat.pow_add ..
          _ ≤ 2 ^ 54 * b := Nat.mul_le_mul_left _ b1
      · rcases he.2.2 with h | h
        · right; omega
        · left
          calc 2 ^ 52 * b ≤ 2 ^ 52 * 2 ^ (b.log2 + 1) := Nat.mul_le_mul_left _ (Nat.le_of_lt b2)
            _ = 2 ^ (52 + (b.log2 + 1)) := (Nat.pow_add ..).symm
            _ ≤ 2 ^ (a.log2 + s) := Nat.pow_le_pow_right (by decide) (by omega)
            _ = 2 ^ a.log2 * 2 ^ s := Nat.pow_add ..
            _ ≤ a * 2 ^ s := Nat.mul_le_mul_right _ a1
    · obtain ⟨s, hs'⟩ : ∃ s, s = (-(52 - E)).toNat := ⟨_, rfl⟩
      rw [if_neg hs, ← hs']
      refine ⟨_, _, Nat.mul_pos hb (Nat.two_pow_pos s), ?_, ?_, ?_, rfl⟩
      · rw [show k = 1074 + s by omega, Nat.pow_add 2 1074 s]
        simp only [Nat.mul_assoc, Nat.mul_comm, Nat.mul_left_comm]
      · calc a < 2 ^ (a.log2 + 1) := a2
          _ ≤ 2 ^ (54 + (b.log2 + s)) := Nat.pow_le_pow_right (by decide) (by omega)
          _ = 2 ^ 54 * (2 ^ b.log2 * 2 ^ s) := by rw [Nat.pow_add, Nat.pow_add]
          _ ≤ 2 ^ 54 * (b * 2 ^ s) := Nat.mul_le_mul_left _ (Nat.mul_le_mul_right _ b1)
      · left
        calc 2 ^ 52 * (b * 2 ^ s) ≤ 2 ^ 52 * (2 ^ (b.log2 + 1) * 2 ^ s) := Nat.mul_le_mul_left _ (Nat.mul_le_mul_right _ (Nat.le_of_lt b2))
          _ = 2 ^ (52 + (b.log2 + 1 + s)) := by rw [Nat.pow_add 2 52, Nat.pow_add 2 (b.log2 + 1)]
          _ ≤ 2 ^ a.log2 := Nat.pow_le_pow_right (by decide) (by omega)
          _ ≤ a := a1
  rw [hbits, roundBits_finish]
  by_cases h53 : x / y ≥ 2 ^ 53
  · rw [if_pos h53]
    have h1 := finishBits_nearest (a := x) (b := y * 2) (e := E + 1) (k := k + 1) (by omega) (by omega)
      ((Nat.div_lt_iff_lt_mul (by omega)).2 (by omega)) (.inl ((Nat.le_div_iff_mul_le (by omega)).2 (by
        have := (Nat.le_div_iff_mul_le hy).1 h53
        omega)))
    refine nearestBits_same (by omega) hb ?_ h1
    rw [Nat.pow_succ, show x * (2 ^ k * 2) * b = x * 2 ^ k * b * 2 by simp only [Nat.mul_comm, Nat.mul_left_comm], hxy, Nat.mul_assoc]
  · rw [if_neg h53]
    have h1 := finishBits_nearest (a := x) (b := y) (e := E) (k := k) hk hy (by omega) (hge.imp_left fun h => (Nat.le_div_iff_mul_le hy).2 h)
    exact nearestBits_same hy hb hxy h1

end Verif.Std
