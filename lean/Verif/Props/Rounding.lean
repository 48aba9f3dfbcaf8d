import Verif.Proofs.Rounding
import Verif.Proofs.NumberText
import Verif.Props.Numbers
import Verif.Spec.Rounding
/-
C133: numbers are read as the nearest double.
-/
namespace Verif.Std
open Spec

theorem isDigit_iff {c : Char} : isDigit c = true ↔ '0' ≤ c ∧ c ≤ '9' := by
  simp only [isDigit, Bool.and_eq_true, decide_eq_true_eq, Char.le_def, UInt32.le_iff_toNat_le]
  exact Iff.rfl

theorem natOf_decimal {ds : List Char} (h : AllDigits ds) : natOf ds = decimal ds := by
  have key : ∀ (ds : List Char) (n : Nat), AllDigits ds →
      ds.foldl (fun n c => if isDigit c then 10 * n + (c.toNat - 48) else n) n = n * 10 ^ ds.length + decimal ds := by
    intro ds
    induction ds with
    | nil => intro n _; simp [decimal]
    | cons c cs ih =>
      intro n h
      rw [List.foldl_cons, if_pos (isDigit_iff.2 (h c (by simp))), ih _ fun c hc => h c (by simp [hc])]
      simp only [decimal, List.length_cons, Nat.pow_succ, Nat.add_mul]
      rw [show ('0'.toNat) = 48 from rfl, show 10 * n * 10 ^ cs.length = n * (10 ^ cs.length * 10) by
        rw [Nat.mul_comm 10 n, Nat.mul_assoc, Nat.mul_comm 10]]
      omega
  rw [natOf, key ds 0 h, Nat.zero_mul, Nat.zero_add]

theorem allDigits {ds : List Char} (h : AllDigits ds) : ∀ c ∈ ds, isDigit c = true := fun c hc => isDigit_iff.2 (h c hc)

/-- The exponent is read. -/
theorem expOf_text {ex : List Char} {e : Int} (h : ExpText ex e) : (if (expOf (ex.drop 1)).1 then -((expOf (ex.drop 1)).2 : Int) else (expOf (ex.drop 1)).2) = e := by
  cases h with
  | none => rfl
  | @plain c ds hc _ h =>
    have : expOf ds = (false, natOf ds) := by
      unfold expOf
      split
      · exact absurd (allDigits h '-' (by simp)) (by decide)
      · rfl
    simp [this, natOf_decimal h]
  | @plus c ds hc _ h =>
    have h1 : natOf ('+' :: ds) = natOf ds := rfl
    have : expOf ('+' :: ds) = (false, natOf ('+' :: ds)) := rfl
    simp [this, h1, natOf_decimal h]
  | @minus c ds hc _ h =>
    have : expOf ('-' :: ds) = (true, natOf ds) := rfl
    simp [this, natOf_decimal h]

theorem expText_head {ex : List Char} {e : Int} (h : ExpText ex e) : ex.takeWhile isDigit = [] ∧ fracOf ex = [] ∧ fracLen [] ex = 0 := by
  cases h with
  | none => exact ⟨rfl, rfl, rfl⟩
  | plain hc _ h => rcases hc with rfl | rfl <;> exact ⟨rfl, rfl, rfl⟩
  | plus hc _ h => rcases hc with rfl | rfl <;> exact ⟨rfl, rfl, rfl⟩
  | minus hc _ h => rcases hc with rfl | rfl <;> exact ⟨rfl, rfl, rfl⟩

/-- The bits of `m * 10 ^ e`. -/
def decBits (m : Nat) (e : Int) : Nat := ratBits (m * 10 ^ e.toNat) (10 ^ (-e).toNat)

theorem afterSign_says {neg : Bool} {int frac ds ex : List Char} {e : Int} (hi : AllDigits int) (hf : FracText frac ds) (he : ExpText ex e) :
    afterSign neg (int ++ (frac ++ ex)) = ⟨BitVec.ofNat 64 (decBits (decimal (int ++ ds)) (e - ds.length) + if neg then 2 ^ 63 else 0)⟩ := by
  obtain ⟨x1, x2, x3⟩ := expText_head he
  obtain ⟨f1, f2, f3, f4⟩ : (frac ++ ex).takeWhile isDigit = [] ∧ fracOf (frac ++ ex) = ds ∧ (frac ++ ex).drop (fracLen ds (frac ++ ex)) = ex ∧ AllDigits ds := by
    cases hf with
    | none => exact ⟨x1, x2, by rw [List.nil_append, x3]; rfl, by simp [AllDigits]⟩
    | some h => exact ⟨rfl, takeWhile_upto (allDigits h) x1, by simp [fracLen], h⟩
  have h1 : (int ++ (frac ++ ex)).takeWhile isDigit = int := takeWhile_upto (allDigits hi) f1
  have h2 : AllDigits (int ++ ds) := fun c hc => (List.mem_append.1 hc).elim (hi c) (f4 c)
  simp only [afterSign, h1, List.drop_left, f2, f3, doubleOf, natOf_decimal h2, expOf_text he]
  congr 3
  unfold decBits
  generalize e - (ds.length : Int) = k
  split
  · rw [show (-k).toNat = 0 by omega, Nat.pow_zero]
  · rw [show k.toNat = 0 by omega, Nat.pow_zero, Nat.mul_one]

/-- What a text that says `m * 10 ^ e` is read as. -/
theorem parseNum_says {us : Bool} {src : List Char} {n : Nat} {neg : Bool} {m : Nat} {e : Int} (h : NumText ((src.take n).filter (· ≠ '_')) neg m e) :
    parseNum us src n = .ok ⟨BitVec.ofNat 64 (decBits m e + if neg then 2 ^ 63 else 0)⟩ := by
  rw [parseNum_parts]
  generalize (src.take n).filter (· ≠ '_') = s at h
  cases h with
  | @mk _ int frac ds ex e h0 hi hf he =>
    have hsign : splitSign ((if neg then ['-'] else []) ++ (int ++ (frac ++ ex))) = (neg, int ++ (frac ++ ex)) := by
      cases neg with
      | true => rfl
      | false =>
        cases int with
        | nil => exact absurd rfl h0
        | cons c cs => exact splitSign_plain (isDigit_minus (isDigit_iff.2 (hi c (by simp)))).1
    rw [hsign, afterSign_says hi hf he]

theorem take_whole {p : Char → Bool} (cs : List Char) : cs.take (cs.takeWhile p).length = cs.takeWhile p := by
  induction cs with
  | nil => rfl
  | cons c cs ih =>
    by_cases h : p c = true
    · rw [List.takeWhile_cons_of_pos h, List.length_cons, List.take_succ_cons, ih]
    · rw [List.takeWhile_cons_of_neg h]
      rfl

section
variable {u : Bool} {cs : List Char}

theorem digits_filter : AllDigits ((cs.take (digits u cs)).filter (· ≠ '_')) := by
  intro c hc
  obtain ⟨h1, h2⟩ := List.mem_filter.1 hc
  have h3 : cs.take (digits u cs) = cs.takeWhile fun c => isDigit c || (u && c == '_') := take_whole cs
  rw [h3] at h1
  have h4 := List.all_takeWhile (l := cs) (p := fun c => isDigit c || (u && c == '_'))
  have h5 := List.all_eq_true.1 h4 c h1
  have h6 : c ≠ '_' := by simpa using h2
  rw [← isDigit_iff]
  simpa [h6] using h5

theorem digits_plain : AllDigits (cs.take (digits false cs)) ∧ (cs.take (digits false cs)).filter (· ≠ '_') = cs.take (digits false cs) := by
  have h : ∀ c ∈ cs.take (digits false cs), isDigit c = true := by
    intro c hc
    have h3 : cs.take (digits false cs) = cs.takeWhile isDigit := by
      have h0 : (fun c => isDigit c || (false && c == '_')) = isDigit := by funext c; simp
      rw [digits, h0]
      exact take_whole cs
    rw [h3] at hc
    exact List.all_eq_true.1 (List.all_takeWhile (l := cs) (p := isDigit)) c hc
  refine ⟨fun c hc => isDigit_iff.1 (h c hc), List.filter_eq_self.2 fun c hc => ?_⟩
  simpa using (isDigit_minus (h c hc)).2.1

theorem frac_filter : ∃ ds, FracText ((cs.take (numFrac u cs)).filter (· ≠ '_')) ds := by
  unfold numFrac
  split
  · rename_i cs
    refine ⟨(cs.take (digits u cs)).filter (· ≠ '_'), ?_⟩
    rw [Nat.add_comm, List.take_succ_cons, List.filter_cons_of_pos (by decide)]
    exact .some digits_filter
  · exact ⟨[], .none⟩

theorem exp_filter : ∃ e, ExpText ((cs.take (numExp cs)).filter (· ≠ '_')) e := by
  cases cs with
  | nil => exact ⟨0, .none⟩
  | cons c cs =>
    simp only [numExp]
    by_cases hc : c = 'e' ∨ c = 'E'
    · rw [if_pos hc]
      split
      · exact ⟨0, .none⟩
      · rename_i hk
        have hc' : decide (c ≠ '_') = true := by rcases hc with rfl | rfl <;> decide
        rw [show 1 + expSign cs + digits false (cs.drop (expSign cs)) = expSign cs + digits false (cs.drop (expSign cs)) + 1 by omega,
          List.take_succ_cons, List.filter_cons_of_pos (p := (decide <| · ≠ '_')) hc', List.take_add, List.filter_append, digits_plain.2]
        have hd := (digits_plain (cs := cs.drop (expSign cs))).1
        have hn : (cs.drop (expSign cs)).take (digits false (cs.drop (expSign cs))) ≠ [] := by
          intro h
          have h1 : (cs.drop (expSign cs)).take (digits false (cs.drop (expSign cs))) = _ := take_whole _
          rw [h1] at h
          exact hk (by rw [digits, h]; rfl)
        have hb := And.intro hn hd
        unfold expSign at hb ⊢
        split at hb
        · exact ⟨_, .plus hc hb.1 hb.2⟩
        · exact ⟨_, .minus hc hb.1 hb.2⟩
        · exact ⟨_, .plain hc hb.1 hb.2⟩
    · rw [if_neg hc]
      exact ⟨0, .none⟩

theorem sign_filter : ∃ neg : Bool, (cs.take (numSign cs)).filter (· ≠ '_') = if neg then ['-'] else [] := by
  unfold numSign
  split
  · exact ⟨true, rfl⟩
  · exact ⟨false, rfl⟩

end

/-- What the lexer takes for a number says a number. -/
theorem num_says {u : Bool} {src : List Char} {n : Nat} (h : num u src = some n) : ∃ neg m e, NumText ((src.take n).filter (· ≠ '_')) neg m e := by
  simp only [num] at h
  split at h
  · rename_i hd
    cases h
    obtain ⟨neg, hneg⟩ := sign_filter (cs := src)
    generalize hs : numSign src = s at hneg hd ⊢
    have h0 : (((src.drop s).take (digits u (src.drop s))).filter (· ≠ '_')) ≠ [] := by
      cases hcs : src.drop s with
      | nil => rw [hcs] at hd; exact absurd hd (by decide)
      | cons c cs =>
        rw [hcs] at hd
        have hc : isDigit c = true := by simpa using hd
        rw [digits, List.takeWhile_cons_of_pos (by simp [hc]), List.length_cons, List.take_succ_cons,
          List.filter_cons_of_pos (by simpa using (isDigit_minus hc).2.1)]
        simp
    obtain ⟨ds, hf⟩ := frac_filter (u := u) (cs := src.drop (s + digits u (src.drop s)))
    generalize hfl : numFrac u (src.drop (s + digits u (src.drop s))) = f at hf ⊢
    obtain ⟨e, he⟩ := exp_filter (cs := src.drop (s + digits u (src.drop s) + f))
    refine ⟨neg, decimal (((src.drop s).take (digits u (src.drop s))).filter (· ≠ '_') ++ ds), e - ds.length, ?_⟩
    rw [List.take_add, List.take_add, List.take_add, List.filter_append, List.filter_append, List.filter_append, hneg, List.append_assoc, List.append_assoc]
    exact .mk h0 digits_filter hf he
  · cases h

/-- Only one is nearest. -/
theorem nearestBits_unique {N D r s : Nat} (hD : 0 < D) (hr : NearestBits N D r) (hs : NearestBits N D s) : r = s := by
  have key : ∀ {r s}, NearestBits N D r → NearestBits N D s → ¬ r < s := by
    intro r s hr hs hlt
    have h1 := hr.2 s hs.1 (by omega)
    have h2 := hs.2 r hr.1 (by omega)
    have h3 : r + 1 < s := by omega
    have h4 := hr.2 (r + 1) (by have := hs.1; omega) (by omega)
    have m1 := Nat.mul_lt_mul_of_pos_right (unitsOf_mono (m := r) (n := r + 1) (by omega)) hD
    have m2 := Nat.mul_lt_mul_of_pos_right (unitsOf_mono h3) hD
    generalize unitsOf r * D = u at *
    generalize unitsOf s * D = v at *
    generalize unitsOf (r + 1) * D = w at *
    unfold apart at *
    omega
  have h1 := key hr hs
  have h2 := key hs hr
  omega

/-- The bits without the sign. -/
def magnitude (x : F64) : Nat := x.expo * 2 ^ 52 + x.mant

theorem magnitude_units (x : F64) : F64.units x = (if x.neg then -1 else 1) * ((unitsOf (magnitude x) : Nat) : Int) := by
  have hm : x.mant < 2 ^ 52 := Nat.mod_lt _ (by decide)
  rw [F64.units, Props.sign_eq, Props.exponent_eq, Props.fraction_eq]
  congr 2
  unfold unitsOf magnitude
  by_cases h : x.expo = 0
  · rw [if_pos h, if_pos (by omega), h]
    omega
  · rw [if_neg h, if_neg (by omega), show (x.expo * 2 ^ 52 + x.mant) % 2 ^ 52 = x.mant by omega, show (x.expo * 2 ^ 52 + x.mant) / 2 ^ 52 = x.expo by omega]

theorem isNumber_iff (x : F64) : F64.IsNumber x ↔ magnitude x ≤ 2047 * 2 ^ 52 := by
  have hm : x.mant < 2 ^ 52 := Nat.mod_lt _ (by decide)
  have hE : x.expo < 2 ^ 11 := Nat.mod_lt _ (by decide)
  rw [F64.IsNumber, Props.exponent_eq, Props.fraction_eq, magnitude]
  omega

theorem fraction_even (x : F64) : F64.fraction x % 2 = magnitude x % 2 := by
  rw [Props.fraction_eq, magnitude]
  omega

/-- A double is its sign and the other bits. -/
theorem ofMagnitude (neg : Bool) {r : Nat} (h : r ≤ 2047 * 2 ^ 52) :
    magnitude ⟨BitVec.ofNat 64 (r + if neg then 2 ^ 63 else 0)⟩ = r ∧ F64.neg ⟨BitVec.ofNat 64 (r + if neg then 2 ^ 63 else 0)⟩ = neg := by
  have hlt : (r + if neg then 2 ^ 63 else 0) < 2 ^ 64 := by split <;> omega
  simp only [magnitude, F64.neg, F64.expo, F64.mant, BitVec.toNat_ofNat, Nat.mod_eq_of_lt hlt]
  cases neg
  · simp only [Bool.false_eq_true, if_false, Nat.add_zero]
    refine ⟨by omega, ?_⟩
    rw [beq_eq_false_iff_ne]
    omega
  · simp only [if_true]
    refine ⟨by omega, ?_⟩
    rw [beq_iff_eq]
    omega

theorem eq_of_magnitude {x z : F64} (h : magnitude x = magnitude z) (hs : x.neg = z.neg) : x = z := by
  have h1 := bits_fields x
  have h2 := bits_fields z
  unfold magnitude at h
  rw [hs] at h1
  have : x.bits.toNat = z.bits.toNat := by omega
  cases x
  cases z
  congr
  exact BitVec.eq_of_toNat_eq this

theorem away_eq {x : F64} {neg : Bool} {m : Nat} {e : Int} (h : x.neg = neg) :
    F64.away x neg m e = apart (unitsOf (magnitude x) * 10 ^ (-e).toNat) (m * 10 ^ e.toNat * 2 ^ 1074) := by
  rw [F64.away, magnitude_units, h]
  generalize m * 10 ^ e.toNat * 2 ^ 1074 = N
  have hc : ((unitsOf (magnitude x) : Nat) : Int) * 10 ^ (-e).toNat = ((unitsOf (magnitude x) * 10 ^ (-e).toNat : Nat) : Int) := by
    rw [Int.natCast_mul, Int.natCast_pow]
    rfl
  rw [Int.mul_assoc, hc]
  generalize unitsOf (magnitude x) * 10 ^ (-e).toNat = u
  unfold apart
  cases neg
  · simp only [Bool.false_eq_true, if_false, Int.one_mul]
    omega
  · simp only [if_true]
    omega

theorem isNearest_iff {x : F64} {neg : Bool} {m : Nat} {e : Int} :
    F64.IsNearest x neg m e ↔ x.neg = neg ∧ NearestBits (m * 10 ^ e.toNat * 2 ^ 1074) (10 ^ (-e).toNat) (magnitude x) := by
  rw [F64.IsNearest, Props.sign_eq, isNumber_iff]
  refine and_congr_right fun hs => ?_
  refine and_congr_right fun hr => ?_
  rw [away_eq hs, fraction_even]
  constructor
  · intro h s hs' hne
    obtain ⟨h1, h2⟩ := ofMagnitude neg hs'
    have h3 := h _ (by rw [Props.sign_eq]; exact h2) (by rw [isNumber_iff, h1]; exact hs') (by
      intro hc
      rw [← hc, h1] at hne
      exact hne rfl)
    rwa [away_eq h2, h1] at h3
  · intro h z hz hn hne
    rw [Props.sign_eq] at hz
    rw [away_eq hz]
    exact h _ ((isNumber_iff z).1 hn) fun hc => hne (eq_of_magnitude hc (hz.trans hs.symm))

end Verif.Std

namespace Verif.Props
open Spec

/-- A text that says `m * 10 ^ e` is read as the double nearest to it, and as no other. -/
theorem C133_nearest {us : Bool} {src : List Char} {n : Nat} {neg : Bool} {m : Nat} {e : Int} {x : F64}
    (h : NumText ((src.take n).filter (· ≠ '_')) neg m e) : stdLexer.parseNum us src n = .ok x ↔ F64.IsNearest x neg m e := by
  have h1 : stdLexer.parseNum us src n = _ := Std.parseNum_says (us := us) h
  have h2 := Std.ratBits_nearest (a := m * 10 ^ e.toNat) (b := 10 ^ (-e).toNat) (Nat.pow_pos (by decide))
  obtain ⟨h3, h4⟩ := Std.ofMagnitude neg h2.1
  rw [h1, Std.isNearest_iff]
  constructor
  · intro h
    cases h
    refine ⟨h4, ?_⟩
    rw [Std.decBits, h3]
    exact h2
  · rintro ⟨hs, hx⟩
    have h5 := Std.nearestBits_unique (Nat.pow_pos (by decide)) hx h2
    exact congrArg Except.ok (Std.eq_of_magnitude (h3.trans h5.symm) (h4.trans hs.symm))

/-- What the lexer takes for a number says a number, once the underscores are left out. -/
theorem C133_says {us : Bool} {src : List Char} {n : Nat} (h : stdLexer.num us src = some n) :
    ∃ neg m e, NumText ((src.take n).filter (· ≠ '_')) neg m e := Std.num_says h

/-- So what a number rule gives is the nearest double. -/
theorem C133_read {us : Bool} {src : List Char} {n : Nat} (h : stdLexer.num us src = some n) :
    ∃ neg m e x, NumText ((src.take n).filter (· ≠ '_')) neg m e ∧ stdLexer.parseNum us src n = .ok x ∧ F64.IsNearest x neg m e := by
  obtain ⟨neg, m, e, h1⟩ := C133_says h
  have h2 : stdLexer.parseNum us src n = .ok _ := Std.parseNum_says (us := us) h1
  exact ⟨neg, m, e, _, h1, h2, (C133_nearest h1).1 h2⟩

/-- There is one nearest double, and only one. -/
theorem C133_unique (neg : Bool) (m : Nat) (e : Int) : ∃ x, F64.IsNearest x neg m e ∧ ∀ z, F64.IsNearest z neg m e → z = x := by
  have h2 := Std.ratBits_nearest (a := m * 10 ^ e.toNat) (b := 10 ^ (-e).toNat) (Nat.pow_pos (by decide))
  obtain ⟨h3, h4⟩ := Std.ofMagnitude neg h2.1
  refine ⟨_, Std.isNearest_iff.2 ⟨h4, by rw [h3]; exact h2⟩, fun z hz => ?_⟩
  obtain ⟨z1, z2⟩ := Std.isNearest_iff.1 hz
  exact Std.eq_of_magnitude ((Std.nearestBits_unique (Nat.pow_pos (by decide)) z2 h2).trans h3.symm) (z1.trans h4.symm)

/-- Larger numbers are read as doubles that are not smaller: reading keeps the order. -/
theorem C133_mono {m m' : Nat} {e : Int} {x z : F64} (hx : F64.IsNearest x false m e) (hz : F64.IsNearest z false m' e) (h : m ≤ m') :
    F64.units x ≤ F64.units z := by
  obtain ⟨x1, x2⟩ := Std.isNearest_iff.1 hx
  obtain ⟨z1, z2⟩ := Std.isNearest_iff.1 hz
  rw [Std.magnitude_units, Std.magnitude_units, x1, z1]
  simp only [Bool.false_eq_true, if_false, Int.one_mul]
  rcases Nat.lt_or_ge (Std.magnitude z) (Std.magnitude x) with hlt | hge
  · have hx2 := x2.2 _ z2.1 (by omega)
    have hz2 := z2.2 _ x2.1 (by omega)
    have hm : m * 10 ^ e.toNat * 2 ^ 1074 ≤ m' * 10 ^ e.toNat * 2 ^ 1074 := Nat.mul_le_mul_right _ (Nat.mul_le_mul_right _ h)
    have hu := Nat.mul_lt_mul_of_pos_right (Std.unitsOf_mono hlt) (Nat.pow_pos (n := (-e).toNat) (show 0 < 10 by decide))
    have hN : m * 10 ^ e.toNat * 2 ^ 1074 = m' * 10 ^ e.toNat * 2 ^ 1074 := by
      generalize m * 10 ^ e.toNat * 2 ^ 1074 = N at *
      generalize m' * 10 ^ e.toNat * 2 ^ 1074 = N' at *
      generalize Std.unitsOf (Std.magnitude x) * 10 ^ (-e).toNat = u at *
      generalize Std.unitsOf (Std.magnitude z) * 10 ^ (-e).toNat = v at *
      unfold Std.apart at hx2 hz2
      omega
    rw [hN] at x2
    have := Std.nearestBits_unique (Nat.pow_pos (by decide)) x2 z2
    omega
  · exact Int.ofNat_le.2 (Std.unitsOf_le hge)

/-! ### Examples -/

/-- `-1_2.5e-1` says `-125 * 10 ^ -2`. -/
theorem C133_example : NumText (c!"-1_2.5e-1".filter (· ≠ '_')) true 125 (-2) :=
  NumText.mk (neg := true) (int := c!"12") (frac := c!".5") (ds := c!"5") (ex := c!"e-1") (by decide) (by simp [AllDigits]) (.some (by simp [AllDigits]))
    (.minus (.inl rfl) (by decide) (by simp [AllDigits]))

/-- It is read as the double for `-1.25`. -/
example : F64.IsNearest ⟨0xBFF4000000000000⟩ true 125 (-2) := by
  refine (C133_nearest (us := true) (src := c!"-1_2.5e-1") (n := 9) C133_example).1 ?_
  have h := Std.parseNum_says (us := true) (src := c!"-1_2.5e-1") (n := 9) C133_example
  have h2 : (Std.decBits 125 (-2) + if true then 2 ^ 63 else 0) = 0xBFF4000000000000 := by decide +kernel
  rw [h2] at h
  exact h

/-- `9007199254740993` lies halfway between two doubles, and the even one is read; `0.1` is read as a double that is a little larger; what is too small is
read as zero, and what is too large as infinite, from half a unit beyond the largest double on. -/
example : ((stdLexer.parseNum false c!"9007199254740993" 16).toOption.map (·.bits) = some 0x4340000000000000) ∧
    ((stdLexer.parseNum false c!"9007199254740995" 16).toOption.map (·.bits) = some 0x4340000000000002) ∧
    ((stdLexer.parseNum false c!"0.1" 3).toOption.map (·.bits) = some 0x3FB999999999999A) ∧
    ((stdLexer.parseNum false c!"1e-400" 6).toOption.map (·.bits) = some 0) ∧
    ((stdLexer.parseNum false c!"3e-324" 6).toOption.map (·.bits) = some 1) ∧
    ((stdLexer.parseNum false c!"1.7976931348623158e308" 22).toOption.map (·.bits) = some 0x7FEFFFFFFFFFFFFF) ∧
    ((stdLexer.parseNum false c!"1.7976931348623159e308" 22).toOption.map (·.bits) = some 0x7FF0000000000000) := by decide +kernel

end Verif.Props
