import Verif.Proofs.Doubles
import Verif.Spec.DataOf
/-
Every double that is a number is the value of some text.
-/
namespace Verif.Std

theorem digitChar : ∀ d < 10, isDigit (Char.ofNat (48 + d)) = true ∧ (Char.ofNat (48 + d)).toNat - 48 = d := by decide

/-- Every number has digits. -/
theorem exists_digits (n : Nat) : ∃ ds : List Char, ds ≠ [] ∧ (∀ c ∈ ds, isDigit c = true) ∧ natOf ds = n := by
  induction n using Nat.strongRecOn with
  | ind n ih =>
    obtain ⟨h1, h2⟩ := digitChar (n % 10) (Nat.mod_lt _ (by decide))
    by_cases hn : n < 10
    · refine ⟨[Char.ofNat (48 + n % 10)], by simp, by simpa using h1, ?_⟩
      simp only [natOf, List.foldl_cons, List.foldl_nil, h1, if_true, h2]
      omega
    · obtain ⟨ds, -, g2, g3⟩ := ih (n / 10) (by omega)
      refine ⟨ds ++ [Char.ofNat (48 + n % 10)], by simp, ?_, ?_⟩
      · intro c hc
        rcases List.mem_append.1 hc with hc | hc
        · exact g2 c hc
        · rw [List.mem_singleton.1 hc]
          exact h1
      · have : natOf (ds ++ [Char.ofNat (48 + n % 10)]) = 10 * natOf ds + n % 10 := by
          simp only [natOf, List.foldl_append, List.foldl_cons, List.foldl_nil, h1, if_true, h2]
        rw [this, g3]
        omega

theorem takeWhile_upto {p : Char → Bool} {ds rest : List Char} (h : ∀ c ∈ ds, p c = true) (hr : rest.takeWhile p = []) : (ds ++ rest).takeWhile p = ds := by
  rw [List.takeWhile_append_of_pos h, hr, List.append_nil]

theorem isDigit_minus {c : Char} (h : isDigit c = true) : c ≠ '-' ∧ c ≠ '_' ∧ c ≠ '.' := by
  refine ⟨?_, ?_, ?_⟩ <;> · rintro rfl; revert h; decide

theorem digits_take {u : Bool} {ds rest : List Char} (h : ∀ c ∈ ds, isDigit c = true) (hr : rest.takeWhile (fun c => isDigit c || (u && c == '_')) = []) :
    digits u (ds ++ rest) = ds.length := by
  rw [digits, takeWhile_upto (fun c hc => by simp [h c hc]) hr]

/-- The sign, and what follows. -/
def splitSign : List Char → Bool × List Char
  | '-' :: cs => (true, cs)
  | cs => (false, cs)
/-- The digits after the point. -/
def fracOf : List Char → List Char
  | '.' :: cs => cs.takeWhile isDigit
  | _ => []
/-- How much that is. -/
def fracLen (fp : List Char) : List Char → Nat
  | '.' :: _ => fp.length + 1
  | _ => 0
/-- The exponent. -/
def expOf : List Char → Bool × Nat
  | '-' :: cs => (true, natOf cs)
  | cs => (false, natOf cs)
/-- The double. -/
def doubleOf (neg : Bool) (ip fp : List Char) (x : Bool × Nat) : F64 :=
  let m := natOf (ip ++ fp)
  let e : Int := (if x.1 then -(x.2 : Int) else x.2) - fp.length
  let bits := if e ≥ 0 then ratBits (m * 10 ^ e.toNat) 1 else ratBits m (10 ^ (-e).toNat)
  ⟨BitVec.ofNat 64 (bits + if neg then 2 ^ 63 else 0)⟩
/-- What is done after the sign. -/
def afterSign (neg : Bool) (cs : List Char) : F64 :=
  let ip := cs.takeWhile isDigit
  let cs := cs.drop ip.length
  doubleOf neg ip (fracOf cs) (expOf ((cs.drop (fracLen (fracOf cs) cs)).drop 1))

theorem parseNum_parts {u : Bool} {src : List Char} {n : Nat} : parseNum u src n =
    .ok (afterSign (splitSign ((src.take n).filter (· ≠ '_'))).1 (splitSign ((src.take n).filter (· ≠ '_'))).2) := rfl

theorem splitSign_plain {c : Char} {cs : List Char} (hc : c ≠ '-') : splitSign (c :: cs) = (false, c :: cs) := by
  unfold splitSign
  split
  · rename_i heq
    exact absurd (List.cons.inj heq).1 hc
  · rfl

theorem afterSign_text {neg : Bool} {ds es : List Char} (hds : ∀ c ∈ ds, isDigit c = true) : afterSign neg (ds ++ 'e' :: '-' :: es) =
    ⟨BitVec.ofNat 64 ((if natOf es = 0 then ratBits (natOf ds) 1 else ratBits (natOf ds) (10 ^ natOf es)) + if neg then 2 ^ 63 else 0)⟩ := by
  have htake : (ds ++ 'e' :: '-' :: es).takeWhile isDigit = ds := takeWhile_upto hds rfl
  have h1 : fracOf ('e' :: '-' :: es) = [] := rfl
  have h2 : fracLen [] ('e' :: '-' :: es) = 0 := rfl
  have h3 : expOf (List.drop 1 (List.drop 0 ('e' :: '-' :: es))) = (true, natOf es) := rfl
  simp only [afterSign, htake, List.drop_left, h1, h2, h3, doubleOf, List.append_nil, List.length_nil, if_true]
  by_cases h0 : natOf es = 0
  · rw [h0, if_pos rfl, if_pos (by decide)]
    congr 3
    exact congrArg (ratBits · 1) (Nat.mul_one _)
  · rw [if_neg (by omega), if_neg h0, show (-(-(natOf es : Int) - ((0 : Nat) : Int))).toNat = natOf es by omega]

section
variable {ds es : List Char} (hd : ds ≠ []) (hds : ∀ c ∈ ds, isDigit c = true) (he : es ≠ []) (hes : ∀ c ∈ es, isDigit c = true)
include hd hds he hes

/-- `-? digits e - digits` is a number. -/
theorem num_text (u neg : Bool) : num u ((if neg then ['-'] else []) ++ (ds ++ 'e' :: '-' :: es)) =
    some ((if neg then ['-'] else []) ++ (ds ++ 'e' :: '-' :: es)).length := by
  have hex : numExp ('e' :: '-' :: es) = 2 + es.length := by
    have h1 : digits false es = es.length := by
      have := digits_take (u := false) (rest := []) hes rfl
      rwa [List.append_nil] at this
    have h2 : es.length ≠ 0 := fun h => he (List.eq_nil_of_length_eq_zero h)
    simp [numExp, expSign, h1, h2]
  have hdg : digits u (ds ++ 'e' :: '-' :: es) = ds.length := digits_take hds (by cases u <;> rfl)
  have hhead : ((ds ++ 'e' :: '-' :: es).head?.map isDigit).getD false = true := by
    cases ds with
    | nil => exact absurd rfl hd
    | cons c cs => simpa using hds c (by simp)
  cases neg with
  | true =>
    simp only [num, numSign, if_true, List.cons_append, List.nil_append, List.drop_succ_cons, List.drop_zero, hhead, hdg, Nat.add_comm 1 ds.length,
      List.drop_left, numFrac, Nat.add_zero, hex]
    simp
    omega
  | false =>
    have hs : numSign (ds ++ 'e' :: '-' :: es) = 0 := by
      cases ds with
      | nil => exact absurd rfl hd
      | cons c cs =>
        have := (isDigit_minus (hds c (by simp))).1
        simp only [List.cons_append]
        unfold numSign
        split
        · rename_i heq
          exact absurd (List.cons.inj heq).1 this
        · rfl
    simp only [num, Bool.false_eq_true, if_false, List.nil_append, hs, List.drop_zero, hhead, if_true, hdg, Nat.zero_add, List.drop_left, numFrac, Nat.add_zero, hex]
    simp
    omega

/-- Its value. -/
theorem parseNum_text (u neg : Bool) : parseNum u ((if neg then ['-'] else []) ++ (ds ++ 'e' :: '-' :: es))
      ((if neg then ['-'] else []) ++ (ds ++ 'e' :: '-' :: es)).length =
    .ok ⟨BitVec.ofNat 64 ((if natOf es = 0 then ratBits (natOf ds) 1 else ratBits (natOf ds) (10 ^ natOf es)) + if neg then 2 ^ 63 else 0)⟩ := by
  have hf : ((if neg then ['-'] else []) ++ (ds ++ 'e' :: '-' :: es)).filter (· ≠ '_') = (if neg then ['-'] else []) ++ (ds ++ 'e' :: '-' :: es) := by
    rw [List.filter_eq_self]
    intro c hc
    simp only [List.mem_append, List.mem_cons] at hc
    rcases hc with hc | hc | rfl | rfl | hc
    · cases neg <;> simp at hc
      subst hc
      decide
    · simpa using (isDigit_minus (hds c hc)).2.1
    · decide
    · decide
    · simpa using (isDigit_minus (hes c hc)).2.1
  have hsign : splitSign ((if neg then ['-'] else []) ++ (ds ++ 'e' :: '-' :: es)) = (neg, ds ++ 'e' :: '-' :: es) := by
    cases neg with
    | true => rfl
    | false =>
      cases ds with
      | nil => exact absurd rfl hd
      | cons c cs => exact splitSign_plain (isDigit_minus (hds c (by simp))).1
  rw [parseNum_parts, List.take_length, hf, hsign, afterSign_text hds]

end

/-- Every product of a natural number and a power of ten is read. -/
theorem numberValue_of (us neg : Bool) (m y : Nat) : Spec.NumberValue stdLexer us
    ⟨BitVec.ofNat 64 ((if y = 0 then ratBits m 1 else ratBits m (10 ^ y)) + if neg then 2 ^ 63 else 0)⟩ := by
  obtain ⟨ds, d1, d2, rfl⟩ := exists_digits m
  obtain ⟨es, e1, e2, rfl⟩ := exists_digits y
  exact ⟨_, num_text d1 d2 e1 e2 us neg, parseNum_text d1 d2 e1 e2 us neg⟩

/-- The fields of the bits. -/
theorem bits_fields (x : F64) : x.bits.toNat = (if x.neg then 2 ^ 63 else 0) + x.expo * 2 ^ 52 + x.mant := by
  have := x.bits.isLt
  simp only [F64.neg, F64.expo, F64.mant, beq_iff_eq]
  split <;> omega

/-- Every finite double is read. -/
theorem finite_read (us : Bool) {x : F64} (h : x.expo ≠ 2047) : Spec.NumberValue stdLexer us x := by
  have hb := bits_fields x
  have hm : x.mant < 2 ^ 52 := Nat.mod_lt _ (by decide)
  have hE : x.expo < 2 ^ 11 := Nat.mod_lt _ (by decide)
  have key : ∀ m y, (if y = 0 then ratBits m 1 else ratBits m (10 ^ y)) = x.expo * 2 ^ 52 + x.mant → Spec.NumberValue stdLexer us x := by
    intro m y hv
    have h1 := numberValue_of us x.neg m y
    rw [hv] at h1
    have : (⟨BitVec.ofNat 64 (x.expo * 2 ^ 52 + x.mant + if x.neg then 2 ^ 63 else 0)⟩ : F64) = x := by
      rw [show x.expo * 2 ^ 52 + x.mant + (if x.neg then 2 ^ 63 else 0) = x.bits.toNat by omega]
      cases x
      simp
    rwa [this] at h1
  by_cases hz : x.expo = 0 ∧ x.mant = 0
  · exact key 0 0 (by simp [ratBits, hz.1, hz.2])
  obtain ⟨q, T, hq0, hq, hT1, hT2, h3, hres⟩ : ∃ (q : Nat) (T : Int), 0 < q ∧ q < 2 ^ 53 ∧ T ≤ 1023 ∧ -1022 ≤ T ∧ (2 ^ 52 ≤ q ∨ T = -1022) ∧
      (if q < 2 ^ 52 then q else (T + 1023).toNat * 2 ^ 52 + (q - 2 ^ 52)) = x.expo * 2 ^ 52 + x.mant := by
    by_cases h0 : x.expo = 0
    · exact ⟨x.mant, -1022, by omega, by omega, by omega, by omega, .inr rfl, by rw [if_pos hm, h0]; omega⟩
    · refine ⟨2 ^ 52 + x.mant, (x.expo : Int) - 1023, by omega, by omega, by omega, by omega, .inl (by omega), ?_⟩
      rw [if_neg (by omega), show ((x.expo : Int) - 1023 + 1023).toNat = x.expo by omega]
      omega
  by_cases hT : T ≥ 52
  · refine key (q * 2 ^ (T - 52).toNat) 0 ?_
    rw [if_pos rfl, ← hres]
    exact ratBits_exact (u := 0) (w := (T - 52).toNat) (by decide) hq0 (by simp) (by omega) hq hT1 hT2 h3
  · refine key (q * 5 ^ (52 - T).toNat) (52 - T).toNat ?_
    rw [if_neg (by omega), ← hres]
    refine ratBits_exact (u := (52 - T).toNat) (w := 0) (Nat.pow_pos (by decide)) hq0 ?_ (by omega) hq hT1 hT2 h3
    rw [Nat.mul_assoc, ← Nat.mul_pow, Nat.pow_zero, Nat.mul_one]

/-- What is read is a number. -/
theorem parseNum_number {us : Bool} {src : List Char} {n : Nat} {x : F64} (h : parseNum us src n = .ok x) : x.isNaN = false := by
  have key : ∀ (b : Nat) (neg : Bool), b ≤ 0x7FF0000000000000 → (⟨BitVec.ofNat 64 (b + if neg then 2 ^ 63 else 0)⟩ : F64).isNaN = false := by
    intro b neg hb
    have hlt : (b + if neg then 2 ^ 63 else 0) < 2 ^ 64 := by split <;> omega
    simp only [F64.isNaN, F64.expo, F64.mant, BitVec.toNat_ofNat, Nat.mod_eq_of_lt hlt, Bool.and_eq_false_iff, beq_eq_false_iff_ne, bne_eq_false_iff_eq]
    split <;> omega
  have hb : ∀ (e : Int) (m : Nat), (if e ≥ 0 then ratBits (m * 10 ^ e.toNat) 1 else ratBits m (10 ^ (-e).toNat)) ≤ 0x7FF0000000000000 := by
    intro e m
    split
    · exact ratBits_le Nat.one_pos
    · exact ratBits_le (b := 10 ^ (-e).toNat) (Nat.pow_pos (by decide))
  rw [parseNum_parts] at h
  simp only [afterSign, doubleOf] at h
  cases h
  exact key _ _ (hb _ _)

end Verif.Std
