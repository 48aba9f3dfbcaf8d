import Verif.Props.NumberRule
import Verif.Props.Origin
import Verif.Props.Leftover
import Verif.Props.Eq
/-
C137: the numbers in the data.
-/
namespace Verif.Props
open Spec

theorem records_number {refs : List Rule} {ind : Indent} {text : Str} {x : Rule} {rg : Range} {n : Str} {v : F64}
    (h : Records (envOf stdLexer refs ind) text x ⟨rg, .f64 n v⟩) :
    ∃ neg m e, NumText (((text.drop rg.offset).take rg.length).filter (· ≠ '_')) neg m e ∧ F64.IsNearest v neg m e := by
  cases h with
  | number h hv =>
    obtain ⟨neg, m, e, h1⟩ := C133_says h
    exact ⟨neg, m, e, h1, (C133_nearest h1).1 hv⟩

/-- Every number in the data of an accepted text is the double nearest to what stands at its range. -/
theorem C137_number {syn : Syntax} {text : Str} {ind : Indent} {toks : List Tok} (h : Parses stdLexer syn text [] ind (.ok toks)) {rg : Range} {n : Str} {v : F64}
    (ht : ⟨rg, .f64 n v⟩ ∈ toks) :
    ∃ neg m e, NumText (((text.drop rg.offset).take rg.length).filter (· ≠ '_')) neg m e ∧ F64.IsNearest v neg m e := by
  obtain ⟨ts, rfl, hts⟩ := C57_items stdLexer_lawful h
  obtain ⟨x, -, hr⟩ := hts _ ht
  exact records_number hr

/-- So are those that a rejected text leaves in the vector. -/
theorem C137_left {syn : Syntax} {text : Str} {ind : Indent} {err : RErr} {toks : List Tok} (h : Parses stdLexer syn text [] ind (.err err toks)) {rg : Range}
    {n : Str} {v : F64} (ht : ⟨rg, .f64 n v⟩ ∈ toks) :
    ∃ neg m e, NumText (((text.drop rg.offset).take rg.length).filter (· ≠ '_')) neg m e ∧ F64.IsNearest v neg m e := by
  obtain ⟨ts, rfl, hts⟩ := C81_items stdLexer_lawful h
  obtain ⟨-, x, -, hr⟩ := hts _ ht
  exact records_number hr

/-- None of them is "not a number", so each item of the data equals itself. -/
theorem C137_equal {syn : Syntax} {text : Str} {ind : Indent} {toks : List Tok} (h : Parses stdLexer syn text [] ind (.ok toks)) :
    ∀ t ∈ toks, MetaData.peq t.data t.data = true := by
  rintro ⟨rg, d⟩ ht
  rw [C50_meta_data_reflexive_iff]
  rintro n v rfl
  obtain ⟨neg, m, e, -, hn⟩ := C137_number h ht
  have := hn.2.1
  rw [F64.IsNumber, exponent_eq, fraction_eq] at this
  rw [F64.isNaN, Bool.and_eq_false_iff]
  by_cases he : v.expo = 2047
  · right
    simp [this he]
  · left
    simpa using he

/-- A number is read as infinite exactly if it lies at least as far out as halfway between the largest double and `2 ^ 1024`. -/
theorem C137_infinite {v : F64} {neg : Bool} {m : Nat} {e : Int} (h : F64.IsNearest v neg m e) :
    F64.exponent v = 2047 ↔ (2 ^ 54 - 1) * 2 ^ 970 * 10 ^ (-e).toNat ≤ m * 10 ^ e.toNat := by
  obtain ⟨-, hr⟩ := Std.isNearest_iff.1 h
  have hm : v.mant < 2 ^ 52 := Nat.mod_lt _ (by decide)
  have hE : v.expo < 2 ^ 11 := Nat.mod_lt _ (by decide)
  have h1 : F64.exponent v = 2047 ↔ Std.magnitude v = 2047 * 2 ^ 52 := by
    have := (Std.isNumber_iff v).1 h.2.1
    rw [exponent_eq]
    unfold Std.magnitude at this ⊢
    omega
  have u1 : Std.unitsOf (2047 * 2 ^ 52) = 2 ^ 53 * 2 ^ 2045 := by
    rw [show 2047 * 2 ^ 52 = 2045 * 2 ^ 52 + 2 ^ 53 by omega]
    exact Std.unitsOf_eq (.inl (by omega)) (by omega)
  have u2 : Std.unitsOf (2047 * 2 ^ 52 - 1) = (2 ^ 53 - 1) * 2 ^ 2045 := by
    rw [show 2047 * 2 ^ 52 - 1 = 2045 * 2 ^ 52 + (2 ^ 53 - 1) by omega]
    exact Std.unitsOf_eq (.inl (by omega)) (by omega)
  have hD : 0 < 10 ^ (-e).toNat := Nat.pow_pos (by decide)
  obtain ⟨D, hDd⟩ : ∃ D, D = 10 ^ (-e).toNat := ⟨_, rfl⟩
  obtain ⟨M, hMd⟩ : ∃ M, M = m * 10 ^ e.toNat := ⟨_, rfl⟩
  rw [← hDd, ← hMd] at hr ⊢
  rw [← hDd] at hD
  have h2 : (2 ^ 54 - 1) * 2 ^ 970 * D ≤ M ↔ Std.unitsOf (2047 * 2 ^ 52) * D + Std.unitsOf (2047 * 2 ^ 52 - 1) * D ≤ 2 * (M * 2 ^ 1074) := by
    rw [u1, u2, ← Nat.add_mul, ← Nat.add_mul, show 2 * (M * 2 ^ 1074) = M * 2 ^ 1075 by rw [Nat.pow_succ 2 1074]; omega,
      show (2 ^ 53 + (2 ^ 53 - 1)) * 2 ^ 2045 * D = (2 ^ 54 - 1) * 2 ^ 970 * D * 2 ^ 1075 by
        rw [Nat.mul_right_comm _ D, Nat.mul_assoc (2 ^ 54 - 1), ← Nat.pow_add]]
    exact (Nat.mul_le_mul_right_iff (Nat.two_pow_pos 1075)).symm
  rw [h1, h2]
  have lt := Nat.mul_lt_mul_of_pos_right (Std.unitsOf_mono (m := 2047 * 2 ^ 52 - 1) (n := 2047 * 2 ^ 52) (by omega)) hD
  generalize M * 2 ^ 1074 = N at hr ⊢
  constructor
  · intro hv
    rw [hv] at hr
    have h3 := hr.2 (2047 * 2 ^ 52 - 1) (by omega) (by omega)
    generalize Std.unitsOf (2047 * 2 ^ 52) * D = a at *
    generalize Std.unitsOf (2047 * 2 ^ 52 - 1) * D = b at *
    unfold Std.apart at h3
    omega
  · intro hN
    rcases Nat.lt_or_eq_of_le hr.1 with hlt | heq
    · exfalso
      have h3 := hr.2 (2047 * 2 ^ 52) (Nat.le_refl _) (by omega)
      rcases Nat.lt_or_eq_of_le (Nat.le_sub_one_of_lt hlt) with hlt' | heq'
      · have lt' := Nat.mul_lt_mul_of_pos_right (Std.unitsOf_mono hlt') hD
        generalize Std.unitsOf (2047 * 2 ^ 52) * D = a at *
        generalize Std.unitsOf (2047 * 2 ^ 52 - 1) * D = b at *
        generalize Std.unitsOf (Std.magnitude v) * D = c at *
        unfold Std.apart at h3
        omega
      · rw [heq'] at h3
        generalize Std.unitsOf (2047 * 2 ^ 52) * D = a at *
        generalize Std.unitsOf (2047 * 2 ^ 52 - 1) * D = b at *
        unfold Std.apart at h3
        omega
    · exact heq

/-- If the formatter prints every finite double so that it is nearest to its text, the data of an accepted text without infinite numbers is read back from
its JSON text. -/
theorem C137_json {fmt : F64 → Str} (hf : ∀ x, F64.exponent x ≠ 2047 → PrintsNear fmt x) {syn : Syntax} {text : Str} {ind : Indent} {toks : List Tok}
    (h : Parses stdLexer syn text [] ind (.ok toks)) (hlen : toks.length < 2 ^ 32) (hi : ∀ rg n v, ⟨rg, .f64 n v⟩ ∈ toks → F64.exponent v ≠ 2047) (ind' : Indent) :
    ∃ json ts, writeJson fmt toks = .ok json ∧ Parses stdLexer JsonRules.syn json [] ind' (.ok ts) ∧
      ∀ data : List Tok, WellNested (data.map Tok.data) → (data.map Tok.data).flatMap readBack = ts.map Tok.data →
        data.map Tok.data = toks.map Tok.data := by
  refine C123_parsed stdLexer_lawful C112_numbers h hlen (fun n x hx => C134_back (hf x ?_)) ind'
  obtain ⟨⟨rg, d⟩, ht, hd⟩ := List.mem_map.1 hx
  cases hd
  exact hi rg n x ht

/-- "Expected number": nothing that begins there says a number. -/
theorem C137_expected {syn : Syntax} {text : Str} {ind : Indent} {toks toks' : List Tok} {rg : Range} {id : DebugId}
    (h : Parses stdLexer syn text toks ind (.err ⟨rg, .expectedNumber id⟩ toks')) : ∀ k, ¬ SaysNumber ((text.drop rg.offset).take k) := by
  cases C56_returned stdLexer_lawful h with
  | rule hx hb => cases hb with
    | noNumber hn => exact C136_none.1 hn

/-- The other error, that a number cannot be parsed, is never reported. -/
theorem C137_no_error {syn : Syntax} {text : Str} {ind : Indent} {toks toks' : List Tok} {rg : Range} {id : DebugId} {err : NumErr} :
    ¬ Parses stdLexer syn text toks ind (.err ⟨rg, .parseNumberError err id⟩ toks') := by
  intro h
  cases C56_returned stdLexer_lawful h with
  | rule hx hb => cases hb with
    | badNumber _ hv =>
      have h1 := (Std.parseNum_parts (u := true)).symm.trans hv
      cases h1

/-! ### Examples -/

/-- `{.$:"a" "x"}` and `.$_:"b"` with a space between them. -/
def exNumbers : Syntax :=
  ⟨[.sequence [.select [.number (some c!"a") false 1, .tag c!"x" false false none 2] 3, .whitespace false 4, .number (some c!"b") true 5] 6], [c!"doc"]⟩

theorem exNumbers_parses : Parses stdLexer exNumbers c!"1.5 1_0" [] Indent.default
    (.ok [⟨⟨0, 3⟩, .f64 c!"a" ⟨0x3FF8000000000000⟩⟩, ⟨⟨4, 3⟩, .f64 c!"b" ⟨0x4024000000000000⟩⟩]) := ⟨by simp, 9, by decide +kernel⟩

example : ∃ neg m e, NumText c!"10" neg m e ∧ F64.IsNearest ⟨0x4024000000000000⟩ neg m e :=
  C137_number exNumbers_parses (rg := ⟨4, 3⟩) (n := c!"b") (by simp)

/-- `1.5 _` lacks a number. -/
example : ∀ k, ¬ SaysNumber (c!"_".take k) := by
  have h : Parses stdLexer exNumbers c!"1.5 _" [] Indent.default (.err ⟨⟨4, 0⟩, .expectedNumber 5⟩ [⟨⟨0, 3⟩, .f64 c!"a" ⟨0x3FF8000000000000⟩⟩]) :=
    ⟨by simp, 9, by decide +kernel⟩
  exact C137_expected h

/-- Halfway beyond the largest double: `17976931348623158 * 10 ^ 292` lies before it, `17976931348623159 * 10 ^ 292` does not. -/
example : ¬ (2 ^ 54 - 1) * 2 ^ 970 * 10 ^ (-(292 : Int)).toNat ≤ 17976931348623158 * 10 ^ (292 : Int).toNat ∧
    (2 ^ 54 - 1) * 2 ^ 970 * 10 ^ (-(292 : Int)).toNat ≤ 17976931348623159 * 10 ^ (292 : Int).toNat := by decide +kernel

end Verif.Props
