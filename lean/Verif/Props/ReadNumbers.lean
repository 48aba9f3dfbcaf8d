import Verif.Props.Rounding
import Verif.Props.NumberText
import Verif.Props.ReadBack
/-
C134: numbers that `json::write` has written are read back.
-/
namespace Verif.Std
open Spec

/-- What may follow a number without being taken for a part of it. -/
def NumEnds (rest : List Char) : Prop := ∀ c ∈ rest.head?, isDigit c = false ∧ c ≠ '_' ∧ c ≠ '.' ∧ c ≠ 'e' ∧ c ≠ 'E'

theorem ends_digits {u : Bool} {rest : List Char} (h : NumEnds rest) : rest.takeWhile (fun c => isDigit c || (u && c == '_')) = [] := by
  cases rest with
  | nil => rfl
  | cons c cs =>
    obtain ⟨h1, h2, -⟩ := h c (by simp)
    rw [List.takeWhile_cons_of_neg]
    simp [h1, h2]

theorem ends_exp {rest : List Char} (h : NumEnds rest) : numExp rest = 0 := by
  cases rest with
  | nil => rfl
  | cons c cs =>
    obtain ⟨-, -, -, h4, h5⟩ := h c (by simp)
    simp [numExp, h4, h5]

theorem ends_frac {u : Bool} {rest : List Char} (h : NumEnds rest) : numFrac u rest = 0 := by
  cases rest with
  | nil => rfl
  | cons c cs =>
    obtain ⟨-, -, h3, -⟩ := h c (by simp)
    unfold numFrac
    split
    · rename_i heq
      exact absurd (List.cons.inj heq).1 h3
    · rfl

/-- The exponent is taken whole. -/
theorem numExp_text {ex rest : List Char} {e : Int} (h : ExpText ex e) (hr : NumEnds rest) : numExp (ex ++ rest) = ex.length := by
  have key : ∀ {c : Char} {sg ds : List Char}, (c = 'e' ∨ c = 'E') → ds ≠ [] → AllDigits ds → expSign (sg ++ (ds ++ rest)) = sg.length →
      numExp (c :: (sg ++ (ds ++ rest))) = (c :: (sg ++ ds)).length := by
    intro c sg ds hc h0 h hs
    have h1 : digits false (ds ++ rest) = ds.length := digits_take (allDigits h) (ends_digits hr)
    have h2 : ds.length ≠ 0 := fun h => h0 (List.eq_nil_of_length_eq_zero h)
    simp only [numExp, if_pos hc, hs, List.drop_left, h1, if_neg h2, List.length_cons, List.length_append]
    omega
  cases h with
  | none => exact ends_exp hr
  | @plain c ds hc h0 h =>
    refine key (sg := []) hc h0 h ?_
    cases ds with
    | nil => exact absurd rfl h0
    | cons d ds =>
      have hd := allDigits h d (by simp)
      simp only [List.nil_append, List.cons_append]
      unfold expSign
      split
      · rename_i heq
        rw [(List.cons.inj heq).1] at hd
        exact absurd hd (by decide)
      · rename_i heq
        rw [(List.cons.inj heq).1] at hd
        exact absurd hd (by decide)
      · rfl
  | plus hc h0 h => exact key (sg := ['+']) hc h0 h rfl
  | minus hc h0 h => exact key (sg := ['-']) hc h0 h rfl

theorem exp_ends {u : Bool} {ex rest : List Char} {e : Int} (h : ExpText ex e) (hr : NumEnds rest) :
    (ex ++ rest).takeWhile (fun c => isDigit c || (u && c == '_')) = [] ∧ numFrac u (ex ++ rest) = 0 := by
  cases h with
  | none => exact ⟨ends_digits hr, ends_frac hr⟩
  | plain hc _ h => rcases hc with rfl | rfl <;> cases u <;> exact ⟨rfl, rfl⟩
  | plus hc _ h => rcases hc with rfl | rfl <;> cases u <;> exact ⟨rfl, rfl⟩
  | minus hc _ h => rcases hc with rfl | rfl <;> cases u <;> exact ⟨rfl, rfl⟩

/-- A text that says a number is taken for one, whole. -/
theorem num_whole {u : Bool} {s rest : List Char} {neg : Bool} {m : Nat} {e : Int} (h : NumText s neg m e) (hr : NumEnds rest) : num u (s ++ rest) = some s.length := by
  cases h with
  | @mk _ int frac ds ex e h0 hi hf he =>
    obtain ⟨x1, x2⟩ := exp_ends (u := u) he hr
    have x3 := numExp_text he hr
    obtain ⟨f1, f2⟩ : (frac ++ (ex ++ rest)).takeWhile (fun c => isDigit c || (u && c == '_')) = [] ∧ numFrac u (frac ++ (ex ++ rest)) = frac.length := by
      cases hf with
      | none => exact ⟨x1, x2⟩
      | @some ds h =>
        refine ⟨by cases u <;> rfl, ?_⟩
        show 1 + digits u (ds ++ (ex ++ rest)) = _
        rw [digits_take (allDigits h) x1, List.length_cons, Nat.add_comm]
    have d1 : digits u (int ++ (frac ++ (ex ++ rest))) = int.length := digits_take (allDigits hi) f1
    have hs : numSign ((if neg then ['-'] else []) ++ (int ++ (frac ++ (ex ++ rest)))) = (if neg then ['-'] else []).length := by
      cases neg with
      | true => rfl
      | false =>
        cases int with
        | nil => exact absurd rfl h0
        | cons c cs =>
          have := (isDigit_minus (allDigits hi c (by simp))).1
          simp only [Bool.false_eq_true, if_false, List.nil_append, List.cons_append]
          unfold numSign
          split
          · rename_i heq
            exact absurd (List.cons.inj heq).1 this
          · rfl
    have hd : ((int ++ (frac ++ (ex ++ rest))).head?.map isDigit).getD false = true := by
      cases int with
      | nil => exact absurd rfl h0
      | cons c cs => simpa using allDigits hi c (by simp)
    simp only [List.append_assoc]
    generalize (if neg then ['-'] else []) = sg at hs ⊢
    have g1 : (sg ++ (int ++ (frac ++ (ex ++ rest)))).drop (sg.length + int.length) = frac ++ (ex ++ rest) := by
      rw [← List.append_assoc, ← List.length_append, List.drop_left]
    have g2 : (sg ++ (int ++ (frac ++ (ex ++ rest)))).drop (sg.length + int.length + frac.length) = ex ++ rest := by
      rw [← List.drop_drop, g1, List.drop_left]
    simp only [num, hs, List.drop_left, hd, if_true, d1, g1, f2, g2, x3, List.length_append]
    congr 1
    omega

/-- There are no underscores in it. -/
theorem numText_plain {s : List Char} {neg : Bool} {m : Nat} {e : Int} (h : NumText s neg m e) : s.filter (· ≠ '_') = s := by
  rw [List.filter_eq_self]
  intro c hc
  have hd : ∀ {ds : List Char}, AllDigits ds → c ∈ ds → decide (c ≠ '_') = true := fun h hc => by
    simpa using (isDigit_minus (allDigits h c hc)).2.1
  cases h with
  | @mk _ int frac ds ex e h0 hi hf he =>
    simp only [List.mem_append] at hc
    rcases hc with hc | hc | hc | hc
    · cases neg <;> simp at hc
      subst hc
      decide
    · exact hd hi hc
    · cases hf with
      | none => cases hc
      | some h =>
        rcases List.mem_cons.1 hc with rfl | hc
        · decide
        · exact hd h hc
    · cases he with
      | none => cases hc
      | plain h1 _ h =>
        rcases List.mem_cons.1 hc with rfl | hc
        · rcases h1 with rfl | rfl <;> decide
        · exact hd h hc
      | plus h1 _ h =>
        simp only [List.mem_cons] at hc
        rcases hc with rfl | rfl | hc
        · rcases h1 with rfl | rfl <;> decide
        · decide
        · exact hd h hc
      | minus h1 _ h =>
        simp only [List.mem_cons] at hc
        rcases hc with rfl | rfl | hc
        · rcases h1 with rfl | rfl <;> decide
        · decide
        · exact hd h hc

end Verif.Std

namespace Verif.Props
open Spec

/-- A text that says a number is read whole, wherever what follows does not continue it, as the nearest double. -/
theorem C134_text {us : Bool} {s rest : Str} {neg : Bool} {m : Nat} {e : Int} {x : F64} (h : NumText s neg m e)
    (hr : ∀ c ∈ rest.head?, ¬ ('0' ≤ c ∧ c ≤ '9') ∧ c ≠ '_' ∧ c ≠ '.' ∧ c ≠ 'e' ∧ c ≠ 'E') :
    stdLexer.num us (s ++ rest) = some s.length ∧ (stdLexer.parseNum us (s ++ rest) s.length = .ok x ↔ F64.IsNearest x neg m e) := by
  refine ⟨Std.num_whole h fun c hc => ?_, C133_nearest ?_⟩
  · obtain ⟨h1, h2⟩ := hr c hc
    exact ⟨Bool.eq_false_iff.2 fun h => h1 (Std.isDigit_iff.1 h), h2⟩
  · rw [List.take_left, Std.numText_plain h]
    exact h

/-- If the formatter prints a decimal text to which `x` is the nearest double, the number is read back. -/
theorem C134_back {fmt : F64 → Str} {x : F64} (h : PrintsNear fmt x) : NumberBack stdLexer fmt x := by
  obtain ⟨neg, m, e, h1, h2⟩ := h
  intro c rest hc
  have h3 := C134_text (us := false) (rest := c :: rest) (x := x) h1 (by
    intro d hd
    simp only [List.head?_cons, Option.mem_def, Option.some.injEq] at hd
    subst hd
    rcases hc with rfl | rfl <;> decide)
  exact ⟨h3.1, h3.2.2 h2⟩

/-- And only then, if a decimal text is printed. -/
theorem C134_only {fmt : F64 → Str} {x : F64} {neg : Bool} {m : Nat} {e : Int} (h : NumText (fmt x) neg m e) : NumberBack stdLexer fmt x ↔ F64.IsNearest x neg m e := by
  refine ⟨fun hb => ?_, fun hn => C134_back ⟨neg, m, e, h, hn⟩⟩
  have h3 := C134_text (us := false) (rest := c!",") (x := x) h (by
    intro d hd
    simp only [List.head?_cons, Option.mem_def, Option.some.injEq] at hd
    subst hd
    decide)
  exact h3.2.1 (hb ',' [] (.inl rfl)).2

/-- What is exactly the value of a double has this double as the nearest one. -/
theorem C134_exact {x : F64} {neg : Bool} {m : Nat} {e : Int} (hs : F64.sign x = neg) (hx : F64.IsNumber x) (h : F64.away x neg m e = 0) :
    F64.IsNearest x neg m e := by
  rw [sign_eq] at hs
  rw [Std.away_eq hs] at h
  refine Std.isNearest_iff.2 ⟨hs, (Std.isNumber_iff x).1 hx, fun s _ hne => .inl ?_⟩
  rw [h]
  have hD : 0 < 10 ^ (-e).toNat := Nat.pow_pos (by decide)
  have hne' : Std.unitsOf (Std.magnitude x) * 10 ^ (-e).toNat ≠ Std.unitsOf s * 10 ^ (-e).toNat := by
    intro hc
    have h1 := Nat.eq_of_mul_eq_mul_right hD hc
    rcases Nat.lt_or_ge s (Std.magnitude x) with hlt | hge
    · have := Std.unitsOf_mono hlt
      omega
    · have := Std.unitsOf_mono (m := Std.magnitude x) (n := s) (by omega)
      omega
  unfold Std.apart at h ⊢
  omega

/-- All finite doubles, and the infinite ones, can be printed so. -/
theorem C134_printer : ∃ fmt : F64 → Str, ∀ x, F64.IsNumber x → PrintsNear fmt x := by
  have h : ∀ x : F64, ∃ s, F64.IsNumber x → ∃ neg m e, NumText s neg m e ∧ F64.IsNearest x neg m e := by
    intro x
    by_cases hx : F64.IsNumber x
    · obtain ⟨y, h1, h2⟩ := C132_values (us := false).2 hx
      obtain ⟨neg, m, e, h3⟩ := C133_says h1
      exact ⟨_, fun _ => ⟨neg, m, e, h3, (C133_nearest h3).1 h2⟩⟩
    · exact ⟨[], fun h => absurd h hx⟩
  exact ⟨fun x => (h x).choose, fun x hx => (h x).choose_spec hx⟩

/-- So well-nested data with such numbers is read back from its JSON text. -/
theorem C134_json {fmt : F64 → Str} {data : List Tok} (h : WellNested (data.map Tok.data)) (hlen : data.length < 2 ^ 32)
    (hnum : ∀ n x, .f64 n x ∈ data.map Tok.data → PrintsNear fmt x) (ind : Indent) :
    ∃ text ts, writeJson fmt data = .ok text ∧ Parses stdLexer JsonRules.syn text [] ind (.ok ts) ∧
      ts.map Tok.data = (data.map Tok.data).flatMap readBack :=
  C123_read_back stdLexer_lawful C112_numbers h hlen (fun n x hx => C134_back (hnum n x hx)) ind

/-- And different data has different JSON texts. -/
theorem C134_injective {fmt : F64 → Str} {data data' : List Tok} (h : WellNested (data.map Tok.data)) (h' : WellNested (data'.map Tok.data))
    (hlen : data.length < 2 ^ 32) (hlen' : data'.length < 2 ^ 32)
    (hnum : ∀ n x, .f64 n x ∈ data.map Tok.data → PrintsNear fmt x) (hnum' : ∀ n x, .f64 n x ∈ data'.map Tok.data → PrintsNear fmt x)
    (e : writeJson fmt data = writeJson fmt data') : data.map Tok.data = data'.map Tok.data := by
  obtain ⟨text, ts, h1, h2, h3⟩ := C134_json h hlen hnum Indent.default
  obtain ⟨text', ts', h1', h2', h3'⟩ := C134_json h' hlen' hnum' Indent.default
  rw [h1, h1'] at e
  cases e
  cases parses_det h2 h2'
  exact C123_recovered h h' (h3.symm.trans h3')

/-! ### Examples -/

/-- Rust prints infinity as `inf`, which is not read. -/
theorem C134_infinite {fmt : F64 → Str} {x : F64} (h : fmt x = c!"inf" ∨ fmt x = c!"-inf" ∨ fmt x = c!"NaN") : ¬ NumberBack stdLexer fmt x := by
  intro hb
  have h1 := (hb ',' [] (.inl rfl)).1
  rcases h with h | h | h <;> rw [h] at h1 <;> revert h1 <;> decide

/-- `0.1` says the double nearest to a tenth. -/
theorem C134_tenth : PrintsNear (fun _ => c!"0.1") ⟨0x3FB999999999999A⟩ := by
  have h : NumText c!"0.1" false 1 (-1) := NumText.mk (neg := false) (int := c!"0") (frac := c!".1") (ds := c!"1") (ex := []) (by decide)
    (by simp [AllDigits]) (.some (by simp [AllDigits])) .none
  refine ⟨false, 1, -1, h, (C133_nearest (us := false) (src := c!"0.1") (n := 3) (by exact h)).1 ?_⟩
  have h1 := Std.parseNum_says (us := false) (src := c!"0.1") (n := 3) (by exact h)
  have h2 : (Std.decBits 1 (-1) + if false then 2 ^ 63 else 0) = 0x3FB999999999999A := by decide +kernel
  rw [h2] at h1
  exact h1

end Verif.Props
