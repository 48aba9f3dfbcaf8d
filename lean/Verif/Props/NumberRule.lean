import Verif.Props.ReadNumbers
/-
C136: exactly what number rules read.
-/
namespace Verif.Std
open Spec

theorem digits_ge {u : Bool} {ds rest : List Char} (h : AllDigits ds) : ds.length ≤ digits u (ds ++ rest) := by
  rw [digits, List.takeWhile_append_of_pos (fun c hc => by simp [allDigits h c hc])]
  simp

theorem expSign_digits {ds rest : List Char} (h0 : ds ≠ []) (h : AllDigits ds) : expSign (ds ++ rest) = 0 := by
  cases ds with
  | nil => exact absurd rfl h0
  | cons d ds =>
    have hd := allDigits h d (by simp)
    simp only [List.cons_append]
    unfold expSign
    split
    · rename_i heq
      rw [(List.cons.inj heq).1] at hd
      exact absurd hd (by decide)
    · rename_i heq
      rw [(List.cons.inj heq).1] at hd
      exact absurd hd (by decide)
    · rfl

/-- At least the exponent is read, and nothing of it before. -/
theorem exp_ge {u : Bool} {ex rest : List Char} {e : Int} (h : ExpText ex e) (hne : ex ≠ []) :
    (ex ++ rest).takeWhile (fun c => isDigit c || (u && c == '_')) = [] ∧ numFrac u (ex ++ rest) = 0 ∧ ex.length ≤ numExp (ex ++ rest) := by
  have key : ∀ {c : Char} {sg ds : List Char}, (c = 'e' ∨ c = 'E') → ds ≠ [] → AllDigits ds → expSign (sg ++ (ds ++ rest)) = sg.length →
      (c :: (sg ++ (ds ++ rest))).takeWhile (fun c => isDigit c || (u && c == '_')) = [] ∧ numFrac u (c :: (sg ++ (ds ++ rest))) = 0 ∧
      (c :: (sg ++ ds)).length ≤ numExp (c :: (sg ++ (ds ++ rest))) := by
    intro c sg ds hc h0 h hs
    have h1 : ds.length ≤ digits false (ds ++ rest) := digits_ge h
    have h2 : ds.length ≠ 0 := fun h => h0 (List.eq_nil_of_length_eq_zero h)
    refine ⟨by rcases hc with rfl | rfl <;> cases u <;> rfl, by rcases hc with rfl | rfl <;> rfl, ?_⟩
    simp only [numExp, if_pos hc, hs, List.drop_left, List.length_cons, List.length_append]
    rw [if_neg (by omega)]
    omega
  cases h with
  | none => exact absurd rfl hne
  | plain hc h0 h => exact key (sg := []) hc h0 h (by rw [List.nil_append]; exact expSign_digits h0 h)
  | plus hc h0 h => exact key (sg := ['+']) hc h0 h rfl
  | minus hc h0 h => exact key (sg := ['-']) hc h0 h rfl

/-- At least a number that the text begins with is read. -/
theorem num_ge {u : Bool} {s rest : List Char} {neg : Bool} {m : Nat} {e : Int} (h : NumText s neg m e) : ∃ n, num u (s ++ rest) = some n ∧ s.length ≤ n := by
  cases h with
  | @mk _ int frac ds ex e h0 hi hf he =>
    have hs : numSign ((if neg then ['-'] else []) ++ (int ++ (frac ++ (ex ++ rest)))) = (if neg then ['-'] else []).length := by
      cases neg with
      | true => rfl
      | false =>
        cases int with
        | nil => exact absurd rfl h0
        | cons c cs =>
          have := (isDigit_minus (allDigits hi c (by simp))).1
          simp only [Bool.false_eq_true, if_false, List.nil_append, List.cons_append]
          unfold numSign
          split
          · rename_i heq
            exact absurd (List.cons.inj heq).1 this
          · rfl
    have hd : ((int ++ (frac ++ (ex ++ rest))).head?.map isDigit).getD false = true := by
      cases int with
      | nil => exact absurd rfl h0
      | cons c cs => simpa using allDigits hi c (by simp)
    simp only [List.append_assoc]
    generalize (if neg then ['-'] else []) = sg at hs ⊢
    simp only [num, hs, List.drop_left, hd, if_true]
    refine ⟨_, rfl, ?_⟩
    have g1 : (sg ++ (int ++ (frac ++ (ex ++ rest)))).drop (sg.length + int.length) = frac ++ (ex ++ rest) := by
      rw [← List.append_assoc, ← List.length_append, List.drop_left]
    have g2 : (sg ++ (int ++ (frac ++ (ex ++ rest)))).drop (sg.length + int.length + frac.length) = ex ++ rest := by
      rw [← List.drop_drop, g1, List.drop_left]
    have d0 : int.length ≤ digits u (int ++ (frac ++ (ex ++ rest))) := digits_ge hi
    simp only [List.length_append]
    cases hf with
    | none =>
      by_cases hx : ex = []
      · subst hx
        simp only [List.length_nil]
        omega
      · obtain ⟨x1, x2, x3⟩ := exp_ge (u := u) (rest := rest) he hx
        have d1 : digits u (int ++ ([] ++ (ex ++ rest))) = int.length := digits_take (allDigits hi) x1
        rw [d1, g1]
        simp only [List.nil_append] at g1 ⊢
        rw [x2, Nat.add_zero, g1]
        simp only [List.length_nil]
        omega
    | @some ds h =>
      have d1 : digits u (int ++ ('.' :: ds ++ (ex ++ rest))) = int.length := digits_take (allDigits hi) (by cases u <;> rfl)
      have d2 : ds.length ≤ digits u (ds ++ (ex ++ rest)) := digits_ge h
      have d3 : numFrac u ('.' :: ds ++ (ex ++ rest)) = 1 + digits u (ds ++ (ex ++ rest)) := rfl
      rw [d1, g1, d3]
      by_cases hx : ex = []
      · subst hx
        simp only [List.length_nil, List.length_cons] at *
        omega
      · obtain ⟨x1, x2, x3⟩ := exp_ge (u := u) (rest := rest) he hx
        have d4 : digits u (ds ++ (ex ++ rest)) = ds.length := digits_take (allDigits h) x1
        rw [d4, show 1 + ds.length = ('.' :: ds).length by rw [List.length_cons, Nat.add_comm], g2]
        omega

theorem num_bound {u : Bool} {src : List Char} {n : Nat} (h : num u src = some n) : n ≤ src.length :=
  (stdLexer_lawful.num_some (u := u) h).2

/-- Without underscores in numbers. -/
theorem num_plain {src : List Char} {n : Nat} (h : num false src = some n) : (src.take n).filter (· ≠ '_') = src.take n := by
  simp only [num] at h
  split at h
  · cases h
    have h1 : (src.take (numSign src)).filter (· ≠ '_') = src.take (numSign src) := by
      unfold numSign
      split <;> rfl
    have h2 : ∀ cs : List Char, (cs.take (numFrac false cs)).filter (· ≠ '_') = cs.take (numFrac false cs) := by
      intro cs
      unfold numFrac
      split
      · rw [Nat.add_comm, List.take_succ_cons, List.filter_cons_of_pos (by decide), digits_plain.2]
      · rfl
    have h3 : ∀ cs : List Char, (cs.take (numExp cs)).filter (· ≠ '_') = cs.take (numExp cs) := by
      intro cs
      cases cs with
      | nil => rfl
      | cons c cs =>
        simp only [numExp]
        by_cases hc : c = 'e' ∨ c = 'E'
        · rw [if_pos hc]
          split
          · rfl
          · have hc' : decide (c ≠ '_') = true := by rcases hc with rfl | rfl <;> decide
            rw [show 1 + expSign cs + digits false (cs.drop (expSign cs)) = expSign cs + digits false (cs.drop (expSign cs)) + 1 by omega,
              List.take_succ_cons, List.filter_cons_of_pos (p := (decide <| · ≠ '_')) hc', List.take_add, List.filter_append, digits_plain.2]
            congr 2
            unfold expSign
            split <;> rfl
        · rw [if_neg hc]
          rfl
    rw [List.take_add, List.take_add, List.take_add, List.filter_append, List.filter_append, List.filter_append, h1, h2, h3, digits_plain.2]
  · cases h

end Verif.Std

namespace Verif.Props
open Spec

/-- Without underscores, exactly the longest beginning that says a number is read. -/
theorem C136_longest {src : Str} {n : Nat} : stdLexer.num false src = some n ↔
    n ≤ src.length ∧ SaysNumber (src.take n) ∧ ∀ k ≤ src.length, SaysNumber (src.take k) → k ≤ n := by
  have ge : ∀ k ≤ src.length, SaysNumber (src.take k) → ∃ n, stdLexer.num false src = some n ∧ k ≤ n := by
    rintro k hk ⟨neg, m, e, h⟩
    obtain ⟨n, h1, h2⟩ := Std.num_ge (u := false) (rest := src.drop k) h
    rw [List.take_append_drop] at h1
    rw [List.length_take, Nat.min_eq_left hk] at h2
    exact ⟨n, h1, h2⟩
  have le : ∀ {n}, stdLexer.num false src = some n → n ≤ src.length ∧ SaysNumber (src.take n) := by
    intro n h
    refine ⟨Std.num_bound h, ?_⟩
    obtain ⟨neg, m, e, h1⟩ := C133_says h
    rw [Std.num_plain h] at h1
    exact ⟨neg, m, e, h1⟩
  constructor
  · intro h
    refine ⟨(le h).1, (le h).2, fun k hk hs => ?_⟩
    obtain ⟨n', h1, h2⟩ := ge k hk hs
    rw [h] at h1
    cases h1
    exact h2
  · rintro ⟨h1, h2, h3⟩
    obtain ⟨n', g1, g2⟩ := ge n h1 h2
    have := h3 n' (le g1).1 (le g1).2
    rw [g1, show n' = n by omega]

/-- Nothing is read exactly if no beginning says a number. -/
theorem C136_none {us : Bool} {src : Str} : stdLexer.num us src = none ↔ ∀ k, ¬ SaysNumber (src.take k) := by
  constructor
  · rintro h k ⟨neg, m, e, hk⟩
    obtain ⟨n, h1, -⟩ := Std.num_ge (u := us) (rest := src.drop k) hk
    rw [List.take_append_drop] at h1
    rw [show stdLexer.num us src = some n from h1] at h
    cases h
  · intro h
    cases hn : stdLexer.num us src with
    | none => rfl
    | some n =>
      obtain ⟨m, hm⟩ : ∃ m, stdLexer.num false src = some m := by
        simp only [stdLexer, Std.num] at hn ⊢
        split at hn
        · rename_i hd
          rw [if_pos hd]
          exact ⟨_, rfl⟩
        · cases hn
      exact absurd (C136_longest.1 hm).2.1 (h m)

/-- Underscores do not matter: without them the same double is read. -/
theorem C136_underscores {src : Str} {n : Nat} (h : stdLexer.num true src = some n) :
    stdLexer.num false ((src.take n).filter (· ≠ '_')) = some ((src.take n).filter (· ≠ '_')).length ∧
    stdLexer.parseNum false ((src.take n).filter (· ≠ '_')) ((src.take n).filter (· ≠ '_')).length = stdLexer.parseNum true src n := by
  obtain ⟨neg, m, e, h1⟩ := C133_says h
  generalize hs : (src.take n).filter (· ≠ '_') = s at *
  have h2 := C134_text (us := false) (rest := []) (x := ⟨BitVec.ofNat 64 (Std.decBits m e + if neg then 2 ^ 63 else 0)⟩) h1 (by simp)
  rw [List.append_nil] at h2
  have h3 : stdLexer.parseNum true src n = .ok _ := Std.parseNum_says (us := true) (by rw [hs]; exact h1)
  refine ⟨h2.1, h2.2.2 ?_ |>.trans h3.symm⟩
  exact (C133_nearest (us := true) (src := src) (n := n) (by rw [hs]; exact h1)).1 h3

/-- A syntax that is one number rule accepts exactly the texts that say a number, with the nearest double. -/
theorem C136_rule {p name : Str} {id : DebugId} {text : Str} {ind : Indent} {ds : List MetaData} :
    (∃ ts, Accepts stdLexer ⟨[.number (some p) false id], [name]⟩ text ind ts ∧ ts.map (·.data) = ds) ↔
    ∃ neg m e v, NumText text neg m e ∧ F64.IsNearest v neg m e ∧ ds = [.f64 p v] := by
  constructor
  · rintro ⟨ts, ⟨r, j, tr, h1, h2⟩, rfl⟩
    simp only [List.getLast?_singleton, Option.some.injEq] at h1
    subst h1
    generalize ho : some (text.length, ts) = o at h2
    cases h2 with
    | num_ok h h' =>
      cases ho
      obtain ⟨neg, m, e, h3⟩ := (C136_longest.1 h).2.1
      rw [List.take_length] at h3
      refine ⟨neg, m, e, _, h3, (C133_nearest (us := false) (src := text) (n := text.length) ?_).1 h', rfl⟩
      rw [List.take_length, Std.numText_plain h3]
      exact h3
    | _ => cases ho
  · rintro ⟨neg, m, e, v, h1, h2, rfl⟩
    have h3 := C134_text (us := false) (rest := []) (x := v) h1 (by simp)
    rw [List.append_nil] at h3
    exact ⟨_, ⟨_, _, _, rfl, .num_ok h3.1 (h3.2.2 h2)⟩, rfl⟩

/-! ### Examples -/

/-- `-1.5e+` is read up to the 5, `1_000.5x` up to the 5 or the 1, `.5`, `+1` and `_1` not at all, and `1.` whole. -/
example : stdLexer.num false c!"-1.5e+" = some 4 ∧ stdLexer.num true c!"1_000.5x" = some 7 ∧ stdLexer.num false c!"1_000.5x" = some 1 ∧
    stdLexer.num true c!".5" = none ∧ stdLexer.num true c!"+1" = none ∧ stdLexer.num true c!"_1" = none ∧ stdLexer.num false c!"1." = some 2 := by decide

/-- `1_000` and `1000`. -/
example : stdLexer.parseNum true c!"1_000" 5 = stdLexer.parseNum false c!"1000" 4 :=
  (C136_underscores (src := c!"1_000") (n := 5) (by decide)).2.symm

end Verif.Props
