import Verif.Proofs.NearStd
import Verif.Proofs.StdLexer
import Verif.Spec.Viable
/-
The numbers of the concrete lexer end before whatever cannot be a part of them.
-/
namespace Verif
open Spec

namespace Std

/-- Not a digit, an underscore, a point or the mark of an exponent. -/
def Ends (c : Char) : Prop := isDigit c = false ∧ c ≠ '_' ∧ c ≠ '.' ∧ c ≠ 'e' ∧ c ≠ 'E'

/-- Such a character, or nothing, comes first. -/
def EndsAt (t : List Char) : Prop := t = [] ∨ ∃ c t', t = c :: t' ∧ Ends c

theorem digits_none {u : Bool} {t : List Char} (ht : EndsAt t) : digits u t = 0 := by
  rcases ht with rfl | ⟨c, t, rfl, h⟩
  · rfl
  · simp [digits, h.1, h.2.1]

theorem frac_none {u : Bool} {t : List Char} (ht : EndsAt t) : numFrac u t = 0 := by
  rcases ht with rfl | ⟨c, t, rfl, h⟩
  · rfl
  · unfold numFrac
    split
    · rename_i e
      cases e
      exact absurd rfl h.2.2.1
    · rfl

theorem exp_none {t : List Char} (ht : EndsAt t) : numExp t = 0 := by
  rcases ht with rfl | ⟨c, t, rfl, h⟩
  · rfl
  · simp [numExp, h.2.2.2.1, h.2.2.2.2]

theorem digits_all {u : Bool} {t : List Char} (ht : EndsAt t) : ∀ {a : List Char} {j : Nat}, digits u a ≤ j →
    digits u (a.take j ++ t) = digits u a
  | [], j, _ => by
    rw [List.take_nil, List.nil_append, digits_none ht]
    rfl
  | x :: a, j, h => by
    by_cases hx : (isDigit x || (u && x == '_')) = true
    · have e : ∀ l, digits u (x :: l) = digits u l + 1 := by
        intro l
        simp only [digits]
        rw [List.takeWhile_cons_of_pos (by exact hx), List.length_cons]
      rw [e] at h
      match j, h with
      | j + 1, h => rw [List.take_succ_cons, List.cons_append, e, e, digits_all ht (a := a) (by omega)]
    · have e : ∀ l, digits u (x :: l) = 0 := by
        intro l
        simp only [digits]
        rw [List.takeWhile_cons_of_neg (by exact hx), List.length_nil]
      rw [e]
      match j with
      | 0 => rw [List.take_zero, List.nil_append, digits_none ht]
      | j + 1 => rw [List.take_succ_cons, List.cons_append, e]

theorem frac_all {u : Bool} {t : List Char} (ht : EndsAt t) {a : List Char} {j : Nat} (h : numFrac u a ≤ j) :
    numFrac u (a.take j ++ t) = numFrac u a := by
  match a, j, h with
  | [], j, _ =>
    rw [List.take_nil, List.nil_append, frac_none ht]
    rfl
  | x :: a, 0, h =>
    rw [List.take_zero, List.nil_append, frac_none ht]
    omega
  | x :: a, j + 1, h =>
    rw [List.take_succ_cons, List.cons_append]
    by_cases hx : x = '.'
    · subst hx
      simp only [numFrac] at h ⊢
      rw [digits_all ht (by omega)]
    · have : ∀ l : List Char, numFrac u (x :: l) = 0 := by
        intro l
        unfold numFrac
        split
        · rename_i h; cases h; exact absurd rfl hx
        · rfl
      rw [this, this]

theorem head_all {a t : List Char} {j : Nat} (h : 0 < j) (hj : j ≤ a.length) : (a.take j ++ t).head? = a.head? := by
  match a, j, h with
  | [], j + 1, _ => simp at hj
  | x :: a, j + 1, _ => rfl

theorem drop_all {a t : List Char} {j k : Nat} (h : k ≤ j) (hj : j ≤ a.length) :
    (a.take j ++ t).drop k = (a.drop k).take (j - k) ++ t := by
  rw [List.drop_append_of_le_length (by simp; omega), List.drop_take]

theorem exp_le {a : List Char} : numExp a ≤ a.length := by
  match a with
  | [] => simp [numExp]
  | x :: a =>
    simp only [numExp]
    have : digits false (a.drop (expSign a)) ≤ (a.drop (expSign a)).length := digits_le _ _
    rw [List.length_drop] at this
    split
    · split
      · omega
      · simp only [List.length_cons]
        omega
    · omega

theorem exp_all {t : List Char} (ht : EndsAt t) {a : List Char} : numExp (a.take (numExp a) ++ t) = numExp a := by
  have hl := exp_le (a := a)
  match a, hl with
  | [], _ => simpa [numExp] using exp_none ht
  | x :: a, hl =>
    by_cases h0 : numExp (x :: a) = 0
    · rw [h0, List.take_zero, List.nil_append, exp_none ht]
    · have hx : x = 'e' ∨ x = 'E' := Classical.byContradiction fun hx => h0 (by simp [numExp, hx])
      have hk : ¬ digits false (a.drop (expSign a)) = 0 := fun hk => h0 (by simp [numExp, hk])
      have e : numExp (x :: a) = (expSign a + digits false (a.drop (expSign a))) + 1 := by
        simp only [numExp, if_pos hx, if_neg hk]
        omega
      rw [e] at hl
      simp only [List.length_cons] at hl
      rw [e, List.take_succ_cons, List.cons_append]
      have hs : expSign (a.take (expSign a + digits false (a.drop (expSign a))) ++ t) = expSign a := by
        rw [expSign_head, head_all (by omega) (by omega), ← expSign_head]
      have hd : digits false ((a.take (expSign a + digits false (a.drop (expSign a))) ++ t).drop (expSign a)) =
          digits false (a.drop (expSign a)) := by
        rw [drop_all (by omega) (by omega), Nat.add_sub_cancel_left, digits_all ht (Nat.le_refl _)]
      simp only [numExp, if_pos hx]
      rw [hs, hd, if_neg hk]
      omega

theorem frac_le {u : Bool} {a : List Char} : numFrac u a ≤ a.length := by
  unfold numFrac
  split
  · rename_i cs
    have := digits_le u cs
    simp only [List.length_cons]
    omega
  · omega

theorem num_all {u : Bool} {a t : List Char} {n : Nat} (h : num u a = some n) (ht : EndsAt t) : num u (a.take n ++ t) = some n := by
  simp only [num] at h
  split at h
  · rename_i hd
    simp only [Option.some.injEq] at h
    have h1 : numSign a + digits u (a.drop (numSign a)) ≤ a.length ∨ numSign a > a.length := by
      have := digits_le u (a.drop (numSign a))
      rw [List.length_drop] at this
      omega
    have hpos : 0 < digits u (a.drop (numSign a)) := by
      cases hx : a.drop (numSign a) with
      | nil => rw [hx] at hd; simp at hd
      | cons x l =>
        rw [hx] at hd
        have hd : isDigit x = true := by simpa using hd
        simp [digits, hd]
    have h1 : numSign a + digits u (a.drop (numSign a)) ≤ a.length := by
      rcases h1 with h1 | h1
      · exact h1
      · rw [List.drop_eq_nil_of_le (by omega)] at hpos
        simp [digits] at hpos
    generalize hds : digits u (a.drop (numSign a)) = d at *
    have h2 := frac_le (u := u) (a := a.drop (numSign a + d))
    generalize hfs : numFrac u (a.drop (numSign a + d)) = f at *
    have h3 := exp_le (a := a.drop (numSign a + d + f))
    generalize hes : numExp (a.drop (numSign a + d + f)) = x at *
    rw [List.length_drop] at h2 h3
    have hn : n ≤ a.length := by omega
    have e1 : numSign (a.take n ++ t) = numSign a := by rw [sign_head, head_all (by omega) hn, ← sign_head]
    have e2 : ((a.take n ++ t).drop (numSign a)).head? = (a.drop (numSign a)).head? := by
      rw [drop_all (by omega) hn, head_all (by omega) (by rw [List.length_drop]; omega)]
    have e3 : digits u ((a.take n ++ t).drop (numSign a)) = d := by
      rw [drop_all (by omega) hn, digits_all ht (by omega), hds]
    have e4 : numFrac u ((a.take n ++ t).drop (numSign a + d)) = f := by
      rw [drop_all (by omega) hn, frac_all ht (by omega), hfs]
    have e5 : numExp ((a.take n ++ t).drop (numSign a + d + f)) = x := by
      rw [drop_all (by omega) hn, show n - (numSign a + d + f) = numExp (a.drop (numSign a + d + f)) by omega, exp_all ht, hes]
    simp only [num]
    rw [e1, e2, if_pos hd, e3, e4, e5, h]
  · cases h

/-- How a number is read does not depend on what follows it, if that cannot be a part of it. -/
theorem numbersEnd (us : Bool) : NumbersEnd stdLexer Ends us := by
  intro s n h t ht
  refine ⟨num_all h ht, ?_⟩
  have hn : n ≤ s.length := (stdLexer_lawful.num_some h).2
  simp only [stdLexer, parseNum]
  rw [List.take_append_of_le_length (by simp; omega), List.take_take, Nat.min_self]

end Std

end Verif
