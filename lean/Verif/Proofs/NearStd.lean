import Verif.Proofs.Near
import Verif.Model.StdLexer
/-
The concrete lexer looks at most three characters beyond a number.
-/
namespace Verif
open Spec

namespace Std

theorem takeWhile_near {P : Char → Bool} : ∀ {a b : List Char},
    b.take ((a.takeWhile P).length + 1) = a.take ((a.takeWhile P).length + 1) → b.takeWhile P = a.takeWhile P
  | [], b, h => by
    have : b = [] := by simpa using h
    rw [this]
  | x :: a, [], h => by simp at h
  | x :: a, y :: b, h => by
      by_cases hx : P x
      · rw [List.takeWhile_cons_of_pos hx] at h ⊢
        simp only [List.length_cons, List.take_succ_cons, List.cons.injEq] at h
        obtain ⟨rfl, h⟩ := h
        rw [List.takeWhile_cons_of_pos hx, takeWhile_near (a := a) (b := b) ‹_›]
      · rw [List.takeWhile_cons_of_neg hx] at h ⊢
        simp only [List.length_nil, Nat.zero_add, List.take_succ_cons, List.cons.injEq] at h
        obtain ⟨rfl, h⟩ := h
        rw [List.takeWhile_cons_of_neg hx]

theorem digits_near {u : Bool} {a b : List Char} (h : b.take (digits u a + 1) = a.take (digits u a + 1)) :
    digits u b = digits u a := by
  unfold digits at h ⊢
  rw [takeWhile_near h]

theorem head_near {a b : List Char} {k : Nat} (h : b.take (k + 1) = a.take (k + 1)) : b.head? = a.head? := by
  have := congrArg List.head? h
  simpa [List.head?_take] using this

theorem drop_near {a b : List Char} {k n : Nat} (h : b.take (n + k) = a.take (n + k)) :
    (b.drop n).take k = (a.drop n).take k := by
  have := congrArg (List.drop n) h
  rwa [List.drop_take, List.drop_take, Nat.add_sub_cancel_left] at this

theorem sign_head (a : List Char) : numSign a = if a.head? = some '-' then 1 else 0 := by
  unfold numSign
  split
  · simp
  · rename_i h
    cases a with
    | nil => simp
    | cons x a =>
      have : x ≠ '-' := fun e => h a (by rw [e])
      simp [this]

theorem expSign_head (a : List Char) : expSign a = if a.head? = some '+' ∨ a.head? = some '-' then 1 else 0 := by
  unfold expSign
  split
  · simp
  · simp
  · rename_i h h'
    cases a with
    | nil => simp
    | cons x a =>
      have : x ≠ '+' := fun e => h a (by rw [e])
      have : x ≠ '-' := fun e => h' a (by rw [e])
      simp [*]

theorem frac_near {u : Bool} {a b : List Char} (h : b.take (numFrac u a + 1) = a.take (numFrac u a + 1)) :
    numFrac u b = numFrac u a := by
  have hh := head_near h
  match a, b, h, hh with
  | [], [], _, _ => rfl
  | x :: a, y :: b, h, hh =>
    obtain rfl : y = x := by simpa using hh
    by_cases hy : y = '.'
    · subst hy
      simp only [numFrac] at h ⊢
      rw [digits_near (a := a)]
      rw [show 1 + digits u a + 1 = (digits u a + 1) + 1 by omega] at h
      simpa using h
    · have : ∀ l : List Char, numFrac u (y :: l) = 0 := by
        intro l
        unfold numFrac
        split
        · rename_i h; cases h; exact absurd rfl hy
        · rfl
      rw [this, this]

theorem exp_near {a b : List Char} (h : b.take (numExp a + 3) = a.take (numExp a + 3)) : numExp b = numExp a := by
  have hh := head_near (k := numExp a + 2) h
  match a, b, h, hh with
  | [], [], _, _ => rfl
  | x :: a, y :: b, h, hh =>
    obtain rfl : y = x := by simpa using hh
    by_cases hy : y = 'e' ∨ y = 'E'
    · simp only [numExp, if_pos hy] at h ⊢
      rw [List.take_succ_cons, List.take_succ_cons, List.cons.injEq] at h
      have h := h.2
      have hs : expSign b = expSign a := by rw [expSign_head, expSign_head, head_near h]
      have hd : digits false (b.drop (expSign a)) = digits false (a.drop (expSign a)) := by
        refine digits_near (drop_near (take_less h ?_))
        have : expSign a ≤ 1 := by rw [expSign_head]; split <;> omega
        split <;> omega
      rw [hs, hd]
    · simp only [numExp, if_neg hy]

theorem num_near : NearNumbers stdLexer 3 := by
  intro u a b
  have key : ∀ k, b.take (k + 3) = a.take (k + 3) → numSign b = numSign a ∧
      (b.drop (numSign a)).head? = (a.drop (numSign a)).head? := by
    intro k h
    have hs : numSign b = numSign a := by rw [sign_head, sign_head, head_near (k := k + 2) h]
    have : numSign a ≤ 1 := by rw [sign_head]; split <;> omega
    exact ⟨hs, head_near (k := k + 2 - numSign a) (drop_near (take_less h (by omega)))⟩
  constructor
  · intro h0 h
    obtain ⟨h1, h2⟩ := key 0 h
    simp only [stdLexer, num] at h0 ⊢
    rw [h1, h2]
    split
    · rename_i hd; rw [if_pos hd] at h0; cases h0
    · rfl
  · intro n hn h
    refine ⟨?_, ?_⟩
    · obtain ⟨h1, h2⟩ := key n h
      simp only [stdLexer, num] at hn ⊢
      rw [h1, h2]
      split at hn
      · rename_i hd
        rw [if_pos hd]
        simp only [Option.some.injEq] at hn
        have e1 : digits u (b.drop (numSign a)) = digits u (a.drop (numSign a)) :=
          digits_near (drop_near (take_less h (by omega)))
        rw [e1]
        have e2 := frac_near (u := u) (a := a.drop (numSign a + digits u (a.drop (numSign a))))
          (drop_near (b := b) (take_less h (by omega)))
        rw [e2]
        have e3 := exp_near (a := a.drop (numSign a + digits u (a.drop (numSign a)) +
            numFrac u (a.drop (numSign a + digits u (a.drop (numSign a))))))
          (drop_near (b := b) (take_less h (by omega)))
        rw [e3, hn]
      · cases hn
    · show Std.parseNum u b n = Std.parseNum u a n
      unfold Std.parseNum
      rw [take_less h (Nat.le_add_right n 3)]

end Std

end Verif
