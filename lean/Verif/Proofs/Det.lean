import Verif.Proofs.Basics
/-
The meaning of rules is a partial function: outcome, indentation and failures are determined.
-/
namespace Verif
open Spec

theorem Spec.Run.det {E : Env} {g p i o j tr} (h : Run E g p i o j tr) :
    ∀ {o' j' tr'}, Run E g p i o' j' tr' → o = o' ∧ j = j' ∧ tr = tr' := by
  induction h with
  | ws_ok h h0 =>
    intro _ _ _ h'
    cases h' with
    | ws_ok h1 _ => have := longest_unique h h1; subst this; simp
    | ws_fail h1 => have := longest_unique h h1; simp_all
  | ws_fail h =>
    intro _ _ _ h'
    cases h' with
    | ws_ok h1 _ => have := longest_unique h h1; simp_all
    | ws_fail h1 => simp
  | until_ok h h0 =>
    intro _ _ _ h'
    cases h' with
    | until_ok h1 _ => have := longest_unique h h1; subst this; simp
    | until_fail h1 => have := longest_unique h h1; simp_all
  | until_fail h =>
    intro _ _ _ h'
    cases h' with
    | until_ok h1 _ => have := longest_unique h h1; simp_all
    | until_fail h1 => simp
  | untilWs_ok h h0 =>
    intro _ _ _ h'
    cases h' with
    | untilWs_ok h1 _ => have := longest_unique h h1; subst this; simp
    | untilWs_fail h1 => have := longest_unique h h1; simp_all
  | untilWs_fail h =>
    intro _ _ _ h'
    cases h' with
    | untilWs_ok h1 _ => have := longest_unique h h1; simp_all
    | untilWs_fail h1 => simp
  | line_shallow h => intro _ _ _ h'; cases h' <;> first | (exfalso; exact h ⟨_, by assumption⟩) | simp
  | line_deep ha h hd =>
    intro _ _ _ h'
    cases h' with
    | line_shallow h1 => exact absurd ⟨_, h⟩ h1
    | line_deep => simp
    | line_body ha1 h1 hd1 => have := carries_unique h h1; subst this; exact absurd hd hd1
    | line_align ha1 => exact absurd ⟨rfl, ha1⟩ ha
  | line_body ha h hd hi h' ih =>
    intro _ _ _ h'
    cases h' with
    | line_shallow h1 => exact absurd ⟨_, h⟩ h1
    | line_deep ha1 h1 hd1 => have := carries_unique h h1; subst this; exact absurd hd1 hd
    | line_body ha1 h1 hd1 hi1 h2 =>
      have := carries_unique h h1; subst this
      obtain ⟨rfl, rfl, rfl⟩ := ih h2; simp
    | line_align ha1 => exact absurd ⟨rfl, ha1⟩ ha
  | line_align ha h hm hi h' ih =>
    intro _ _ _ h'
    cases h' with
    | line_shallow h1 => exact absurd ⟨_, h⟩ h1
    | line_deep ha1 => exact absurd ⟨rfl, ha⟩ ha1
    | line_body ha1 => exact absurd ⟨rfl, ha⟩ ha1
    | line_align ha1 h1 hm1 hi1 h2 =>
      have := carries_unique h h1; subst this
      have := longest_unique hm hm1; subst this
      obtain ⟨rfl, rfl, rfl⟩ := ih h2; simp
  | _ => intro _ _ _ h'; cases h' <;> grind

end Verif
