import Verif.Proofs.Near
import Verif.Proofs.OptGuard
/-
The optimizer keeps rules near.
-/
namespace Verif
open Spec

theorem Spec.Near.of_children {m : Nat} {r : Rule} (h : ∀ c, Child c r → Near m c)
    (h1 : ∀ t neg inv prop id, .tag t neg inv prop id = r → t.length ≤ m) (h2 : ∀ empty prop id, .text empty prop id ≠ r)
    (h3 : ∀ x ind id, .lines x ind id ≠ r) (h4 : ∀ x id, .not x id ≠ r) : Near m r := by
  refine ⟨?_, ?_, ?_, ?_⟩
  · intro t a b c d ho
    generalize hx : Rule.tag t a b c d = x at ho
    cases ho with
    | refl => exact h1 _ _ _ _ _ hx
    | step ho hc => subst hx; exact (h _ hc).token _ _ _ _ _ ho
  · intro a b c ho
    generalize hx : Rule.text a b c = x at ho
    cases ho with
    | refl => exact h2 _ _ _ hx
    | step ho hc => subst hx; exact (h _ hc).text _ _ _ ho
  · intro a b c ho
    generalize hx : Rule.lines a b c = x at ho
    cases ho with
    | refl => exact h3 _ _ _ hx
    | step ho hc => subst hx; exact (h _ hc).lines _ _ _ ho
  · intro a b ho
    generalize hx : Rule.not a b = x at ho
    cases ho with
    | refl => exact h4 _ _ hx
    | step ho hc => subst hx; exact (h _ hc).not _ _ ho

variable {refs : List Rule} {n m : Nat}

mutual
theorem opt_near : {r r' : Rule} → optimizeRule refs n r = .ok r' → Near m r → Near m r'
  | .whitespace _ _, _, h, hr => by cases h; exact hr
  | .tag _ _ _ _ _, _, h, hr => by cases h; exact hr
  | .untilAny _ _ _ _, _, h, hr => by cases h; exact hr
  | .untilAnyOrWs _ _ _ _, _, h, hr => by cases h; exact hr
  | .text _ _ _, _, h, hr => by cases h; exact hr
  | .number _ _ _, _, h, hr => by cases h; exact hr
  | .node _ _ _ _, _, h, hr => by cases h; exact hr
  | .fastSelect _ _ _ _, _, h, hr => by cases h; exact hr
  | .sequence args id, _, h, hr => by
    simp only [optimizeRule] at h
    obtain ⟨args', h1, h2⟩ := Comp.bind_ok.1 h
    cases h2
    refine .of_children ?_ (by simp) (by simp) (by simp) (by simp)
    rintro c (_ | _ | hc)
    exact opt_nearL h1 (fun x hx => hr.child (.sequence hx)) c hc
  | .separateBy r b _ _ _, _, h, hr => by
    simp only [optimizeRule] at h
    obtain ⟨r', h1, h2⟩ := Comp.bind_ok.1 h
    obtain ⟨b', h3, h4⟩ := Comp.bind_ok.1 h2
    cases h4
    refine .of_children ?_ (by simp) (by simp) (by simp) (by simp)
    intro c hc
    cases hc with
    | item => exact opt_near h1 (hr.child .item)
    | sep => exact opt_near h3 (hr.child .sep)
  | .repeat_ r _ _, _, h, hr => by
    simp only [optimizeRule] at h
    obtain ⟨r', h1, h2⟩ := Comp.bind_ok.1 h
    cases h2
    refine .of_children ?_ (by simp) (by simp) (by simp) (by simp)
    intro c hc
    cases hc
    exact opt_near h1 (hr.child .repeat_)
  | .lines r _ _, _, h, hr => absurd .refl (hr.lines _ _ _)
  | .optional r _, _, h, hr => by
    simp only [optimizeRule] at h
    obtain ⟨r', h1, h2⟩ := Comp.bind_ok.1 h
    cases h2
    refine .of_children ?_ (by simp) (by simp) (by simp) (by simp)
    intro c hc
    cases hc
    exact opt_near h1 (hr.child .optional)
  | .not r _, _, h, hr => absurd .refl (hr.not _ _)
  | .select args id, r', h, hr => by
    simp only [optimizeRule] at h
    obtain ⟨t, u, args', ht, h1, h2⟩ := optimizeSelect_ok (by simp [optimizeRules_eq]) h
    have ha := opt_nearL h1 (fun x hx => hr.child (.select hx))
    rcases h2 with ⟨_, rfl⟩ | ⟨_, _, rfl⟩ | ⟨_, _, rfl⟩
    · refine .of_children ?_ (by simp) (by simp) (by simp) (by simp)
      intro c hc
      cases hc with
      | select hc => exact ha c hc
    · refine .of_children ?_ (by simp) (by simp) (by simp) (by simp)
      intro c hc
      cases hc with
      | fast hc => exact ha c hc
    · refine .of_children ?_ (by simp) (by simp) (by simp) (by simp)
      intro c hc
      cases hc with
      | fast hc =>
        rcases List.mem_append.1 hc with hc | hc
        · exact ha c (List.mem_of_mem_take hc)
        · obtain rfl := List.mem_singleton.1 hc
          refine .of_children ?_ (by simp) (by simp) (by simp) (by simp)
          intro c hc
          cases hc with
          | select hc => exact ha c (List.mem_of_mem_drop hc)
theorem opt_nearL : {rs rs' : List Rule} → Comp.all (optimizeRules refs n rs) = .ok rs' → (∀ r ∈ rs, Near m r) →
    ∀ r ∈ rs', Near m r
  | [], _, h, _ => by simp [optimizeRules, Comp.all] at h; subst h; simp
  | r :: rs, _, h, hr => by
    simp only [optimizeRules] at h
    obtain ⟨a, as, h1, h2, rfl⟩ := Comp.all_cons_ok.1 h
    have hr' := List.forall_mem_cons.1 hr
    exact List.forall_mem_cons.2 ⟨opt_near h1 hr'.1, opt_nearL h2 hr'.2⟩
end

end Verif
