import Verif.Proofs.Peg
import Verif.Spec.Optimize
/-
Guards keep rules flat.
-/
namespace Verif
open Spec

theorem flat_of {r : Rule} (h1 : ∀ q ind id, r ≠ .lines q ind id) (h2 : ∀ t args tail id, r ≠ .fastSelect t args tail id)
    (h : ∀ c, Child c r → Bare c) : Bare r := by
  intro x hx
  cases hx with
  | refl => exact ⟨h1, h2⟩
  | step hx hc => exact h _ hc x hx

theorem flat_sequence {rs : List Rule} {id : DebugId} (h : ∀ r ∈ rs, Bare r) : Bare (.sequence rs id) :=
  flat_of (by simp) (by simp) fun c hc => by cases hc with | sequence hm => exact h c hm

theorem flat_select {rs : List Rule} {id : DebugId} (h : ∀ r ∈ rs, Bare r) : Bare (.select rs id) :=
  flat_of (by simp) (by simp) fun c hc => by cases hc with | select hm => exact h c hm

theorem flat_not {r : Rule} {id : DebugId} (h : Bare r) : Bare (.not r id) :=
  flat_of (by simp) (by simp) fun c hc => by cases hc; exact h

theorem flat_notAtEnd {r : Rule} (h : Bare r) : Bare (notAtEnd r) := by
  refine flat_sequence fun q hq => ?_
  simp only [List.mem_cons, List.not_mem_nil, or_false] at hq
  rcases hq with rfl | rfl
  · exact flat_not (flat_not (flat_of (by simp) (by simp) fun c hc => by cases hc))
  · exact h

theorem flat_guardFrom {u : Nat} {gs : List Rule} (h : ∀ r ∈ gs, Bare r) : ∀ r ∈ guardFrom u gs, Bare r := by
  intro r hr
  simp only [guardFrom, List.mem_append, List.mem_map] at hr
  rcases hr with hr | ⟨q, hq, rfl⟩
  · exact h r (List.mem_of_mem_take hr)
  · exact flat_notAtEnd (h q (List.mem_of_mem_drop hq))

mutual
theorem guarded_flat {refs : List Rule} {r g : Rule} : EndGuarded refs r g → Bare r → Bare g
  | .whitespace, hf => hf
  | .tag, hf => hf
  | .untilAny, hf => hf
  | .untilAnyOrWs, hf => hf
  | .text, hf => hf
  | .number, hf => hf
  | .node, hf => hf
  | .fastSelect, hf => hf
  | .select _ _ h, hf => flat_select (guarded_flatL h fun r hr => hf.child (.select hr))
  | .guarded _ _ _ h, hf => flat_select (flat_guardFrom (guarded_flatL h fun r hr => hf.child (.select hr)))
  | .sequence h, hf => flat_sequence (guarded_flatL h fun r hr => hf.child (.sequence hr))
  | .separateBy h h', hf => flat_of (by simp) (by simp) fun c hc => by
      cases hc with
      | item => exact guarded_flat h (hf.child .item)
      | sep => exact guarded_flat h' (hf.child .sep)
  | .repeat_ h, hf => flat_of (by simp) (by simp) fun c hc => by cases hc; exact guarded_flat h (hf.child .repeat_)
  | .lines _, hf => absurd rfl ((hf _ .refl).1 _ _ _)
  | .optional h, hf => flat_of (by simp) (by simp) fun c hc => by cases hc; exact guarded_flat h (hf.child .optional)
  | .not h, hf => flat_not (guarded_flat h (hf.child .not))
theorem guarded_flatL {refs : List Rule} {rs gs : List Rule} : EndGuardedL refs rs gs → (∀ r ∈ rs, Bare r) → ∀ g ∈ gs, Bare g
  | .nil, _ => by simp
  | .cons h h', hf => by
    intro g hg
    cases hg with
    | head => exact guarded_flat h (hf _ (by simp))
    | tail _ hg => exact guarded_flatL h' (fun r hr => hf r (by simp [hr])) g hg
end

end Verif
