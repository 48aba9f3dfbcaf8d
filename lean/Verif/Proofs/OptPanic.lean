import Verif.Proofs.OptTotal
/-
The optimizer does not panic when all indices are in range.
-/
namespace Verif
open Spec

variable {refs : List Rule}

theorem Comp.bind_ne_panic {α β : Type} {x : Comp α} {f : α → Comp β} (h : x ≠ .panic)
    (hf : ∀ a, f a ≠ .panic) : (x >>= f) ≠ .panic := by
  cases x with
  | ok a => exact hf a
  | panic => exact absurd rfl h
  | timeout => simp [Bind.bind, Comp.bind]

theorem Comp.all_ne_panic {α : Type} : ∀ {xs : List (Comp α)}, (∀ x ∈ xs, x ≠ .panic) → Comp.all xs ≠ .panic
  | [], _ => by simp [Comp.all]
  | x :: xs, h => by
    have h1 := h x (by simp)
    have h2 := Comp.all_ne_panic (xs := xs) fun y hy => h y (by simp [hy])
    unfold Comp.all
    cases x with
    | ok a => cases hx : Comp.all xs <;> simp_all
    | panic => exact absurd rfl h1
    | timeout => simp

theorem uniqueByte_ne_panic {S : Rule → Prop} (hS : Closed refs S) (hix : ∀ r, S r → IndexOk refs r) :
    ∀ (n : Nat) (r : Rule), S r → uniqueByte refs n r ≠ .panic
  | 0, _, _ => by simp [uniqueByte]
  | n + 1, r, hr => by
    have ih := uniqueByte_ne_panic hS hix n
    have hch := fun {c} (hc : Child c r) => hS.2 hc hr
    unfold uniqueByte
    split
    all_goals try simp only [ne_eq, reduceCtorEq, not_false_eq_true]
    · exact ih _ (hS.2 .not (hch .not))
    · exact ih _ (hch (.select (by simp)))
    · split
      · simp
      · exact ih _ (hch .item)
    · exact ih _ (hch (.sequence (by simp)))
    · split
      · simp
      · exact ih _ (hch .repeat_)
    · split
      · rename_i i _ h
        have := hix _ hr
        simp only [IndexOk] at this
        simp at h
        omega
      · rename_i q h
        exact ih _ (hS.1 _ (List.mem_of_getElem? h))
    · split
      · simp
      · split <;> simp

theorem uniqueLoop_ne_panic {n : Nat} : ∀ {rs : List Rule} {i t u},
    (∀ r ∈ rs, uniqueByte refs n r ≠ .panic) → uniqueLoop refs n i rs t u ≠ .panic
  | [], _, _, _, _ => by simp [uniqueLoop]
  | r :: rs, i, t, u, h => by
    have h1 := h r (by simp)
    have h2 := fun {i t u} => uniqueLoop_ne_panic (n := n) (rs := rs) (i := i) (t := t) (u := u)
      fun y hy => h y (by simp [hy])
    unfold uniqueLoop
    split
    · simp
    · split
      · split
        · exact h2
        · simp
      · simp
      · rename_i e; exact absurd e h1
      · simp

theorem optimizeSelect_ne_panic {n : Nat} {args opts id} (ht : uniqueTable refs n args ≠ .panic)
    (h : ∀ x ∈ opts, x ≠ Comp.panic) : optimizeSelect refs n args opts id ≠ .panic := by
  have h1 := Comp.all_ne_panic h
  have h2 := fun k => Comp.all_ne_panic (xs := opts.drop k) fun x hx => h x (List.mem_of_mem_drop hx)
  have h3 := fun k => Comp.all_ne_panic (xs := opts.take k) fun x hx => h x (List.mem_of_mem_take hx)
  unfold optimizeSelect
  split
  · rename_i e; exact absurd e ht
  · simp
  · split
    · split
      · exact Comp.bind_ne_panic (h2 1) fun _ => Comp.bind_ne_panic h1 fun _ => by simp [pure]
      · exact Comp.bind_ne_panic h1 fun _ => by simp [pure]
    · refine Comp.bind_ne_panic (h3 _) fun _ => ?_
      split
      · exact Comp.bind_ne_panic (h2 _) fun _ => by simp [pure]
      · simp [pure]

mutual
theorem optimizeRule_ne_panic {S : Rule → Prop} (hS : Closed refs S) (hix : ∀ r, S r → IndexOk refs r)
    (n : Nat) : (r : Rule) → S r → optimizeRule refs n r ≠ .panic
  | .whitespace _ _, _ => by simp [optimizeRule]
  | .tag _ _ _ _ _, _ => by simp [optimizeRule]
  | .untilAny _ _ _ _, _ => by simp [optimizeRule]
  | .untilAnyOrWs _ _ _ _, _ => by simp [optimizeRule]
  | .text _ _ _, _ => by simp [optimizeRule]
  | .number _ _ _, _ => by simp [optimizeRule]
  | .node _ _ _ _, _ => by simp [optimizeRule]
  | .fastSelect _ _ _ _, _ => by simp [optimizeRule]
  | .sequence args id, hr => by
    rw [optimizeRule]
    exact Comp.bind_ne_panic (Comp.all_ne_panic (optimizeRules_ne_panic hS hix n args fun a ha => hS.2 (.sequence ha) hr))
      fun _ => by simp [pure]
  | .separateBy r b _ _ _, hr => by
    rw [optimizeRule]
    exact Comp.bind_ne_panic (optimizeRule_ne_panic hS hix n r (hS.2 .item hr)) fun _ =>
      Comp.bind_ne_panic (optimizeRule_ne_panic hS hix n b (hS.2 .sep hr)) fun _ => by simp [pure]
  | .repeat_ r _ _, hr => by
    rw [optimizeRule]
    exact Comp.bind_ne_panic (optimizeRule_ne_panic hS hix n r (hS.2 .repeat_ hr)) fun _ => by simp [pure]
  | .lines r _ _, hr => by
    rw [optimizeRule]
    exact Comp.bind_ne_panic (optimizeRule_ne_panic hS hix n r (hS.2 .lines hr)) fun _ => by simp [pure]
  | .optional r _, hr => by
    rw [optimizeRule]
    exact Comp.bind_ne_panic (optimizeRule_ne_panic hS hix n r (hS.2 .optional hr)) fun _ => by simp [pure]
  | .not r _, hr => by
    rw [optimizeRule]
    exact Comp.bind_ne_panic (optimizeRule_ne_panic hS hix n r (hS.2 .not hr)) fun _ => by simp [pure]
  | .select args id, hr => by
    rw [optimizeRule]
    exact optimizeSelect_ne_panic
      (uniqueLoop_ne_panic fun a ha => uniqueByte_ne_panic hS hix n a (hS.2 (.select ha) hr))
      (optimizeRules_ne_panic hS hix n args fun a ha => hS.2 (.select ha) hr)
theorem optimizeRules_ne_panic {S : Rule → Prop} (hS : Closed refs S) (hix : ∀ r, S r → IndexOk refs r)
    (n : Nat) : (rs : List Rule) → (∀ r ∈ rs, S r) → ∀ x ∈ optimizeRules refs n rs, x ≠ .panic
  | [], _, x, hx => by simp [optimizeRules] at hx
  | r :: rs, h, x, hx => by
    rcases List.mem_cons.1 (by simpa [optimizeRules] using hx) with rfl | hx
    · exact optimizeRule_ne_panic hS hix n r (h r (by simp))
    · exact optimizeRules_ne_panic hS hix n rs (fun r hr => h r (by simp [hr])) x hx
end

theorem optimize_ne_panic {syn : Syntax} (hs : SyntaxOk syn) (n : Nat) : syn.optimize n ≠ .panic := by
  have hcl : Closed syn.rules (Part syn.rules) := ⟨fun q hq => ⟨q, hq, .refl⟩, fun hc ⟨q, hq, hr⟩ =>
    ⟨q, hq, Occurs.trans (.step .refl hc) hr⟩⟩
  have hix : ∀ r, Part syn.rules r → IndexOk syn.rules r := by
    rintro x ⟨q, hq, hx⟩
    exact hs q hq x hx
  refine Comp.bind_ne_panic (Comp.all_ne_panic ?_) fun _ => by simp [pure]
  rw [← optimizeRules_eq]
  exact optimizeRules_ne_panic hcl hix n _ fun r hr => ⟨r, hr, .refl⟩

theorem optimize_mono {n m : Nat} (hnm : n ≤ m) {syn syn' : Syntax} (h : syn.optimize n = .ok syn') :
    syn.optimize m = .ok syn' := by
  obtain ⟨a, ha, h'⟩ := Comp.bind_ok.1 h
  exact Comp.bind_ok.2 ⟨a, Comp.all_mono (fun r _ b hb => optimizeRule_mono hnm r b hb) ha, h'⟩

end Verif
