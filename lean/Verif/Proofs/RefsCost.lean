import Verif.Spec.RefsCost
import Verif.Proofs.OptCost
/-
The numbers of `update_refs`.
-/
namespace Verif
open Spec

theorem findNameCounted_eq (name : Str) (names : List Str) : ∀ i,
    findNameCounted name i names = (findName name i names, lookedAt name names) := by
  induction names with
  | nil => intro i; rfl
  | cons r rs ih =>
    intro i
    simp only [findNameCounted, findName, ih, lookedAt, List.findIdx?_cons]
    by_cases h : name = r
    · simp [h]
    · simp only [h, if_false, decide_false]
      cases rs.findIdx? (name = ·) <;> simp

mutual
theorem updateRefsCounted_eq (names : List Str) : (r : Rule) → Rule.updateRefsCounted names r =
    (Rule.updateRefs names r, outerSize r, ((openRefs r).map (lookedAt · names)).sum)
  | .node name prop none id => by simp [Rule.updateRefsCounted, findNameCounted_eq, Rule.updateRefs, outerSize, openRefs]
  | .node name prop (some i) id => by simp [Rule.updateRefsCounted, Rule.updateRefs, outerSize, openRefs]
  | .whitespace .. | .tag .. | .untilAny .. | .untilAnyOrWs .. | .text .. | .number .. | .fastSelect .. => by
    simp [Rule.updateRefsCounted, Rule.updateRefs, outerSize, openRefs]
  | .select args id => by
    simp [Rule.updateRefsCounted, Rule.updateRefs, outerSize, openRefs, updateRefsCountedL_eq names args]
  | .sequence args id => by
    simp [Rule.updateRefsCounted, Rule.updateRefs, outerSize, openRefs, updateRefsCountedL_eq names args]
  | .separateBy r b o t id => by
    simp [Rule.updateRefsCounted, Rule.updateRefs, outerSize, openRefs, updateRefsCounted_eq names r,
      updateRefsCounted_eq names b]
  | .repeat_ r o id | .lines r o id => by
    simp [Rule.updateRefsCounted, Rule.updateRefs, outerSize, openRefs, updateRefsCounted_eq names r]
  | .optional r id | .not r id => by
    simp [Rule.updateRefsCounted, Rule.updateRefs, outerSize, openRefs, updateRefsCounted_eq names r]
theorem updateRefsCountedL_eq (names : List Str) : (rs : List Rule) → Rule.updateRefsCountedL names rs =
    (Rule.updateRefsL names rs, outerSizes rs, ((openRefsL rs).map (lookedAt · names)).sum)
  | [] => rfl
  | r :: rs => by
    simp [Rule.updateRefsCountedL, Rule.updateRefsL, outerSizes, openRefsL, updateRefsCounted_eq names r,
      updateRefsCountedL_eq names rs]
end

theorem lookedAt_le (name : Str) (names : List Str) : lookedAt name names ≤ names.length := by
  unfold lookedAt
  cases h : names.findIdx? (name = ·) with
  | none => exact Nat.le_refl _
  | some i => exact (List.findIdx?_eq_some_iff_findIdx_eq.1 h).1

theorem lookedAt_sum (l names : List Str) : (l.map (lookedAt · names)).sum ≤ l.length * names.length := by
  induction l with
  | nil => simp
  | cons a l ih =>
    have := lookedAt_le a names
    rw [List.map_cons, List.sum_cons, List.length_cons, Nat.add_mul]
    omega

mutual
theorem openRefs_length : (r : Rule) → (openRefs r).length ≤ outerSize r
  | .node name prop none id => by simp [openRefs, outerSize]
  | .node name prop (some i) id => by simp [openRefs, outerSize]
  | .whitespace .. | .tag .. | .untilAny .. | .untilAnyOrWs .. | .text .. | .number .. | .fastSelect .. => by
    simp [openRefs, outerSize]
  | .select args id | .sequence args id => by
    have := openRefsL_length args
    simp only [openRefs, outerSize]; omega
  | .separateBy r b o t id => by
    have := openRefs_length r
    have := openRefs_length b
    simp only [openRefs, outerSize, List.length_append]; omega
  | .repeat_ r o id | .lines r o id => by
    have := openRefs_length r
    simp only [openRefs, outerSize]; omega
  | .optional r id | .not r id => by
    have := openRefs_length r
    simp only [openRefs, outerSize]; omega
theorem openRefsL_length : (rs : List Rule) → (openRefsL rs).length ≤ outerSizes rs
  | [] => by simp [openRefsL]
  | r :: rs => by
    have := openRefs_length r
    have := openRefsL_length rs
    simp only [openRefsL, outerSizes, List.length_append]; omega
end

mutual
theorem outerSize_updateRefs (names : List Str) : (r : Rule) → outerSize (Rule.updateRefs names r) = outerSize r
  | .node name prop none id => by simp [Rule.updateRefs, outerSize]
  | .node name prop (some i) id => by simp [Rule.updateRefs, outerSize]
  | .whitespace .. | .tag .. | .untilAny .. | .untilAnyOrWs .. | .text .. | .number .. | .fastSelect .. => by
    simp [Rule.updateRefs, outerSize]
  | .select args id | .sequence args id => by simp [Rule.updateRefs, outerSize, outerSizes_updateRefs names args]
  | .separateBy r b o t id => by
    simp [Rule.updateRefs, outerSize, outerSize_updateRefs names r, outerSize_updateRefs names b]
  | .repeat_ r o id | .lines r o id => by simp [Rule.updateRefs, outerSize, outerSize_updateRefs names r]
  | .optional r id | .not r id => by simp [Rule.updateRefs, outerSize, outerSize_updateRefs names r]
theorem outerSizes_updateRefs (names : List Str) : (rs : List Rule) →
    outerSizes (Rule.updateRefsL names rs) = outerSizes rs
  | [] => rfl
  | r :: rs => by simp [Rule.updateRefsL, outerSizes, outerSize_updateRefs names r, outerSizes_updateRefs names rs]
end

mutual
/-- Only the references to no rule are left. -/
theorem openRefs_updateRefs (names : List Str) : (r : Rule) →
    openRefs (Rule.updateRefs names r) = (openRefs r).filter (· ∉ names)
  | .node name prop none id => by
    have h := findNameCounted_eq name names 0
    have key : ∀ i, findName name i names = none ↔ name ∉ names := by
      clear h
      induction names with
      | nil => simp [findName]
      | cons a l ih =>
        intro i
        by_cases e : name = a
        · simp [findName, e]
        · simp [findName, e, ih]
    simp only [Rule.updateRefs]
    cases e : findName name 0 names with
    | none => simp [openRefs, (key 0).1 e]
    | some i =>
      have : ¬ name ∉ names := fun h => by rw [(key 0).2 h] at e; cases e
      simp only [openRefs, List.filter_cons, this, decide_false]
      rfl
  | .node name prop (some i) id => by simp [Rule.updateRefs, openRefs]
  | .whitespace .. | .tag .. | .untilAny .. | .untilAnyOrWs .. | .text .. | .number .. | .fastSelect .. => by
    simp [Rule.updateRefs, openRefs]
  | .select args id | .sequence args id => by simp only [Rule.updateRefs, openRefs, openRefsL_updateRefs names args]
  | .separateBy r b o t id => by
    simp only [Rule.updateRefs, openRefs, openRefs_updateRefs names r, openRefs_updateRefs names b, List.filter_append]
  | .repeat_ r o id | .lines r o id => by simp only [Rule.updateRefs, openRefs, openRefs_updateRefs names r]
  | .optional r id | .not r id => by simp only [Rule.updateRefs, openRefs, openRefs_updateRefs names r]
theorem openRefsL_updateRefs (names : List Str) : (rs : List Rule) →
    openRefsL (Rule.updateRefsL names rs) = (openRefsL rs).filter (· ∉ names)
  | [] => rfl
  | r :: rs => by
    simp only [Rule.updateRefsL, openRefsL, openRefs_updateRefs names r, openRefsL_updateRefs names rs, List.filter_append]
end

mutual
theorem updateRefs_twice (names : List Str) : (r : Rule) →
    Rule.updateRefs names (Rule.updateRefs names r) = Rule.updateRefs names r
  | .node name prop none id => by
    simp only [Rule.updateRefs]
    cases e : findName name 0 names with
    | none => simp only [Rule.updateRefs, e]
    | some i => rfl
  | .node name prop (some i) id => rfl
  | .whitespace .. | .tag .. | .untilAny .. | .untilAnyOrWs .. | .text .. | .number .. | .fastSelect .. => rfl
  | .select args id | .sequence args id => by simp only [Rule.updateRefs, updateRefsL_twice names args]
  | .separateBy r b o t id => by simp only [Rule.updateRefs, updateRefs_twice names r, updateRefs_twice names b]
  | .repeat_ r o id | .lines r o id => by simp only [Rule.updateRefs, updateRefs_twice names r]
  | .optional r id | .not r id => by simp only [Rule.updateRefs, updateRefs_twice names r]
theorem updateRefsL_twice (names : List Str) : (rs : List Rule) →
    Rule.updateRefsL names (Rule.updateRefsL names rs) = Rule.updateRefsL names rs
  | [] => rfl
  | r :: rs => by simp only [Rule.updateRefsL, updateRefs_twice names r, updateRefsL_twice names rs]
end

theorem four_mul_le (x y : Nat) : 4 * (x * y) ≤ (x + y) ^ 2 := by
  have key : ∀ x d : Nat, 4 * (x * (x + d)) ≤ (x + (x + d)) ^ 2 := by
    intro x d
    have e := Nat.mul_comm d x
    rw [Nat.pow_two]
    simp only [Nat.mul_add, Nat.add_mul, e]
    omega
  rcases Nat.le_total x y with h | h
  · obtain ⟨d, rfl⟩ := Nat.le.dest h
    exact key x d
  · obtain ⟨d, rfl⟩ := Nat.le.dest h
    rw [Nat.mul_comm (y + d), Nat.add_comm (y + d)]
    exact key y d

theorem updateRefsL_map (names : List Str) (rs : List Rule) : Rule.updateRefsL names rs = rs.map (Rule.updateRefs names) := by
  induction rs with
  | nil => rfl
  | cons r rs ih => rw [Rule.updateRefsL, ih, List.map_cons]

end Verif
