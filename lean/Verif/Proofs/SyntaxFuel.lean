import Verif.Model.Syntax
import Verif.Proofs.ConvertFuel
import Verif.Proofs.Fuel
/-
The cut off: whatever `optimize`, `parse` and `syntax` give, they give with every larger cut off.
-/
namespace Verif

/-- The first is cut off, or both are the same. -/
def Comp.le {α : Type} (x y : Comp α) : Prop := x = .timeout ∨ x = y

theorem Comp.le.refl {α : Type} (x : Comp α) : x.le x := .inr rfl

theorem Comp.le.eq {α : Type} {x y : Comp α} (h : x.le y) (hx : x ≠ .timeout) : y = x := by
  rcases h with h | h
  · exact absurd h hx
  · exact h.symm

theorem Comp.le.bind {α β : Type} {x y : Comp α} {f g : α → Comp β} (h : x.le y) (hf : ∀ a, (f a).le (g a)) :
    (x >>= f).le (y >>= g) := by
  rcases h with rfl | rfl
  · exact .inl rfl
  · cases x with
    | ok a => exact hf a
    | panic => exact .inr rfl
    | timeout => exact .inl rfl

theorem Comp.le.all {α β : Type} {f g : α → Comp β} : ∀ {xs : List α}, (∀ x ∈ xs, (f x).le (g x)) →
    (Comp.all (xs.map f)).le (Comp.all (xs.map g))
  | [], _ => .inr rfl
  | x :: xs, h => by
    have h2 := Comp.le.all (xs := xs) fun y hy => h y (by simp [hy])
    simp only [List.map_cons, Comp.all]
    rcases h x (by simp) with h1 | h1
    · rw [h1]; exact .inl rfl
    · rw [← h1]
      cases f x with
      | ok a =>
        rcases h2 with h2 | h2
        · simp only [h2]; exact .inl rfl
        · rw [h2]; exact .inr rfl
      | panic => exact .inr rfl
      | timeout => exact .inl rfl

variable {refs : List Rule}

theorem uniqueByte_le : ∀ {n m : Nat}, n ≤ m → ∀ r, (uniqueByte refs n r).le (uniqueByte refs m r)
  | 0, _, _, _ => .inl rfl
  | n + 1, 0, h, _ => absurd h (by omega)
  | n + 1, m + 1, h, r => by
    have ih := uniqueByte_le (n := n) (m := m) (by omega)
    unfold uniqueByte
    split <;> first
      | exact .inr rfl
      | exact ih _
      | (split <;> first | exact .inr rfl | exact ih _)

theorem uniqueLoop_le {n m : Nat} (hnm : n ≤ m) : ∀ (rs : List Rule) (i t u),
    (uniqueLoop refs n i rs t u).le (uniqueLoop refs m i rs t u)
  | [], _, _, _ => .inr rfl
  | r :: rs, i, t, u => by
    unfold uniqueLoop
    split
    · exact .inr rfl
    · rcases uniqueByte_le (refs := refs) hnm r with h | h
      · rw [h]; exact .inl rfl
      · rw [← h]
        split
        · split
          · exact uniqueLoop_le hnm rs _ _ _
          · exact .inr rfl
        · exact .inr rfl
        · exact .inr rfl
        · exact .inl rfl

theorem optRules_map (n : Nat) : ∀ rs : List Rule, optimizeRules refs n rs = rs.map (optimizeRule refs n)
  | [] => by simp [optimizeRules]
  | r :: rs => by simp [optimizeRules, optRules_map n rs]

theorem optimizeSelect_le {n m : Nat} (hnm : n ≤ m) {args id}
    (h : ∀ a ∈ args, (optimizeRule refs n a).le (optimizeRule refs m a)) :
    (optimizeSelect refs n args (optimizeRules refs n args) id).le
      (optimizeSelect refs m args (optimizeRules refs m args) id) := by
  rw [optRules_map, optRules_map]
  have h1 := Comp.le.all h
  have h2 : ∀ k, (Comp.all ((args.map (optimizeRule refs n)).drop k)).le
      (Comp.all ((args.map (optimizeRule refs m)).drop k)) := by
    intro k
    rw [← List.map_drop, ← List.map_drop]
    exact Comp.le.all fun a ha => h a (List.mem_of_mem_drop ha)
  have h3 : ∀ k, (Comp.all ((args.map (optimizeRule refs n)).take k)).le
      (Comp.all ((args.map (optimizeRule refs m)).take k)) := by
    intro k
    rw [← List.map_take, ← List.map_take]
    exact Comp.le.all fun a ha => h a (List.mem_of_mem_take ha)
  unfold optimizeSelect
  rcases uniqueLoop_le (refs := refs) hnm args 0 (fun _ => 255) 0 with e | e
  · simp only [uniqueTable, e]; exact .inl rfl
  · simp only [uniqueTable, ← e]
    split
    · exact .inr rfl
    · exact .inl rfl
    · split
      · split
        · exact .bind (h2 1) fun _ => .bind h1 fun _ => .refl _
        · exact .bind h1 fun _ => .refl _
      · refine .bind (h3 _) fun _ => ?_
        split
        · exact .bind (h2 _) fun _ => .refl _
        · exact .refl _

mutual
theorem optimizeRule_le {n m : Nat} (hnm : n ≤ m) : (r : Rule) → (optimizeRule refs n r).le (optimizeRule refs m r)
  | .whitespace _ _ => by simp only [optimizeRule]; exact .inr rfl
  | .tag _ _ _ _ _ => by simp only [optimizeRule]; exact .inr rfl
  | .untilAny _ _ _ _ => by simp only [optimizeRule]; exact .inr rfl
  | .untilAnyOrWs _ _ _ _ => by simp only [optimizeRule]; exact .inr rfl
  | .text _ _ _ => by simp only [optimizeRule]; exact .inr rfl
  | .number _ _ _ => by simp only [optimizeRule]; exact .inr rfl
  | .node _ _ _ _ => by simp only [optimizeRule]; exact .inr rfl
  | .fastSelect _ _ _ _ => by simp only [optimizeRule]; exact .inr rfl
  | .sequence args id => by
    simp only [optimizeRule, optRules_map]
    exact .bind (.all (optimizeRules_le hnm args)) fun _ => .refl _
  | .separateBy r b _ _ _ => by
    simp only [optimizeRule]
    exact .bind (optimizeRule_le hnm r) fun _ => .bind (optimizeRule_le hnm b) fun _ => .refl _
  | .repeat_ r _ _ => by
    simp only [optimizeRule]
    exact .bind (optimizeRule_le hnm r) fun _ => .refl _
  | .lines r _ _ => by
    simp only [optimizeRule]
    exact .bind (optimizeRule_le hnm r) fun _ => .refl _
  | .optional r _ => by
    simp only [optimizeRule]
    exact .bind (optimizeRule_le hnm r) fun _ => .refl _
  | .not r _ => by
    simp only [optimizeRule]
    exact .bind (optimizeRule_le hnm r) fun _ => .refl _
  | .select args id => by
    simp only [optimizeRule]
    exact optimizeSelect_le hnm (optimizeRules_le hnm args)
theorem optimizeRules_le {n m : Nat} (hnm : n ≤ m) : (rs : List Rule) →
    ∀ r ∈ rs, (optimizeRule refs n r).le (optimizeRule refs m r)
  | [], _, h => by simp at h
  | a :: as, r, h => by
    rcases List.mem_cons.1 h with e | h
    · rw [e]; exact optimizeRule_le hnm a
    · exact optimizeRules_le hnm as r h
end

theorem optimize_le {n m : Nat} (hnm : n ≤ m) (syn : Syntax) : (syn.optimize n).le (syn.optimize m) :=
  .bind (.all fun r _ => optimizeRule_le hnm r) fun _ => .refl _

theorem parse_mono {L : Lexer} {n m : Nat} (hnm : n ≤ m) {syn text toks ind}
    (h : parseWithIndent L n syn text toks ind ≠ .timeout) :
    parseWithIndent L m syn text toks ind = parseWithIndent L n syn text toks ind := by
  unfold parseWithIndent at h ⊢
  split
  · rfl
  · rename_i r hr
    simp only [hr] at h
    cases he : eval L syn.rules n r ⟨toks, ind⟩ toks.length (Pos.new text 0) with
    | timeout => simp [he] at h
    | panic => rw [eval_mono hnm he (by simp)]
    | ret res st => rw [eval_mono hnm he (by simp)]

theorem convert_le {n m : Nat} (hnm : n ≤ m) (data : List Tok) (ig : List Range) :
    (convert n data ig).le (convert m data ig) := by
  by_cases h : convert n data ig = .timeout
  · exact .inl h
  · exact .inr (convert_mono hnm h).symm

theorem readSyntax_le {L : Lexer} {n m : Nat} (hnm : n ≤ m) (text : Str) :
    (readSyntax L n text).le (readSyntax L m text) := by
  refine .bind (optimize_le hnm _) fun bs => ?_
  by_cases h : parse L n bs text [] = .timeout
  · rw [h]; exact .inl rfl
  · have : parse L m bs text [] = parse L n bs text [] := parse_mono hnm h
    rw [this]
    cases parse L n bs text [] with
    | timeout => exact .inl rfl
    | panic => exact .inr rfl
    | err e t => exact .inr rfl
    | ok toks =>
      refine .bind (convert_le hnm toks []) fun ⟨o, _⟩ => ?_
      cases o with
      | none => exact .refl _
      | some res => exact .bind (optimize_le hnm res) fun _ => .refl _

end Verif
