import Verif.Proofs.OptTotal
/-
Optimizing rules that are optimized.
-/
namespace Verif
open Spec

variable {refs refs' : List Rule} {m : Nat}

/-- Related one by one. -/
theorem Comp.all_map_get {α β : Type} {f : α → Comp β} : ∀ {l : List α} {x : List β}, Comp.all (l.map f) = .ok x → ∀ i : Nat,
    (l[i]? = none ∧ x[i]? = none) ∨ ∃ a b, l[i]? = some a ∧ x[i]? = some b ∧ f a = .ok b
  | [], x, h, i => by simp [Comp.all] at h; subst h; simp
  | a :: l, x, h, i => by
    obtain ⟨b, bs, h1, h2, rfl⟩ := Comp.all_cons_ok.1 h
    cases i with
    | zero => exact .inr ⟨a, b, rfl, rfl, h1⟩
    | succ i => simpa using Comp.all_map_get h2 i

/-- A select stays a select with as many alternatives, or becomes a table, if it has two or more. -/
theorem optimizeRule_select {n : Nat} {args : List Rule} {id r'} (h : optimizeRule refs n (.select args id) = .ok r') :
    ∃ args', Comp.all (args.map (optimizeRule refs n)) = .ok args' ∧
      (r' = .select args' id ∨ (2 ≤ args.length ∧ ∃ t as tl, r' = .fastSelect t as tl id)) := by
  simp only [optimizeRule, optimizeRules_eq] at h
  obtain ⟨t, u, args', ht, h1, h2⟩ := optimizeSelect_ok (by simp) h
  refine ⟨args', h1, ?_⟩
  rcases h2 with ⟨-, rfl⟩ | ⟨h2, h3, rfl⟩ | ⟨h2, h3, rfl⟩
  · exact .inl rfl
  · exact .inr ⟨by omega, _, _, _, rfl⟩
  · exact .inr ⟨by omega, _, _, _, rfl⟩

theorem uniqueByte_opt (hr : Comp.all (refs.map (optimizeRule refs m)) = .ok refs') : ∀ (n : Nat) {r r' : Rule},
    optimizeRule refs m r = .ok r' → uniqueByte refs' n r' = uniqueByte refs n r
  | 0, _, _, _ => rfl
  | n + 1, r, r', h => by
    have ih := @uniqueByte_opt hr n
    cases r with
    | whitespace | tag | untilAny | untilAnyOrWs | text | number | fastSelect =>
      simp only [optimizeRule, Comp.ok.injEq] at h
      subst h
      rfl
    | node name prop index id =>
      simp only [optimizeRule, Comp.ok.injEq] at h
      subst h
      cases index with
      | none => rfl
      | some i =>
        simp only [uniqueByte]
        rcases Comp.all_map_get hr i with ⟨h1, h2⟩ | ⟨a, b, h1, h2, h3⟩
        · rw [h1, h2]
        · rw [h1, h2]
          exact ih h3
    | sequence args id =>
      simp only [optimizeRule, optimizeRules_eq] at h
      obtain ⟨as, h1, h2⟩ := Comp.bind_ok.1 h
      cases h2
      cases args with
      | nil => simp [Comp.all] at h1; subst h1; rfl
      | cons a l =>
        obtain ⟨b, bs, h3, h2, rfl⟩ := Comp.all_cons_ok.1 h1
        exact ih h3
    | separateBy a b o t id =>
      simp only [optimizeRule] at h
      obtain ⟨a', h1, h2⟩ := Comp.bind_ok.1 h
      obtain ⟨b', h2, h3⟩ := Comp.bind_ok.1 h2
      cases h3
      simp only [uniqueByte]
      rw [ih h1]
    | repeat_ a o id =>
      simp only [optimizeRule] at h
      obtain ⟨a', h1, h2⟩ := Comp.bind_ok.1 h
      cases h2
      simp only [uniqueByte]
      rw [ih h1]
    | lines a i id =>
      simp only [optimizeRule] at h
      obtain ⟨a', h1, h2⟩ := Comp.bind_ok.1 h
      cases h2
      rfl
    | optional a id =>
      simp only [optimizeRule] at h
      obtain ⟨a', h1, h2⟩ := Comp.bind_ok.1 h
      cases h2
      rfl
    | not a id =>
      simp only [optimizeRule] at h
      obtain ⟨a', h1, h2⟩ := Comp.bind_ok.1 h
      cases h2
      cases a with
      | not c id' =>
        simp only [optimizeRule] at h1
        obtain ⟨c', h3, h2⟩ := Comp.bind_ok.1 h1
        cases h2
        exact ih h3
      | whitespace | tag | untilAny | untilAnyOrWs | text | number | fastSelect | node =>
        simp only [optimizeRule, Comp.ok.injEq] at h1
        subst h1
        rfl
      | sequence | repeat_ | lines | optional =>
        simp only [optimizeRule, optimizeRules_eq] at h1
        obtain ⟨as, h1, h2⟩ := Comp.bind_ok.1 h1
        cases h2
        rfl
      | separateBy =>
        simp only [optimizeRule] at h1
        obtain ⟨a', h1, h2⟩ := Comp.bind_ok.1 h1
        obtain ⟨b', h2, h3⟩ := Comp.bind_ok.1 h2
        cases h3
        rfl
      | select args id' =>
        obtain ⟨as, h1, rfl | ⟨-, t, as', tl, rfl⟩⟩ := optimizeRule_select h1 <;> rfl
    | select args id =>
      obtain ⟨as, h1, rfl | ⟨h2, t, as', tl, rfl⟩⟩ := optimizeRule_select h
      · match args, h1 with
        | [], h1 => simp [Comp.all] at h1; subst h1; rfl
        | [a], h1 =>
          obtain ⟨b, bs, h3, h2, rfl⟩ := Comp.all_cons_ok.1 h1
          simp [Comp.all] at h2
          subst h2
          exact ih h3
        | a :: a' :: l, h1 =>
          obtain ⟨b, bs, h1, h2, rfl⟩ := Comp.all_cons_ok.1 h1
          obtain ⟨b', bs', h3, h4, rfl⟩ := Comp.all_cons_ok.1 h2
          rfl
      · match args, h2 with
        | a :: a' :: l, _ => rfl

theorem uniqueLoop_opt (hr : Comp.all (refs.map (optimizeRule refs m)) = .ok refs') (n : Nat) :
    ∀ {l l' : List Rule} (_ : Comp.all (l.map (optimizeRule refs m)) = .ok l') (i : Nat) (t : Table) (u : Nat),
    uniqueLoop refs' n i l' t u = uniqueLoop refs n i l t u
  | [], l', h, i, t, u => by simp [Comp.all] at h; subst h; rfl
  | r :: l, l', h, i, t, u => by
    obtain ⟨b, bs, h1, h2, rfl⟩ := Comp.all_cons_ok.1 h
    simp only [uniqueLoop, uniqueByte_opt hr n h1, uniqueLoop_opt hr n h2]

theorem uniqueTable_opt (hr : Comp.all (refs.map (optimizeRule refs m)) = .ok refs') (n : Nat) {l l' : List Rule}
    (h : Comp.all (l.map (optimizeRule refs m)) = .ok l') : uniqueTable refs' n l' = uniqueTable refs n l :=
  uniqueLoop_opt hr n h 0 _ 0

mutual
/-- An optimized rule is optimized already. -/
theorem optimizeRule_opt (hr : Comp.all (refs.map (optimizeRule refs m)) = .ok refs') : (r r' : Rule) →
    optimizeRule refs m r = .ok r' → optimizeRule refs' m r' = .ok r'
  | .whitespace _ _, _, h => by cases (by simpa [optimizeRule] using h : _ = _); simp [optimizeRule]
  | .tag _ _ _ _ _, _, h => by cases (by simpa [optimizeRule] using h : _ = _); simp [optimizeRule]
  | .untilAny _ _ _ _, _, h => by cases (by simpa [optimizeRule] using h : _ = _); simp [optimizeRule]
  | .untilAnyOrWs _ _ _ _, _, h => by cases (by simpa [optimizeRule] using h : _ = _); simp [optimizeRule]
  | .text _ _ _, _, h => by cases (by simpa [optimizeRule] using h : _ = _); simp [optimizeRule]
  | .number _ _ _, _, h => by cases (by simpa [optimizeRule] using h : _ = _); simp [optimizeRule]
  | .node _ _ _ _, _, h => by cases (by simpa [optimizeRule] using h : _ = _); simp [optimizeRule]
  | .fastSelect _ _ _ _, _, h => by cases (by simpa [optimizeRule] using h : _ = _); simp [optimizeRule]
  | .sequence args id, _, h => by
    simp only [optimizeRule, optimizeRules_eq] at h
    obtain ⟨args', h1, h2⟩ := Comp.bind_ok.1 h
    cases h2
    simp only [optimizeRule, optimizeRules_eq]
    exact Comp.bind_ok.2 ⟨args', optimizeRules_opt hr args _ h1, rfl⟩
  | .separateBy r b _ _ _, _, h => by
    simp only [optimizeRule] at h
    obtain ⟨r', h1, h2⟩ := Comp.bind_ok.1 h
    obtain ⟨b', h3, h4⟩ := Comp.bind_ok.1 h2
    cases h4
    simp only [optimizeRule]
    exact Comp.bind_ok.2 ⟨r', optimizeRule_opt hr r _ h1, Comp.bind_ok.2 ⟨b', optimizeRule_opt hr b _ h3, rfl⟩⟩
  | .repeat_ r _ _, _, h => by
    simp only [optimizeRule] at h
    obtain ⟨r', h1, h2⟩ := Comp.bind_ok.1 h
    cases h2
    simp only [optimizeRule]
    exact Comp.bind_ok.2 ⟨r', optimizeRule_opt hr r _ h1, rfl⟩
  | .lines r _ _, _, h => by
    simp only [optimizeRule] at h
    obtain ⟨r', h1, h2⟩ := Comp.bind_ok.1 h
    cases h2
    simp only [optimizeRule]
    exact Comp.bind_ok.2 ⟨r', optimizeRule_opt hr r _ h1, rfl⟩
  | .optional r _, _, h => by
    simp only [optimizeRule] at h
    obtain ⟨r', h1, h2⟩ := Comp.bind_ok.1 h
    cases h2
    simp only [optimizeRule]
    exact Comp.bind_ok.2 ⟨r', optimizeRule_opt hr r _ h1, rfl⟩
  | .not r _, _, h => by
    simp only [optimizeRule] at h
    obtain ⟨r', h1, h2⟩ := Comp.bind_ok.1 h
    cases h2
    simp only [optimizeRule]
    exact Comp.bind_ok.2 ⟨r', optimizeRule_opt hr r _ h1, rfl⟩
  | .select args id, _, h => by
    simp only [optimizeRule, optimizeRules_eq] at h
    obtain ⟨t, u, args', ht, h1, h2⟩ := optimizeSelect_ok (by simp) h
    have h1' := optimizeRules_opt hr args _ h1
    have ht' := (uniqueTable_opt hr m h1).trans ht
    rcases h2 with ⟨hu, rfl⟩ | ⟨-, -, rfl⟩ | ⟨-, -, rfl⟩
    · obtain ⟨r'', h3⟩ := optimizeSelect_of (id := id) ht' h1'
      simp only [optimizeRule, optimizeRules_eq]
      rw [h3]
      obtain ⟨t', u', args'', ht'', h4, h5⟩ := optimizeSelect_ok (by simp) h3
      rw [ht'] at ht''
      rw [h1'] at h4
      cases ht''
      cases h4
      rcases h5 with ⟨-, rfl⟩ | ⟨h5, -⟩ | ⟨h5, -⟩
      · rfl
      · omega
      · omega
    · simp [optimizeRule]
    · simp [optimizeRule]
theorem optimizeRules_opt (hr : Comp.all (refs.map (optimizeRule refs m)) = .ok refs') : (l l' : List Rule) →
    Comp.all (l.map (optimizeRule refs m)) = .ok l' → Comp.all (l'.map (optimizeRule refs' m)) = .ok l'
  | [], l', h => by simp [Comp.all] at h; subst h; rfl
  | r :: l, l', h => by
    obtain ⟨b, bs, h1, h2, rfl⟩ := Comp.all_cons_ok.1 h
    exact Comp.all_cons_ok.2 ⟨b, bs, optimizeRule_opt hr r _ h1, optimizeRules_opt hr l _ h2, rfl⟩
end

/-! ### The optimizer as a relation, exactly -/

mutual
theorem optimized_of : (r r' : Rule) → optimizeRule refs m r = .ok r' → Optimized refs r r'
  | .whitespace _ _, _, h => by cases (by simpa [optimizeRule] using h : _ = _); exact .whitespace
  | .tag _ _ _ _ _, _, h => by cases (by simpa [optimizeRule] using h : _ = _); exact .tag
  | .untilAny _ _ _ _, _, h => by cases (by simpa [optimizeRule] using h : _ = _); exact .untilAny
  | .untilAnyOrWs _ _ _ _, _, h => by cases (by simpa [optimizeRule] using h : _ = _); exact .untilAnyOrWs
  | .text _ _ _, _, h => by cases (by simpa [optimizeRule] using h : _ = _); exact .text
  | .number _ _ _, _, h => by cases (by simpa [optimizeRule] using h : _ = _); exact .number
  | .node _ _ _ _, _, h => by cases (by simpa [optimizeRule] using h : _ = _); exact .node
  | .fastSelect _ _ _ _, _, h => by cases (by simpa [optimizeRule] using h : _ = _); exact .fastSelect
  | .sequence args id, _, h => by
    simp only [optimizeRule, optimizeRules_eq] at h
    obtain ⟨args', h1, h2⟩ := Comp.bind_ok.1 h
    cases h2
    exact .sequence (optimizedL_of args _ h1)
  | .separateBy r b _ _ _, _, h => by
    simp only [optimizeRule] at h
    obtain ⟨r', h1, h2⟩ := Comp.bind_ok.1 h
    obtain ⟨b', h3, h4⟩ := Comp.bind_ok.1 h2
    cases h4
    exact .separateBy (optimized_of r _ h1) (optimized_of b _ h3)
  | .repeat_ r _ _, _, h => by
    simp only [optimizeRule] at h
    obtain ⟨r', h1, h2⟩ := Comp.bind_ok.1 h
    cases h2
    exact .repeat_ (optimized_of r _ h1)
  | .lines r _ _, _, h => by
    simp only [optimizeRule] at h
    obtain ⟨r', h1, h2⟩ := Comp.bind_ok.1 h
    cases h2
    exact .lines (optimized_of r _ h1)
  | .optional r _, _, h => by
    simp only [optimizeRule] at h
    obtain ⟨r', h1, h2⟩ := Comp.bind_ok.1 h
    cases h2
    exact .optional (optimized_of r _ h1)
  | .not r _, _, h => by
    simp only [optimizeRule] at h
    obtain ⟨r', h1, h2⟩ := Comp.bind_ok.1 h
    cases h2
    exact .not (optimized_of r _ h1)
  | .select args id, _, h => by
    simp only [optimizeRule, optimizeRules_eq] at h
    obtain ⟨t, u, args', ht, h1, h2⟩ := optimizeSelect_ok (by simp) h
    have hl := optimizedL_of args _ h1
    rcases h2 with ⟨hu, rfl⟩ | ⟨hu, rfl, rfl⟩ | ⟨hu, hu', rfl⟩
    · exact .select ⟨_, ht⟩ hu hl
    · exact .table ⟨_, ht⟩ hu hl
    · exact .tableTail ⟨_, ht⟩ hu hu' hl
theorem optimizedL_of : (l l' : List Rule) → Comp.all (l.map (optimizeRule refs m)) = .ok l' → OptimizedL refs l l'
  | [], l', h => by simp [Comp.all] at h; subst h; exact .nil
  | r :: l, l', h => by
    obtain ⟨b, bs, h1, h2, rfl⟩ := Comp.all_cons_ok.1 h
    exact .cons (optimized_of r _ h1) (optimizedL_of l _ h2)
end

theorem all_opt_mono {n : Nat} (h : m ≤ n) {l l' : List Rule} (hl : Comp.all (l.map (optimizeRule refs m)) = .ok l') :
    Comp.all (l.map (optimizeRule refs n)) = .ok l' :=
  Comp.all_mono (fun r _ b hb => optimizeRule_mono h r b hb) hl

theorem optimizeSelect_to {args args' : List Rule} {id t u} (hn : UniqueTable refs args t u)
    (hl : ∃ n, Comp.all (args.map (optimizeRule refs n)) = .ok args') :
    ∃ n r', optimizeRule refs n (.select args id) = .ok r' ∧
      ((u < 2 ∧ r' = .select args' id) ∨
       (2 ≤ u ∧ u = args.length ∧ r' = .fastSelect t args' false id) ∨
       (2 ≤ u ∧ u < args.length ∧
        r' = .fastSelect t (args'.take u ++ [.select (args'.drop u) id]) true id)) := by
  obtain ⟨a, hn⟩ := hn
  obtain ⟨b, hl⟩ := hl
  have h1 := uniqueTable_mono (Nat.le_max_left a b) hn
  have h2 := all_opt_mono (Nat.le_max_right a b) hl
  obtain ⟨r', h3⟩ := optimizeSelect_of (id := id) h1 h2
  refine ⟨max a b, r', by rw [optimizeRule, optimizeRules_eq]; exact h3, ?_⟩
  obtain ⟨t', u', args'', ht'', h4, h5⟩ := optimizeSelect_ok (by simp) h3
  rw [h1] at ht''
  rw [h2] at h4
  cases ht''
  cases h4
  exact h5

mutual
theorem of_optimized : {r r' : Rule} → Optimized refs r r' → ∃ n, optimizeRule refs n r = .ok r'
  | _, _, .whitespace => ⟨0, by simp [optimizeRule]⟩
  | _, _, .tag => ⟨0, by simp [optimizeRule]⟩
  | _, _, .untilAny => ⟨0, by simp [optimizeRule]⟩
  | _, _, .untilAnyOrWs => ⟨0, by simp [optimizeRule]⟩
  | _, _, .text => ⟨0, by simp [optimizeRule]⟩
  | _, _, .number => ⟨0, by simp [optimizeRule]⟩
  | _, _, .node => ⟨0, by simp [optimizeRule]⟩
  | _, _, .fastSelect => ⟨0, by simp [optimizeRule]⟩
  | _, _, .sequence h => by
    obtain ⟨n, h⟩ := of_optimizedL h
    refine ⟨n, ?_⟩
    simp only [optimizeRule, optimizeRules_eq]
    exact Comp.bind_ok.2 ⟨_, h, rfl⟩
  | _, _, .separateBy h h' => by
    obtain ⟨a, h⟩ := of_optimized h
    obtain ⟨b, h'⟩ := of_optimized h'
    refine ⟨max a b, ?_⟩
    simp only [optimizeRule]
    exact Comp.bind_ok.2 ⟨_, optimizeRule_mono (Nat.le_max_left a b) _ _ h,
      Comp.bind_ok.2 ⟨_, optimizeRule_mono (Nat.le_max_right a b) _ _ h', rfl⟩⟩
  | _, _, .repeat_ h => by
    obtain ⟨n, h⟩ := of_optimized h
    refine ⟨n, ?_⟩
    simp only [optimizeRule]
    exact Comp.bind_ok.2 ⟨_, h, rfl⟩
  | _, _, .lines h => by
    obtain ⟨n, h⟩ := of_optimized h
    refine ⟨n, ?_⟩
    simp only [optimizeRule]
    exact Comp.bind_ok.2 ⟨_, h, rfl⟩
  | _, _, .optional h => by
    obtain ⟨n, h⟩ := of_optimized h
    refine ⟨n, ?_⟩
    simp only [optimizeRule]
    exact Comp.bind_ok.2 ⟨_, h, rfl⟩
  | _, _, .not h => by
    obtain ⟨n, h⟩ := of_optimized h
    refine ⟨n, ?_⟩
    simp only [optimizeRule]
    exact Comp.bind_ok.2 ⟨_, h, rfl⟩
  | _, _, .select ht hu h => by
    obtain ⟨n, r', h1, ⟨-, rfl⟩ | ⟨h2, -⟩ | ⟨h2, -⟩⟩ := optimizeSelect_to ht (of_optimizedL h)
    · exact ⟨n, h1⟩
    · omega
    · omega
  | _, _, .table ht hu h => by
    obtain ⟨n, r', h1, ⟨h2, -⟩ | ⟨-, -, rfl⟩ | ⟨-, h2, -⟩⟩ := optimizeSelect_to ht (of_optimizedL h)
    · omega
    · exact ⟨n, h1⟩
    · omega
  | _, _, .tableTail ht hu hu' h => by
    obtain ⟨n, r', h1, ⟨h2, -⟩ | ⟨-, h2, -⟩ | ⟨-, -, rfl⟩⟩ := optimizeSelect_to ht (of_optimizedL h)
    · omega
    · omega
    · exact ⟨n, h1⟩
theorem of_optimizedL : {l l' : List Rule} → OptimizedL refs l l' →
    ∃ n, Comp.all (l.map (optimizeRule refs n)) = .ok l'
  | _, _, .nil => ⟨0, rfl⟩
  | _, _, .cons h hs => by
    obtain ⟨a, h⟩ := of_optimized h
    obtain ⟨b, hs⟩ := of_optimizedL hs
    exact ⟨max a b, Comp.all_cons_ok.2 ⟨_, _, optimizeRule_mono (Nat.le_max_left a b) _ _ h,
      all_opt_mono (Nat.le_max_right a b) hs, rfl⟩⟩
end

end Verif
