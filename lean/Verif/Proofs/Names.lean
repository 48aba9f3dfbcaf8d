import Verif.Proofs.Relink
import Verif.Proofs.DescRead
import Verif.Props.ConvertRead
/-
Rules under names: only what the names stand for matters.
-/
namespace Verif
open Spec

theorem findName_shift (name : Str) (names : List Str) (k : Nat) :
    findName name k names = (findName name 0 names).map (· + k) := by
  induction names generalizing k with
  | nil => rfl
  | cons a as ih =>
    simp only [findName]
    split
    · simp
    · rw [ih (k + 1), ih (0 + 1), Option.map_map]
      congr 1
      funext x
      simp only [Function.comp_apply]
      omega

/-- Looking up a name gives the first rule of the name. -/
theorem meant_find (name : Str) (rs : List (Str × Rule)) :
    (findName name 0 (rs.map (·.1))).bind (fun i => (rs[i]?).map (·.2)) = meant name rs := by
  induction rs with
  | nil => rfl
  | cons x rs ih =>
    simp only [List.map_cons, findName, meant]
    split
    · simp
    · rw [findName_shift, ← ih]
      cases findName name 0 (rs.map (·.1)) <;> simp

theorem find_none {name : Str} {rs : List (Str × Rule)} (h : findName name 0 (rs.map (·.1)) = none) :
    meant name rs = none := by
  rw [← meant_find, h]
  rfl

theorem find_some {name : Str} {rs : List (Str × Rule)} {i : Nat} (h : findName name 0 (rs.map (·.1)) = some i) :
    (rs[i]?).map (·.2) = meant name rs ∧ meant name rs ≠ none := by
  have h1 := meant_find name rs
  rw [h] at h1
  refine ⟨h1, fun h0 => ?_⟩
  rw [h0] at h1
  have hlt := findName_lt h
  simp at hlt
  simp [List.getElem?_eq_getElem hlt] at h1

/-- What the same name is turned into. -/
def SameName (rs rs' : List (Str × Rule)) (σ : Str → Str) (i j : Nat) : Prop :=
  ∃ name, Met rs name ∧ findName name 0 (rs.map (·.1)) = some i ∧ findName (σ name) 0 (rs'.map (·.1)) = some j

theorem names_child {name : Str} {c r : Rule} (h : Names name c) (hc : Child c r) : Names name r := by
  obtain ⟨p, ix, id, h⟩ := h
  exact ⟨p, ix, id, .step h hc⟩

theorem byName_child {c r : Rule} (h : ByName r) (hc : Child c r) : ByName c :=
  fun n p i id h' => h n p i id (.step h' hc)

section
variable {rs rs' : List (Str × Rule)} {σ : Str → Str}

mutual
theorem relinked_table (ρ : Nat → Nat → Prop) (σ : Str → Str) : (r : Rule) → ByName r → Relinked ρ r (called σ r)
  | .whitespace .., _ => .whitespace
  | .tag .., _ => .tag
  | .untilAny .., _ => .untilAny
  | .untilAnyOrWs .., _ => .untilAnyOrWs
  | .text .., _ => .text
  | .number .., _ => .number
  | .node _ _ none _, _ => .unresolved
  | .node _ _ (some _) _, h => absurd .refl (h _ _ _ _)
  | .select rs _, h => .select (relinked_tables ρ σ rs fun r hr => byName_child h (.select hr))
  | .fastSelect _ rs _ _, h => .fastSelect (relinked_tables ρ σ rs fun r hr => byName_child h (.fast hr))
  | .sequence rs _, h => .sequence (relinked_tables ρ σ rs fun r hr => byName_child h (.sequence hr))
  | .separateBy r b _ _ _, h =>
    .separateBy (relinked_table ρ σ r (byName_child h .item)) (relinked_table ρ σ b (byName_child h .sep))
  | .repeat_ r _ _, h => .repeat_ (relinked_table ρ σ r (byName_child h .repeat_))
  | .lines r _ _, h => .lines (relinked_table ρ σ r (byName_child h .lines))
  | .optional r _, h => .optional (relinked_table ρ σ r (byName_child h .optional))
  | .not r _, h => .not (relinked_table ρ σ r (byName_child h .not))
theorem relinked_tables (ρ : Nat → Nat → Prop) (σ : Str → Str) : (rs : List Rule) → (∀ r ∈ rs, ByName r) →
    RelinkedL ρ rs (calledL σ rs)
  | [], _ => .nil
  | r :: rs, h => .cons (relinked_table ρ σ r (h r (by simp))) (relinked_tables ρ σ rs fun r hr => h r (by simp [hr]))
end

mutual
theorem relinked_names (hm : ∀ name, Met rs name → meant (σ name) rs' = (meant name rs).map (called σ)) :
    (r : Rule) → ByName r → (∀ name, Names name r → Met rs name) →
    Relinked (SameName rs rs' σ) (r.updateRefs (rs.map (·.1))) ((called σ r).updateRefs (rs'.map (·.1)))
  | .whitespace .., _, _ => .whitespace
  | .tag .., _, _ => .tag
  | .untilAny .., _, _ => .untilAny
  | .untilAnyOrWs .., _, _ => .untilAnyOrWs
  | .text .., _, _ => .text
  | .number .., _, _ => .number
  | .node name _ none _, _, hn => by
    have hmet := hn name ⟨_, _, _, .refl⟩
    have h := hm name hmet
    simp only [called, Rule.updateRefs]
    cases h1 : findName name 0 (rs.map (·.1)) with
    | none =>
      cases h2 : findName (σ name) 0 (rs'.map (·.1)) with
      | none => exact .unresolved
      | some j => exact absurd (by rw [h, find_none h1]; rfl) (find_some h2).2
    | some i =>
      cases h2 : findName (σ name) 0 (rs'.map (·.1)) with
      | none =>
        rw [find_none h2] at h
        have := (find_some h1).2
        cases hx : meant name rs with
        | none => exact absurd hx this
        | some r => rw [hx] at h; cases h
      | some j => exact .node ⟨name, hmet, h1, h2⟩
  | .node _ _ (some _) _, h, _ => absurd .refl (h _ _ _ _)
  | .fastSelect _ rs _ _, h, _ => .fastSelect (relinked_tables _ σ rs fun r hr => byName_child h (.fast hr))
  | .select as _, h, hn => .select (relinked_namesL hm as (fun r hr => byName_child h (.select hr))
      fun r hr name h' => hn name (names_child h' (.select hr)))
  | .sequence as _, h, hn => .sequence (relinked_namesL hm as (fun r hr => byName_child h (.sequence hr))
      fun r hr name h' => hn name (names_child h' (.sequence hr)))
  | .separateBy r b _ _ _, h, hn =>
    .separateBy (relinked_names hm r (byName_child h .item) fun name h' => hn name (names_child h' .item))
      (relinked_names hm b (byName_child h .sep) fun name h' => hn name (names_child h' .sep))
  | .repeat_ r _ _, h, hn =>
    .repeat_ (relinked_names hm r (byName_child h .repeat_) fun name h' => hn name (names_child h' .repeat_))
  | .lines r _ _, h, hn =>
    .lines (relinked_names hm r (byName_child h .lines) fun name h' => hn name (names_child h' .lines))
  | .optional r _, h, hn =>
    .optional (relinked_names hm r (byName_child h .optional) fun name h' => hn name (names_child h' .optional))
  | .not r _, h, hn => .not (relinked_names hm r (byName_child h .not) fun name h' => hn name (names_child h' .not))
theorem relinked_namesL (hm : ∀ name, Met rs name → meant (σ name) rs' = (meant name rs).map (called σ)) :
    (as : List Rule) → (∀ r ∈ as, ByName r) → (∀ r ∈ as, ∀ name, Names name r → Met rs name) →
    RelinkedL (SameName rs rs' σ) (Rule.updateRefsL (rs.map (·.1)) as) (Rule.updateRefsL (rs'.map (·.1)) (calledL σ as))
  | [], _, _ => .nil
  | r :: as, h, hn => .cons (relinked_names hm r (h r (by simp)) (hn r (by simp)))
      (relinked_namesL hm as (fun r hr => h r (by simp [hr])) fun r hr => hn r (by simp [hr]))
end

theorem meant_mem {name : Str} {rs : List (Str × Rule)} {r : Rule} (h : meant name rs = some r) : (name, r) ∈ rs := by
  induction rs with
  | nil => cases h
  | cons x rs ih =>
    simp only [meant] at h
    split at h
    · rename_i e
      cases h
      cases x
      simp_all
    · exact List.mem_cons_of_mem _ (ih h)

/-- Lists of named rules with the same start in which the names met stand for the same. -/
theorem names_linked (hb : ∀ x ∈ rs, ByName x.2)
    (hl : rs'.getLast?.map (·.2) = rs.getLast?.map fun x => called σ x.2)
    (hm : ∀ name, Met rs name → meant (σ name) rs' = (meant name rs).map (called σ)) :
    Linked (SameName rs rs' σ) (Props.syntaxOf rs) (Props.syntaxOf rs') := by
  constructor
  · rintro i j ⟨name, h0, h1, h2⟩
    have e1 := (find_some h1).1
    have e2 := (find_some h2).1
    rw [hm name h0] at e2
    simp only [Props.syntaxOf, List.getElem?_map]
    cases hr : meant name rs with
    | none => exact absurd hr (find_some h1).2
    | some r =>
      rw [hr] at e1 e2
      obtain ⟨x, hx, rfl⟩ := Option.map_eq_some_iff.1 e1
      obtain ⟨y, hy, e⟩ := Option.map_eq_some_iff.1 e2
      rw [hx, hy]
      simp only [Option.map_some, LinkedAt, e]
      exact relinked_names hm _ (hb x (List.mem_of_getElem? hx)) fun n hn => .step h0 hr hn
  · simp only [Props.syntaxOf, List.getLast?_map]
    cases hx : rs.getLast? with
    | none =>
      rw [hx] at hl
      rw [Option.map_none, Option.map_eq_none_iff] at hl
      rw [hl]
      trivial
    | some x =>
      rw [hx] at hl
      obtain ⟨y, hy, e⟩ := Option.map_eq_some_iff.1 hl
      rw [hy]
      simp only [Option.map_some, LinkedAt, e]
      exact relinked_names hm _ (hb x (List.mem_of_getLast? hx)) fun n hn => .last hx hn

end

mutual
theorem called_id : (r : Rule) → called id r = r
  | .whitespace .. => rfl
  | .tag .. => rfl
  | .untilAny .. => rfl
  | .untilAnyOrWs .. => rfl
  | .text .. => rfl
  | .number .. => rfl
  | .node .. => rfl
  | .select rs _ => by simp [called, calledL_id rs]
  | .fastSelect _ rs _ _ => by simp [called, calledL_id rs]
  | .sequence rs _ => by simp [called, calledL_id rs]
  | .separateBy r b _ _ _ => by simp [called, called_id r, called_id b]
  | .repeat_ r _ _ => by simp [called, called_id r]
  | .lines r _ _ => by simp [called, called_id r]
  | .optional r _ => by simp [called, called_id r]
  | .not r _ => by simp [called, called_id r]
theorem calledL_id : (rs : List Rule) → calledL id rs = rs
  | [] => rfl
  | r :: rs => by simp [calledL, called_id r, calledL_id rs]
end

/-! ### What names stand for -/

theorem meant_append (name : Str) (a b : List (Str × Rule)) : meant name (a ++ b) = (meant name a).or (meant name b) := by
  induction a with
  | nil => simp [meant]
  | cons x a ih =>
    simp only [List.cons_append, meant]
    split
    · simp
    · exact ih

theorem meant_none {name : Str} {a : List (Str × Rule)} (h : name ∉ a.map (·.1)) : meant name a = none := by
  cases hm : meant name a with
  | none => rfl
  | some r => exact absurd (List.mem_map.2 ⟨_, meant_mem hm, rfl⟩) h

theorem meant_some {name : Str} {a : List (Str × Rule)} (h : name ∈ a.map (·.1)) : ∃ r, meant name a = some r := by
  induction a with
  | nil => cases h
  | cons x a ih =>
    simp only [meant]
    split
    · exact ⟨_, rfl⟩
    · rename_i hne
      simp only [List.map_cons, List.mem_cons] at h
      exact ih (h.resolve_left hne)

theorem meant_nodup {a : List (Str × Rule)} (hn : (a.map (·.1)).Nodup) {name : Str} {r : Rule} :
    meant name a = some r ↔ (name, r) ∈ a := by
  refine ⟨meant_mem, fun h => ?_⟩
  induction a with
  | nil => cases h
  | cons x a ih =>
    simp only [List.map_cons, List.nodup_cons] at hn
    simp only [meant]
    rcases List.mem_cons.1 h with rfl | h
    · simp
    · have : name ≠ x.1 := by
        rintro rfl
        exact hn.1 (List.mem_map.2 ⟨_, h, rfl⟩)
      simp [this, ih hn.2 h]

theorem meant_perm {a b : List (Str × Rule)} (h : a.Perm b) (hn : (a.map (·.1)).Nodup) (name : Str) :
    meant name a = meant name b := by
  have hn' : (b.map (·.1)).Nodup := (h.map _).nodup_iff.1 hn
  apply Option.ext
  intro r
  rw [meant_nodup hn, meant_nodup hn', h.mem_iff]

theorem meant_map {σ : Str → Str} {f : Rule → Rule} {name : Str} {a : List (Str × Rule)}
    (h : ∀ x ∈ a, σ name = σ x.1 → name = x.1) :
    meant (σ name) (a.map fun x => (σ x.1, f x.2)) = (meant name a).map f := by
  induction a with
  | nil => rfl
  | cons x a ih =>
    simp only [List.map_cons, meant]
    by_cases e : name = x.1
    · simp [e]
    · have : σ name ≠ σ x.1 := fun h' => e (h x (by simp) h')
      simp only [e, this, if_false]
      exact ih fun y hy => h y (by simp [hy])

end Verif
