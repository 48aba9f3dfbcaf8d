import Verif.Proofs.Desc
import Verif.Proofs.ConvertIds
/-
Descriptions: their ids, and that every rule has one.
-/
namespace Verif
open Spec

/-! ### When all strings are defined -/

theorem missing_zero {strings : List (Str × Str)} {v : SetV} {t : Str} (h : v.get strings = some t) :
    v.missing strings = 0 := by simp [SetV.missing, h]

theorem propMissing_zero {strings : List (Str × Str)} {p : Option SetV} {q : Option Str}
    (h : propGet strings p = some q) : p.bind (·.get strings) = q ∧ propMissing strings p = 0 := by
  cases p with
  | none => cases h; exact ⟨rfl, rfl⟩
  | some v =>
    simp only [propGet, Option.map_eq_some_iff] at h
    obtain ⟨t, ht, rfl⟩ := h
    exact ⟨ht, missing_zero ht⟩

mutual
theorem Desc.read_rule {strings : List (Str × Str)} (d : Desc) {i i' : Nat} {r : Rule}
    (h : d.rule strings i = some (r, i')) : d.read strings i = (some r, i', 0) := by
  cases d with
  | whitespace o => cases h; rfl
  | untilAnyOrWs any o p | untilAny any o p | tag neg t inv p =>
    simp only [Desc.rule] at h
    split at h <;> simp only [Option.some.injEq, Prod.mk.injEq, reduceCtorEq] at h
    next e e' =>
    obtain ⟨rfl, rfl⟩ := h
    obtain ⟨e₁, e₂⟩ := propMissing_zero e'
    simp only [Desc.read, e, e₁, e₂, missing_zero e, needs]
  | text e p | number u p | reference name p =>
    simp only [Desc.rule] at h
    split at h <;> simp only [Option.some.injEq, Prod.mk.injEq, reduceCtorEq] at h
    next e' =>
    obtain ⟨rfl, rfl⟩ := h
    obtain ⟨e₁, e₂⟩ := propMissing_zero e'
    simp only [Desc.read, e₁, e₂]
  | sequence args | select args =>
    simp only [Desc.rule] at h
    split at h <;> simp only [Option.some.injEq, Prod.mk.injEq, reduceCtorEq] at h
    next e =>
    obtain ⟨rfl, rfl⟩ := h
    simp only [Desc.read, Desc.readL_rule args e]
  | optional d | not d | lines ind d | repeat_ o d =>
    simp only [Desc.rule] at h
    split at h <;> simp only [Option.some.injEq, Prod.mk.injEq, reduceCtorEq] at h
    next e =>
    obtain ⟨rfl, rfl⟩ := h
    simp only [Desc.read, Desc.read_rule d e]
    rfl
  | separatedBy o t b d =>
    simp only [Desc.rule] at h
    split at h
    · cases h
    next e =>
    split at h <;> simp only [Option.some.injEq, Prod.mk.injEq, reduceCtorEq] at h
    next e' =>
    obtain ⟨rfl, rfl⟩ := h
    simp only [Desc.read, Desc.read_rule b e, Desc.read_rule d e']
    rfl
theorem Desc.readL_rule {strings : List (Str × Str)} (ds : List Desc) {i i' : Nat} {rs : List Rule}
    (h : Desc.ruleL strings ds i = some (rs, i')) : Desc.readL strings ds i = (rs, i', 0) := by
  cases ds with
  | nil => cases h; rfl
  | cons d ds =>
    simp only [Desc.ruleL] at h
    split at h
    · cases h
    next e =>
    split at h <;> simp only [Option.some.injEq, Prod.mk.injEq, reduceCtorEq] at h
    next e' =>
    obtain ⟨rfl, rfl⟩ := h
    simp only [Desc.readL, Desc.read_rule d e, Desc.readL_rule ds e']
    rfl
end

theorem Doc.read_rule {strings : List (Str × Str)} : ∀ {ns : List (F64 × Str × Desc)}
    {rs : List (Str × Rule × Nat)} (_ : Doc.nodesOf strings ns = some rs),
    Doc.read strings ns = (some (rs.map fun x => (x.1, x.2.1)), 0)
  | [], _, h => by cases h; rfl
  | (k, name, d) :: ns, rs, h => by
    simp only [Doc.nodesOf] at h
    split at h
    · next r i rs' e e' =>
      cases h
      simp only [Doc.read, Desc.read_rule d e, Doc.read_rule e']
      rfl
    · cases h

/-! ### Ids -/

theorem range'_snoc (i j : Nat) (h : i ≤ j) :
    List.range' (i + 1) (j - i) ++ [j + 1] = List.range' (i + 1) (j + 1 - i) := by
  rw [show j + 1 - i = (j - i) + 1 by omega, List.range'_concat]
  simp; omega

theorem range'_join (i j k : Nat) (h : i ≤ j) (h' : j ≤ k) :
    List.range' (i + 1) (j - i) ++ List.range' (j + 1) (k - j) = List.range' (i + 1) (k - i) := by
  rw [show k - i = (j - i) + (k - j) by omega, ← List.range'_append,
    show i + 1 + 1 * (j - i) = j + 1 by omega]

mutual
theorem Desc.ids {strings : List (Str × Str)} (d : Desc) {i i' : Nat} {r : Rule}
    (h : d.rule strings i = some (r, i')) : Rule.ids r = List.range' (i + 1) (i' - i) := by
  cases d with
  | whitespace o =>
    cases h
    simp [Rule.ids, show i + 1 - i = 1 by omega]
  | untilAnyOrWs any o p | untilAny any o p | tag neg t inv p | text e p | number u p | reference name p =>
    simp only [Desc.rule] at h
    split at h <;> simp only [Option.some.injEq, Prod.mk.injEq, reduceCtorEq] at h
    obtain ⟨rfl, rfl⟩ := h
    simp [Rule.ids, show i + 1 - i = 1 by omega]
  | sequence args | select args =>
    simp only [Desc.rule] at h
    split at h <;> simp only [Option.some.injEq, Prod.mk.injEq, reduceCtorEq] at h
    next e =>
    obtain ⟨rfl, rfl⟩ := h
    have := Desc.ruleL_le _ e
    rw [Rule.ids, Desc.idsL args e, range'_snoc _ _ (by omega)]
  | optional d | not d | lines ind d | repeat_ o d =>
    simp only [Desc.rule] at h
    split at h <;> simp only [Option.some.injEq, Prod.mk.injEq, reduceCtorEq] at h
    next e =>
    obtain ⟨rfl, rfl⟩ := h
    have := Desc.rule_lt _ e
    rw [Rule.ids, Desc.ids d e, range'_snoc _ _ (by omega)]
  | separatedBy o t b d =>
    simp only [Desc.rule] at h
    split at h
    · cases h
    next e =>
    split at h <;> simp only [Option.some.injEq, Prod.mk.injEq, reduceCtorEq] at h
    next e' =>
    obtain ⟨rfl, rfl⟩ := h
    have := Desc.rule_lt _ e
    have := Desc.rule_lt _ e'
    rw [Rule.ids, Desc.ids b e, Desc.ids d e', range'_join _ _ _ (by omega) (by omega),
      range'_snoc _ _ (by omega)]
theorem Desc.idsL {strings : List (Str × Str)} (ds : List Desc) {i i' : Nat} {rs : List Rule}
    (h : Desc.ruleL strings ds i = some (rs, i')) : Rule.idsL rs = List.range' (i + 1) (i' - i) := by
  cases ds with
  | nil => cases h; simp [Rule.idsL]
  | cons d ds =>
    simp only [Desc.ruleL] at h
    split at h
    · cases h
    next e =>
    split at h <;> simp only [Option.some.injEq, Prod.mk.injEq, reduceCtorEq] at h
    next e' =>
    obtain ⟨rfl, rfl⟩ := h
    have := Desc.rule_lt _ e
    have := Desc.ruleL_le _ e'
    rw [Rule.idsL, Desc.ids d e, Desc.idsL ds e', range'_join _ _ _ (by omega) (by omega)]
end

theorem Doc.nodesOf_get {strings : List (Str × Str)} : ∀ {ns : List (F64 × Str × Desc)}
    {rs : List (Str × Rule × Nat)} (_ : Doc.nodesOf strings ns = some rs) (j : Nat),
    (ns[j]? = none ∧ rs[j]? = none) ∨ ∃ k name d r i, ns[j]? = some (k, name, d) ∧
      rs[j]? = some (name, r, i) ∧ d.rule strings (k.toUsize * 1000) = some (r, i)
  | [], _, h, j => by cases h; simp
  | (k, name, d) :: ns, rs, h, j => by
    simp only [Doc.nodesOf] at h
    split at h
    · next r i rs' e e' =>
      cases h
      cases j with
      | zero => exact .inr ⟨k, name, d, r, i, rfl, rfl, e⟩
      | succ j => simpa using Doc.nodesOf_get e' j
    · cases h

theorem foldl_push (rs : List (Str × Rule)) : ∀ s : Syntax,
    rs.foldl (fun s x => s.push x.1 x.2) s = ⟨s.rules ++ rs.map (·.2), s.names ++ rs.map (·.1)⟩ := by
  induction rs with
  | nil => intro s; simp
  | cons x xs ih => intro s; rw [List.foldl_cons, ih]; simp [Syntax.push]

/-! ### Every rule has a description -/

mutual
/-- The description of a rule, with everything written out. -/
def Rule.desc : Rule → Desc
  | .whitespace o _ => .whitespace o
  | .tag t n i p _ => .tag (some n) (.value t) (some i) (p.map .value)
  | .untilAny a o p _ => .untilAny (.value a) (some o) (p.map .value)
  | .untilAnyOrWs a o p _ => .untilAnyOrWs (.value a) (some o) (p.map .value)
  | .text e p _ => .text (some e) (p.map .value)
  | .number p u _ => .number (some u) (p.map .value)
  | .select args _ => .select (Rule.descL args)
  | .fastSelect _ args _ _ => .select (Rule.descL args)
  | .sequence args _ => .sequence (Rule.descL args)
  | .separateBy r b o t _ => .separatedBy (some o) (some t) (Rule.desc b) (Rule.desc r)
  | .repeat_ r o _ => .repeat_ o (Rule.desc r)
  | .lines r i _ => .lines (some i) (Rule.desc r)
  | .node n p _ _ => .reference n (p.map .value)
  | .optional r _ => .optional (Rule.desc r)
  | .not r _ => .not (Rule.desc r)
def Rule.descL : List Rule → List Desc
  | [] => []
  | r :: rs => Rule.desc r :: Rule.descL rs
end

theorem propGet_value (strings : List (Str × Str)) (p : Option Str) :
    propGet strings (p.map .value) = some p := by
  cases p <;> rfl

mutual
theorem Rule.desc_rule (strings : List (Str × Str)) (r : Rule) (h : Rule.NoTable r) (i : Nat) :
    ∃ r', (Rule.desc r).rule strings i = some (r', i + (Rule.ids r).length) ∧ Rule.anon r' = Rule.anon r := by
  cases r with
  | whitespace | tag | untilAny | untilAnyOrWs | text | number | node =>
    simp only [Rule.desc, Desc.rule, propGet_value, SetV.get]
    exact ⟨_, rfl, by simp [Rule.anon]⟩
  | fastSelect => exact h.elim
  | select args id | sequence args id =>
    obtain ⟨rs, e, e'⟩ := Rule.desc_ruleL strings args h i
    simp only [Rule.desc, Desc.rule, e]
    simp only [Rule.ids, List.length_append, List.length_singleton, ← Nat.add_assoc]
    exact ⟨_, rfl, by simp [Rule.anon, e']⟩
  | repeat_ r o id | lines r o id | optional r id | not r id =>
    obtain ⟨r', e, e'⟩ := Rule.desc_rule strings r h i
    simp only [Rule.desc, Desc.rule, e]
    simp only [Rule.ids, List.length_append, List.length_singleton, ← Nat.add_assoc]
    exact ⟨_, rfl, by simp [Rule.anon, e']⟩
  | separateBy r b o t id =>
    obtain ⟨b', e, e'⟩ := Rule.desc_rule strings b h.2 i
    obtain ⟨r', e₁, e₁'⟩ := Rule.desc_rule strings r h.1 (i + (Rule.ids b).length)
    simp only [Rule.desc, Desc.rule, e, e₁]
    simp only [Rule.ids, List.length_append, List.length_singleton, ← Nat.add_assoc]
    exact ⟨_, rfl, by simp [Rule.anon, e', e₁']⟩
theorem Rule.desc_ruleL (strings : List (Str × Str)) (rs : List Rule) (h : Rule.NoTableL rs) (i : Nat) :
    ∃ rs', Desc.ruleL strings (Rule.descL rs) i = some (rs', i + (Rule.idsL rs).length) ∧
      Rule.anonL rs' = Rule.anonL rs := by
  cases rs with
  | nil => exact ⟨[], by simp [Rule.descL, Desc.ruleL, Rule.idsL], rfl⟩
  | cons r rs =>
    obtain ⟨r', e, e'⟩ := Rule.desc_rule strings r h.1 i
    obtain ⟨rs', e₁, e₁'⟩ := Rule.desc_ruleL strings rs h.2 (i + (Rule.ids r).length)
    simp only [Rule.descL, Desc.ruleL, e, e₁]
    simp only [Rule.idsL, List.length_append, ← Nat.add_assoc]
    exact ⟨_, rfl, by simp [Rule.anonL, e', e₁']⟩
end

mutual
theorem anon_updateRefs (names : List Str) (r : Rule) : Rule.anon (Rule.updateRefs names r) = Rule.anon r := by
  cases r with
  | node n p i id => cases i <;> rfl
  | whitespace | tag | untilAny | untilAnyOrWs | text | number | fastSelect => rfl
  | select args id | sequence args id =>
    simp only [Rule.updateRefs, Rule.anon, anon_updateRefsL names args]
  | separateBy r b o t id =>
    simp only [Rule.updateRefs, Rule.anon, anon_updateRefs names r, anon_updateRefs names b]
  | repeat_ r o id => simp only [Rule.updateRefs, Rule.anon, anon_updateRefs names r]
  | lines r o id => simp only [Rule.updateRefs, Rule.anon, anon_updateRefs names r]
  | optional r id => simp only [Rule.updateRefs, Rule.anon, anon_updateRefs names r]
  | not r id => simp only [Rule.updateRefs, Rule.anon, anon_updateRefs names r]
theorem anon_updateRefsL (names : List Str) (rs : List Rule) :
    Rule.anonL (Rule.updateRefsL names rs) = Rule.anonL rs := by
  cases rs with
  | nil => rfl
  | cons r rs => simp only [Rule.updateRefsL, Rule.anonL, anon_updateRefs names r, anon_updateRefsL names rs]
end

/-- Every list of named rules has a document. -/
theorem exists_doc : ∀ (rules : List (Str × Rule)), (∀ x ∈ rules, Rule.NoTable x.2) →
    (∀ x ∈ rules, (Rule.ids x.2).length + 1 < 2 ^ 64) →
    ∃ ns rs, Doc.nodesOf [] ns = some rs ∧ (∀ x ∈ rs, x.2.2 + 1 < 2 ^ 64) ∧
      rs.map (·.1) = rules.map (·.1) ∧ rs.map (fun x => Rule.anon x.2.1) = rules.map fun x => Rule.anon x.2
  | [], _, _ => ⟨[], [], rfl, by simp, rfl, rfl⟩
  | (name, r) :: rules, h, hs => by
    obtain ⟨ns, rs, h₁, h₂, h₃, h₄⟩ := exists_doc rules (fun x hx => h x (by simp [hx]))
      fun x hx => hs x (by simp [hx])
    obtain ⟨r', e, e'⟩ := Rule.desc_rule [] r (h (name, r) (by simp)) ((⟨0⟩ : F64).toUsize * 1000)
    have h0 : (⟨0⟩ : F64).toUsize = 0 := by decide +kernel
    refine ⟨(⟨0⟩, name, Rule.desc r) :: ns,
      (name, r', (⟨0⟩ : F64).toUsize * 1000 + (Rule.ids r).length) :: rs,
      by simp only [Doc.nodesOf, e, h₁], ?_, ?_, ?_⟩
    · intro x hx
      rcases List.mem_cons.1 hx with rfl | hx
      · have := hs (name, r) (by simp)
        simp only [h0] at this ⊢
        omega
      · exact h₂ x hx
    · simp [h₃]
    · simp [h₄, e']

end Verif
