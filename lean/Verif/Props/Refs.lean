import Verif.Model.Refs
import Verif.Props.Rules
/-
References: C24.
-/
namespace Verif.Props
open Spec

/-- Position `i` is the first in `names` that holds `name`. -/
def FirstIndex (name : Str) (names : List Str) (i : Nat) : Prop :=
  names[i]? = some name ∧ ∀ j < i, names[j]? ≠ some name

theorem findName_spec (name : Str) : ∀ (names : List Str) (k : Nat),
    (∀ i, findName name k names = some i → k ≤ i ∧ FirstIndex name names (i - k)) ∧
    (findName name k names = none → name ∉ names)
  | [], k => by simp [findName]
  | a :: as, k => by
    unfold findName
    by_cases h : name = a
    · subst h
      simp [FirstIndex]
    · obtain ⟨h1, h2⟩ := findName_spec name as (k + 1)
      rw [if_neg h]
      refine ⟨fun i hi => ?_, fun hn => by simp [h, h2 hn]⟩
      obtain ⟨hle, hf, hm⟩ := h1 i hi
      refine ⟨by omega, ?_⟩
      rw [show i - k = (i - (k + 1)) + 1 by omega]
      refine ⟨by simpa using hf, ?_⟩
      intro j hj
      cases j with
      | zero => simpa using fun he => h he.symm
      | succ j => simpa using hm j (by omega)

mutual
/-- `Resolved names r r'`: `r'` is `r` with each unresolved reference to a known name pointing to
the first rule of that name, outside of table look-ups, and nothing else changed. -/
inductive Resolved (names : List Str) : Rule → Rule → Prop
  | known {name prop id i} (h : FirstIndex name names i) :
      Resolved names (.node name prop none id) (.node name prop (some i) id)
  | unknown {name prop id} (h : name ∉ names) :
      Resolved names (.node name prop none id) (.node name prop none id)
  | done {name prop i id} :
      Resolved names (.node name prop (some i) id) (.node name prop (some i) id)
  | whitespace {a b} : Resolved names (.whitespace a b) (.whitespace a b)
  | tag {a b c d e} : Resolved names (.tag a b c d e) (.tag a b c d e)
  | untilAny {a b c d} : Resolved names (.untilAny a b c d) (.untilAny a b c d)
  | untilAnyOrWs {a b c d} : Resolved names (.untilAnyOrWs a b c d) (.untilAnyOrWs a b c d)
  | text {a b c} : Resolved names (.text a b c) (.text a b c)
  | number {a b c} : Resolved names (.number a b c) (.number a b c)
  | fastSelect {a b c d} : Resolved names (.fastSelect a b c d) (.fastSelect a b c d)
  | select {rs rs' id} (h : ResolvedAll names rs rs') : Resolved names (.select rs id) (.select rs' id)
  | sequence {rs rs' id} (h : ResolvedAll names rs rs') :
      Resolved names (.sequence rs id) (.sequence rs' id)
  | separateBy {r r' b b' o t id} (h : Resolved names r r') (h' : Resolved names b b') :
      Resolved names (.separateBy r b o t id) (.separateBy r' b' o t id)
  | repeat_ {r r' o id} (h : Resolved names r r') :
      Resolved names (.repeat_ r o id) (.repeat_ r' o id)
  | lines {r r' i id} (h : Resolved names r r') : Resolved names (.lines r i id) (.lines r' i id)
  | optional {r r' id} (h : Resolved names r r') :
      Resolved names (.optional r id) (.optional r' id)
  | not {r r' id} (h : Resolved names r r') : Resolved names (.not r id) (.not r' id)
/-- The same for lists of rules. -/
inductive ResolvedAll (names : List Str) : List Rule → List Rule → Prop
  | nil : ResolvedAll names [] []
  | cons {r r' rs rs'} (h : Resolved names r r') (h' : ResolvedAll names rs rs') :
      ResolvedAll names (r :: rs) (r' :: rs')
end

mutual
theorem resolved_updateRefs (names : List Str) : (r : Rule) → Resolved names r (r.updateRefs names)
  | .node name prop none id => by
    unfold Rule.updateRefs
    obtain ⟨h1, h2⟩ := findName_spec name names 0
    cases h : findName name 0 names with
    | none => exact .unknown (h2 h)
    | some i => exact .known (by simpa using (h1 i h).2)
  | .node name prop (some i) id => .done
  | .whitespace a b => .whitespace
  | .tag a b c d e => .tag
  | .untilAny a b c d => .untilAny
  | .untilAnyOrWs a b c d => .untilAnyOrWs
  | .text a b c => .text
  | .number a b c => .number
  | .fastSelect t args tl id => .fastSelect
  | .select args id => .select (resolved_updateRefsL names args)
  | .sequence args id => .sequence (resolved_updateRefsL names args)
  | .separateBy r b o t id => .separateBy (resolved_updateRefs names r) (resolved_updateRefs names b)
  | .repeat_ r o id => .repeat_ (resolved_updateRefs names r)
  | .lines r i id => .lines (resolved_updateRefs names r)
  | .optional r id => .optional (resolved_updateRefs names r)
  | .not r id => .not (resolved_updateRefs names r)
theorem resolved_updateRefsL (names : List Str) : (rs : List Rule) →
    ResolvedAll names rs (Rule.updateRefsL names rs)
  | [] => .nil
  | r :: rs => .cons (resolved_updateRefs names r) (resolved_updateRefsL names rs)
end

theorem firstIndex_unique {name names i j} (h : FirstIndex name names i)
    (h' : FirstIndex name names j) : i = j := by
  rcases Nat.lt_trichotomy i j with hl | hl | hl
  · exact absurd h.1 (h'.2 i hl)
  · exact hl
  · exact absurd h'.1 (h.2 j hl)

mutual
theorem Resolved.det {names : List Str} : {r a b : Rule} → Resolved names r a → Resolved names r b →
    a = b
  | _, _, _, .known h, h' => by
    cases h' with
    | known h' => rw [firstIndex_unique h h']
    | unknown h' => exact absurd (List.mem_of_getElem? h.1) h'
  | _, _, _, .unknown h, h' => by
    cases h' with
    | known h' => exact absurd (List.mem_of_getElem? h'.1) h
    | unknown h' => rfl
  | _, _, _, .done, h' => by cases h'; rfl
  | _, _, _, .whitespace, h' => by cases h'; rfl
  | _, _, _, .tag, h' => by cases h'; rfl
  | _, _, _, .untilAny, h' => by cases h'; rfl
  | _, _, _, .untilAnyOrWs, h' => by cases h'; rfl
  | _, _, _, .text, h' => by cases h'; rfl
  | _, _, _, .number, h' => by cases h'; rfl
  | _, _, _, .fastSelect, h' => by cases h'; rfl
  | _, _, _, .select h, h' => by cases h' with | select h' => rw [ResolvedAll.det h h']
  | _, _, _, .sequence h, h' => by cases h' with | sequence h' => rw [ResolvedAll.det h h']
  | _, _, _, .separateBy h1 h2, h' => by
    cases h' with | separateBy h3 h4 => rw [Resolved.det h1 h3, Resolved.det h2 h4]
  | _, _, _, .repeat_ h, h' => by cases h' with | repeat_ h' => rw [Resolved.det h h']
  | _, _, _, .lines h, h' => by cases h' with | lines h' => rw [Resolved.det h h']
  | _, _, _, .optional h, h' => by cases h' with | optional h' => rw [Resolved.det h h']
  | _, _, _, .not h, h' => by cases h' with | not h' => rw [Resolved.det h h']
theorem ResolvedAll.det {names : List Str} : {rs as bs : List Rule} → ResolvedAll names rs as →
    ResolvedAll names rs bs → as = bs
  | _, _, _, .nil, h' => by cases h'; rfl
  | _, _, _, .cons h1 h2, h' => by
    cases h' with | cons h3 h4 => rw [Resolved.det h1 h3, ResolvedAll.det h2 h4]
end

/-- `update_refs` resolves exactly the references to known names, each to the first rule of that
name. -/
theorem C24_update_refs {names : List Str} {r r' : Rule} :
    r.updateRefs names = r' ↔ Resolved names r r' :=
  ⟨fun h => h ▸ resolved_updateRefs names r, fun h => (resolved_updateRefs names r).det h⟩

mutual
theorem resolved_again {names : List Str} : {r r' : Rule} → Resolved names r r' → Resolved names r' r'
  | _, _, .known _ => .done
  | _, _, .unknown h => .unknown h
  | _, _, .done => .done
  | _, _, .whitespace => .whitespace
  | _, _, .tag => .tag
  | _, _, .untilAny => .untilAny
  | _, _, .untilAnyOrWs => .untilAnyOrWs
  | _, _, .text => .text
  | _, _, .number => .number
  | _, _, .fastSelect => .fastSelect
  | _, _, .select h => .select (resolvedAll_again h)
  | _, _, .sequence h => .sequence (resolvedAll_again h)
  | _, _, .separateBy h h' => .separateBy (resolved_again h) (resolved_again h')
  | _, _, .repeat_ h => .repeat_ (resolved_again h)
  | _, _, .lines h => .lines (resolved_again h)
  | _, _, .optional h => .optional (resolved_again h)
  | _, _, .not h => .not (resolved_again h)
theorem resolvedAll_again {names : List Str} : {rs rs' : List Rule} → ResolvedAll names rs rs' →
    ResolvedAll names rs' rs'
  | _, _, .nil => .nil
  | _, _, .cons h h' => .cons (resolved_again h) (resolvedAll_again h')
end

/-- Doing it twice changes nothing more. -/
theorem C24_update_refs_idempotent (syn : Syntax) : syn.updateRefs.updateRefs = syn.updateRefs := by
  simp only [Syntax.updateRefs, List.map_map, Syntax.mk.injEq, and_true]
  apply List.map_congr_left
  intro r _
  exact C24_update_refs.2 (resolved_again (resolved_updateRefs _ r))

/-- The syntax keeps its names, and its rules their order. -/
theorem C24_update_refs_rules (syn : Syntax) (k : Nat) :
    syn.updateRefs.names = syn.names ∧ syn.updateRefs.rules.length = syn.rules.length ∧
    ∀ r, syn.rules[k]? = some r → ∃ r', syn.updateRefs.rules[k]? = some r' ∧
      Resolved syn.names r r' := by
  refine ⟨rfl, by simp [Syntax.updateRefs], fun r hr => ?_⟩
  exact ⟨r.updateRefs syn.names, by simp [Syntax.updateRefs, hr], resolved_updateRefs _ r⟩

/-- Parsing through an unresolved reference is an `InvalidRule` error at that place. -/
theorem C24_unresolved_is_error {L : Lexer} {refs name prop id p ind} :
    Fails L refs (.node name prop none id) p ind ⟨⟨p.off, 0⟩, .invalidRule .nodeNotUpdated id⟩
      ind := by
  rw [fails_iff]
  exact ⟨_, _, .node_unresolved, rfl, ⟨[], [], rfl, by simp, by simp⟩⟩

/-- Parsing through a resolved reference is parsing with the rule it points to, and its data are
bracketed when the reference is named. -/
theorem C24_resolved_is_rule {L : Lexer} {refs name prop ix r id p ind n ts ind'}
    (hr : refs[ix]? = some r) :
    Matches L refs (.node name prop (some ix) id) p ind n ts ind' ↔
      ∃ us, Matches L refs r p ind n us ind' ∧ ts = wrapped prop p.off n us := by
  rw [matches_iff]
  constructor
  · rintro ⟨j, tr, h, rfl⟩
    cases h with
    | node_ok hr' h =>
      cases hr.symm.trans hr'
      exact ⟨_, matches_iff.2 ⟨_, _, h, rfl⟩, rfl⟩
  · rintro ⟨us, h, rfl⟩
    replace h := matches_iff.1 h
    obtain ⟨j, tr, h, rfl⟩ := h
    exact ⟨_, _, .node_ok hr h, rfl⟩

/-- A name twice in the list, an unknown name, and a reference that is already resolved. -/
example : (Syntax.updateRefs ⟨[.sequence [.node c!"b" none none 1, .node c!"c" none none 2,
      .not (.node c!"a" none (some 1) 3) 4] 5], [c!"a", c!"b", c!"b"]⟩).rules =
    [.sequence [.node c!"b" none (some 1) 1, .node c!"c" none none 2,
      .not (.node c!"a" none (some 1) 3) 4] 5] := by
  rfl

end Verif.Props
