import Verif.Spec.Inline
import Verif.Spec.Renumber
import Verif.Model.Refs
/-
Strings may be replaced by their texts; numbers of nodes only shift debug ids.
-/
namespace Verif
open Spec

theorem SetV.get_inline (strings : List (Str × Str)) (v : SetV) : (v.inline strings).get [] = v.get strings := by
  cases v with
  | value s => rfl
  | ref n =>
    simp only [SetV.inline, SetV.get]
    cases strings.lookup n <;> rfl

theorem SetV.missing_inline (strings : List (Str × Str)) (v : SetV) : (v.inline strings).missing [] = v.missing strings := by
  simp only [SetV.missing, SetV.get_inline]

theorem prop_inline (strings : List (Str × Str)) (p : Option SetV) :
    (p.map (·.inline strings)).bind (·.get []) = p.bind (·.get strings) ∧
    propMissing [] (p.map (·.inline strings)) = propMissing strings p := by
  cases p with
  | none => exact ⟨rfl, rfl⟩
  | some v => exact ⟨SetV.get_inline _ _, SetV.missing_inline _ _⟩

mutual
theorem Desc.read_inline (strings : List (Str × Str)) : (d : Desc) → ∀ i, (d.inline strings).read [] i = d.read strings i
  | .whitespace o, i => rfl
  | .untilAnyOrWs any o p, i => by
    simp only [Desc.inline, Desc.read, SetV.get_inline, SetV.missing_inline, prop_inline]
  | .untilAny any o p, i => by
    simp only [Desc.inline, Desc.read, SetV.get_inline, SetV.missing_inline, prop_inline]
  | .tag neg t inv p, i => by
    simp only [Desc.inline, Desc.read, SetV.get_inline, SetV.missing_inline, prop_inline]
  | .text e p, i => by simp only [Desc.inline, Desc.read, prop_inline]
  | .number u p, i => by simp only [Desc.inline, Desc.read, prop_inline]
  | .reference name p, i => by simp only [Desc.inline, Desc.read, prop_inline]
  | .sequence args, i => by simp only [Desc.inline, Desc.read, Desc.readL_inline strings args]
  | .select args, i => by simp only [Desc.inline, Desc.read, Desc.readL_inline strings args]
  | .optional d, i => by simp only [Desc.inline, Desc.read, Desc.read_inline strings d]
  | .not d, i => by simp only [Desc.inline, Desc.read, Desc.read_inline strings d]
  | .separatedBy o t b d, i => by
    simp only [Desc.inline, Desc.read, Desc.read_inline strings b, Desc.read_inline strings d]
  | .lines ind d, i => by simp only [Desc.inline, Desc.read, Desc.read_inline strings d]
  | .repeat_ o d, i => by simp only [Desc.inline, Desc.read, Desc.read_inline strings d]
theorem Desc.readL_inline (strings : List (Str × Str)) : (ds : List Desc) → ∀ i,
    Desc.readL [] (Desc.inlineL strings ds) i = Desc.readL strings ds i
  | [], i => rfl
  | d :: ds, i => by simp only [Desc.inlineL, Desc.readL, Desc.read_inline strings d, Desc.readL_inline strings ds]
end

theorem Doc.read_inline (strings : List (Str × Str)) (ns : List (F64 × Str × Desc)) :
    Doc.read [] (ns.map fun n => (n.1, n.2.1, n.2.2.inline strings)) = Doc.read strings ns ∧
    (Doc.Overflow [] (ns.map fun n => (n.1, n.2.1, n.2.2.inline strings)) ↔ Doc.Overflow strings ns) := by
  induction ns with
  | nil => exact ⟨rfl, Iff.rfl⟩
  | cons n ns ih =>
    obtain ⟨k, name, d⟩ := n
    simp only [List.map_cons, Doc.read, Doc.Overflow, Desc.read_inline, ih, and_self]

/-! ### Numbers -/

/-- The part of a reading that depends on the first id. -/
def shiftRead (c : Nat) (x : Option Rule × Nat × Nat) : Option Rule × Nat × Nat :=
  (x.1.map (renumber (· + c)), x.2.1 + c, x.2.2)

theorem needs_shift (t : Option Str) (i m c : Nat) {f : Str → Nat → Rule} (hf : ∀ t id, renumber (· + c) (f t id) = f t (id + c)) :
    needs t (i + c) m f = shiftRead c (needs t i m f) := by
  cases t with
  | none => rfl
  | some t => simp [needs, shiftRead, hf, Nat.add_right_comm]

theorem around_shift (x : Option Rule × Nat × Nat) (c : Nat) {f : Rule → Nat → Rule}
    (hf : ∀ r id, renumber (· + c) (f r id) = f (renumber (· + c) r) (id + c)) :
    around (shiftRead c x) f = shiftRead c (around x f) := by
  obtain ⟨r, i, m⟩ := x
  cases r with
  | none => rfl
  | some r => simp [around, shiftRead, hf, Nat.add_right_comm]

theorem drop1_shift (x : Option Rule × Nat × Nat) (c : Nat) : drop1 (shiftRead c x) = drop1 x := by
  obtain ⟨r, i, m⟩ := x
  cases r <;> rfl

theorem renumberAll_append (f : DebugId → DebugId) (a b : List Rule) :
    renumberAll f (a ++ b) = renumberAll f a ++ renumberAll f b := by
  induction a with
  | nil => rfl
  | cons r a ih => simp [renumberAll, ih]

mutual
theorem Desc.read_shift (strings : List (Str × Str)) (c : Nat) : (d : Desc) → ∀ i,
    d.read strings (i + c) = shiftRead c (d.read strings i)
  | .whitespace o, i => by simp [Desc.read, shiftRead, renumber, Nat.add_right_comm]
  | .untilAnyOrWs any o p, i => by
    simp only [Desc.read]
    exact needs_shift _ _ _ _ fun _ _ => rfl
  | .untilAny any o p, i => by
    simp only [Desc.read]
    exact needs_shift _ _ _ _ fun _ _ => rfl
  | .tag neg t inv p, i => by
    simp only [Desc.read]
    exact needs_shift _ _ _ _ fun _ _ => rfl
  | .text e p, i => by simp [Desc.read, shiftRead, renumber, Nat.add_right_comm]
  | .number u p, i => by simp [Desc.read, shiftRead, renumber, Nat.add_right_comm]
  | .reference name p, i => by simp [Desc.read, shiftRead, renumber, Nat.add_right_comm]
  | .sequence args, i => by
    simp only [Desc.read, Desc.readL_shift strings c args, shiftRead, renumber, Option.map_some]
    simp only [Nat.add_right_comm]
  | .select args, i => by
    simp only [Desc.read, Desc.readL_shift strings c args, shiftRead, renumber, Option.map_some]
    simp only [Nat.add_right_comm]
  | .optional d, i => by
    simp only [Desc.read, Desc.read_shift strings c d]
    exact around_shift _ _ fun _ _ => rfl
  | .not d, i => by
    simp only [Desc.read, Desc.read_shift strings c d]
    exact around_shift _ _ fun _ _ => rfl
  | .lines ind d, i => by
    simp only [Desc.read, Desc.read_shift strings c d]
    exact around_shift _ _ fun _ _ => rfl
  | .repeat_ o d, i => by
    simp only [Desc.read, Desc.read_shift strings c d, drop1_shift]
    exact around_shift ((d.read strings i).1, (d.read strings i).2.1, drop1 (d.read strings i)) _ fun _ _ => rfl
  | .separatedBy o t b d, i => by
    simp only [Desc.read, Desc.read_shift strings c b, drop1_shift]
    simp only [show ∀ x, (shiftRead c x).2.1 = x.2.1 + c from fun _ => rfl, Desc.read_shift strings c d, drop1_shift]
    cases hb : (b.read strings i).1 with
    | none => simp [shiftRead, hb]
    | some b' =>
      simp only [shiftRead, hb, Option.map_some]
      cases hd : (d.read strings (b.read strings i).2.1).1 with
      | none => simp [around]
      | some d' => simp [around, renumber, Nat.add_right_comm]
theorem Desc.readL_shift (strings : List (Str × Str)) (c : Nat) : (ds : List Desc) → ∀ i,
    Desc.readL strings ds (i + c) = (renumberAll (· + c) (Desc.readL strings ds i).1, (Desc.readL strings ds i).2.1 + c,
      (Desc.readL strings ds i).2.2)
  | [], i => rfl
  | d :: ds, i => by
    simp only [Desc.readL, Desc.read_shift strings c d, drop1_shift]
    simp only [show ∀ x, (shiftRead c x).2.1 = x.2.1 + c from fun _ => rfl, Desc.readL_shift strings c ds, renumberAll_append]
    cases h : (d.read strings i).1 <;> simp [shiftRead, renumberAll, h]
end

mutual
theorem renumber_updateRefs (f : DebugId → DebugId) (names : List Str) : (r : Rule) →
    (renumber f r).updateRefs names = renumber f (r.updateRefs names)
  | .whitespace .. => rfl
  | .tag .. => rfl
  | .untilAny .. => rfl
  | .untilAnyOrWs .. => rfl
  | .text .. => rfl
  | .number .. => rfl
  | .node _ _ none _ => rfl
  | .node _ _ (some _) _ => rfl
  | .fastSelect .. => rfl
  | .select rs id => by simp only [renumber, Rule.updateRefs, renumberAll_updateRefs f names rs]
  | .sequence rs id => by simp only [renumber, Rule.updateRefs, renumberAll_updateRefs f names rs]
  | .separateBy r b o t id => by
    simp only [renumber, Rule.updateRefs, renumber_updateRefs f names r, renumber_updateRefs f names b]
  | .repeat_ r _ _ => by simp only [renumber, Rule.updateRefs, renumber_updateRefs f names r]
  | .lines r _ _ => by simp only [renumber, Rule.updateRefs, renumber_updateRefs f names r]
  | .optional r _ => by simp only [renumber, Rule.updateRefs, renumber_updateRefs f names r]
  | .not r _ => by simp only [renumber, Rule.updateRefs, renumber_updateRefs f names r]
theorem renumberAll_updateRefs (f : DebugId → DebugId) (names : List Str) : (rs : List Rule) →
    Rule.updateRefsL names (renumberAll f rs) = renumberAll f (Rule.updateRefsL names rs)
  | [] => rfl
  | r :: rs => by simp only [renumberAll, Rule.updateRefsL, renumber_updateRefs f names r, renumberAll_updateRefs f names rs]
end

mutual
theorem renumbered_two {R : DebugId → DebugId → Prop} (f g : DebugId → DebugId) (h : ∀ id, R (f id) (g id)) :
    ∀ r, Renumbered R (renumber f r) (renumber g r)
  | .whitespace .. => .whitespace (h _)
  | .tag .. => .tag (h _)
  | .untilAny .. => .untilAny (h _)
  | .untilAnyOrWs .. => .untilAnyOrWs (h _)
  | .text .. => .text (h _)
  | .number .. => .number (h _)
  | .node .. => .node (h _)
  | .select rs _ => .select (h _) (renumberedL_two f g h rs)
  | .fastSelect _ rs _ _ => .fastSelect (h _) (renumberedL_two f g h rs)
  | .sequence rs _ => .sequence (h _) (renumberedL_two f g h rs)
  | .separateBy r b _ _ _ => .separateBy (h _) (renumbered_two f g h r) (renumbered_two f g h b)
  | .repeat_ r _ _ => .repeat_ (h _) (renumbered_two f g h r)
  | .lines r _ _ => .lines (h _) (renumbered_two f g h r)
  | .optional r _ => .optional (h _) (renumbered_two f g h r)
  | .not r _ => .not (h _) (renumbered_two f g h r)
theorem renumberedL_two {R : DebugId → DebugId → Prop} (f g : DebugId → DebugId) (h : ∀ id, R (f id) (g id)) :
    ∀ rs, RenumberedL R (renumberAll f rs) (renumberAll g rs)
  | [] => .nil
  | r :: rs => .cons (renumbered_two f g h r) (renumberedL_two f g h rs)
end

end Verif
