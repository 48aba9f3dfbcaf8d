import Verif.Proofs.ConvertTreeDoc
/-
What is read from an item does not depend on where it is (for C73).
-/
namespace Verif
open Spec

/-- The rule and the last id used. -/
def Spec.RuleRead.core (x : RuleRead) : Option Rule × Nat := (x.1, x.2.1)

section
variable {strings : List (Str × Str)}

theorem withText_core (t : Option Str) (i : Nat) (l l' : List Range) (f : Str → Nat → Rule) :
    (withText t i l f).core = (withText t i l' f).core := by
  cases t <;> rfl

theorem withPart_core {x y : RuleRead} (h : x.core = y.core) (f : Rule → Nat → Rule) :
    (withPart x f).core = (withPart y f).core := by
  obtain ⟨r, i, l⟩ := x
  obtain ⟨r', i', l'⟩ := y
  simp only [RuleRead.core, Prod.mk.injEq] at h
  obtain ⟨rfl, rfl⟩ := h
  cases r <;> rfl

theorem plainRule_off (name : Str) (ks : List Piece) (off off' i : Nat) :
    (plainRule strings name ks off i).map RuleRead.core = (plainRule strings name ks off' i).map RuleRead.core := by
  simp only [plainRule]
  repeat' split
  all_goals first
    | rfl
    | exact congrArg some (withText_core ..)

theorem core_iff {x y : RuleRead} : x.core = y.core ↔ x.1 = y.1 ∧ x.2.1 = y.2.1 := by
  simp [RuleRead.core]

mutual
theorem rule_off : ∀ (k : Piece) (off off' i : Nat), (k.rule strings off i).core = (k.rule strings off' i).core
  | .bool _ _, _, _, _ => rfl
  | .string _ _, _, _, _ => rfl
  | .f64 _ _, _, _, _ => rfl
  | .node q ks, off, off', i => by
    have hp := plainRule_off (strings := strings) q ks (off + 1) (off' + 1) i
    have h₁ := parts_off [c!"rule"] (fun _ => false) ks (off + 1) (off' + 1) i
    have h₂ := parts_off [c!"rule"] repeatField ks (off + 1) (off' + 1) i
    have h₃ := parts_off [c!"by", c!"rule"] separatedField ks (off + 1) (off' + 1) i
    have h₄ := one_off ks (off + 1) (off' + 1) i
    have h₅ : (linesRead strings ks off i).core = (linesRead strings ks off' i).core := by
      match ks with
      | [] => rfl
      | k :: ks' =>
        cases hb : k.bool? c!"indent" with
        | none =>
          rw [linesRead_none hb, linesRead_none hb]
          exact withPart_core h₄ _
        | some v =>
          obtain rfl := bool?_some hb
          rw [linesRead_some, linesRead_some]
          exact withPart_core (one_off ks' _ _ _) _
    rw [rule_node, rule_node]
    cases e : plainRule strings q ks (off + 1) i with
    | some x =>
      rw [e] at hp
      cases e' : plainRule strings q ks (off' + 1) i with
      | some y =>
        rw [e'] at hp
        simpa using hp
      | none => rw [e'] at hp; simp at hp
    | none =>
      rw [e] at hp
      cases e' : plainRule strings q ks (off' + 1) i with
      | some y => rw [e'] at hp; simp at hp
      | none =>
        simp only
        repeat' split
        · simp [RuleRead.core, h₁]
        · simp [RuleRead.core, h₁]
        · exact withPart_core h₄ _
        · exact withPart_core h₄ _
        · simp only [separatedRead, h₃.1, h₃.2]
          split <;> simp [RuleRead.core, h₃.2]
        · exact h₅
        · simp only [repeatRead, h₂.1, h₂.2]
          split <;> simp [RuleRead.core, h₂.2]
        · rfl
theorem held_off (ps : List Str) : ∀ (k : Piece) (off off' i : Nat),
    (k.held strings ps off i).core = (k.held strings ps off' i).core
  | .bool _ _, _, _, _ => rfl
  | .string _ _, _, _, _ => rfl
  | .f64 _ _, _, _, _ => rfl
  | .node q ks, off, off', i => by
    simp only [Piece.held]
    split
    · exact single_off ks _ _ _
    · rfl
theorem single_off : ∀ (ks : List Piece) (off off' i : Nat),
    (Piece.single strings ks off i).core = (Piece.single strings ks off' i).core
  | [], _, _, _ => rfl
  | k :: ks, off, off', i => by
    have h := core_iff.1 (rule_off k off off' i)
    simp [Piece.single, RuleRead.core, h.1, h.2]
theorem one_off : ∀ (ks : List Piece) (off off' i : Nat),
    (Piece.one strings ks off i).core = (Piece.one strings ks off' i).core
  | [], _, _, _ => rfl
  | k :: ks, off, off', i => by
    have h := core_iff.1 (held_off [c!"rule"] k off off' i)
    simp [Piece.one, RuleRead.core, h.1, h.2]
theorem parts_off (ps : List Str) (own : Piece → Bool) : ∀ (ks : List Piece) (off off' i : Nat),
    (Piece.parts strings ps own ks off i).1 = (Piece.parts strings ps own ks off' i).1 ∧
    (Piece.parts strings ps own ks off i).2.1 = (Piece.parts strings ps own ks off' i).2.1
  | [], _, _, _ => ⟨rfl, rfl⟩
  | k :: ks, off, off', i => by
    cases ho : own k with
    | true =>
      rw [parts_own ho, parts_own ho]
      exact parts_off ps own ks _ _ _
    | false =>
      have h := core_iff.1 (held_off ps k off off' i)
      have h' := parts_off ps own ks (off + k.size) (off' + k.size) (k.held strings ps off i).2.1
      rw [parts_cons ho, parts_cons ho, ← h.1, ← h.2]
      simp [h'.1, h'.2]
end

/-- Without the ranges. -/
def Spec.NodeRead.core (s : NodeRead) : Option Nat × Option Str × Option Rule × Nat := (s.num, s.name, s.rule, s.top)

theorem add_off {s s' : NodeRead} (h : s.core = s'.core) (k : Piece) (off off' : Nat) :
    (s.add strings k off).core = (s'.add strings k off').core := by
  obtain ⟨num, name, rule, top, l⟩ := s
  obtain ⟨num', name', rule', top', l'⟩ := s'
  simp only [NodeRead.core, Prod.mk.injEq] at h
  obtain ⟨rfl, rfl, rfl, rfl⟩ := h
  have h := core_iff.1 (held_off (strings := strings) [c!"rule"] k off off' (num.getD 0 * 1000))
  simp only [NodeRead.add]
  split <;> simp [NodeRead.core, h.1, h.2]

theorem addAll_off {s s' : NodeRead} (h : s.core = s'.core) : ∀ (ks : List Piece) (off off' : Nat),
    (NodeRead.addAll strings s ks off).core = (NodeRead.addAll strings s' ks off').core := by
  intro ks
  induction ks generalizing s s' with
  | nil => intros; exact h
  | cons k ks ih => intro off off'; exact ih (add_off h k off off') _ _

theorem nodeRead_off (k : Piece) (off off' : Nat) :
    (k.nodeRead strings off).core = (k.nodeRead strings off').core := by
  cases k with
  | node q ks =>
    simp only [Piece.nodeRead]
    split
    · exact addAll_off rfl ks _ _
    · rfl
  | _ => rfl

theorem named_core {s s' : NodeRead} (h : s.core = s'.core) : s.named = s'.named := by
  simp only [NodeRead.core, Prod.mk.injEq] at h
  simp only [NodeRead.named, h]

/-- The rules are read if every item is a node. -/
theorem nodeReads_fst : ∀ (ks : List Piece) (off : Nat),
    (nodeReads strings ks off).1 = ks.mapM fun k => (k.nodeRead strings 0).named
  | [], _ => rfl
  | k :: ks, off => by
    have h := named_core (nodeRead_off (strings := strings) k off 0)
    simp only [nodeReads, List.mapM_cons, h, Option.bind_eq_bind, Option.pure_def]
    cases (k.nodeRead strings 0).named with
    | none => rfl
    | some d =>
      simp only [nodeReads_fst ks]
      cases ks.mapM fun k => (k.nodeRead strings 0).named <;> rfl


/-! ### An item more -/

theorem lastOf_insert {α : Type} {f : Piece → Option α} {k : Piece} (h : f k = none) (a b : List Piece) :
    lastOf f (a ++ k :: b) = lastOf f (a ++ b) := by
  simp [lastOf, List.filterMap_append, h]

theorem unread_insert {known : Piece → Bool} {k : Piece} (h : known k = false) (a b : List Piece) (off : Nat) :
    ⟨off + (Piece.dataL a).length, k.size⟩ ∈ unread known (a ++ k :: b) off := by
  induction a generalizing off with
  | nil => simp [unread, h, Piece.dataL]
  | cons x a ih =>
    have := ih (off + x.size)
    rw [Piece.dataL_cons, ← Nat.add_assoc]
    simp only [List.cons_append, unread, List.mem_append]
    exact .inr this

theorem parts_insert {ps : List Str} {own : Piece → Bool} {k : Piece} (ho : own k = false)
    (hh : ∀ off i, k.held strings ps off i = (none, i, [])) (a b : List Piece) (off off' i : Nat) :
    (Piece.parts strings ps own (a ++ k :: b) off i).1 = (Piece.parts strings ps own (a ++ b) off' i).1 ∧
    (Piece.parts strings ps own (a ++ k :: b) off i).2.1 = (Piece.parts strings ps own (a ++ b) off' i).2.1 ∧
    ⟨off + (Piece.dataL a).length, k.size⟩ ∈ (Piece.parts strings ps own (a ++ k :: b) off i).2.2 := by
  induction a generalizing off off' i with
  | nil =>
    rw [List.nil_append, parts_cons ho, hh]
    have h := parts_off (strings := strings) ps own b (off + k.size) off' i
    exact ⟨by simpa using h.1, h.2, by simp [Piece.dataL]⟩
  | cons x a ih =>
    rw [Piece.dataL_cons, ← Nat.add_assoc]
    simp only [List.cons_append]
    cases hx : own x with
    | true =>
      rw [parts_own hx, parts_own hx]
      exact ih _ _ _
    | false =>
      have h := core_iff.1 (held_off (strings := strings) ps x off off' i)
      have h' := ih (off + x.size) (off' + x.size) (x.held strings ps off i).2.1
      rw [parts_cons hx, parts_cons hx, ← h.1, ← h.2]
      refine ⟨by simp [h'.1], h'.2.1, ?_⟩
      simp only [List.mem_append]
      exact .inr h'.2.2

end
end Verif
