import Verif.Model.Eq
import Verif.Props.Optimize
/-
Equality: C45, C50.
-/
namespace Verif.Props
open Spec

mutual
private theorem peq_eq : ∀ (a b : Rule), Rule.peq a b = true → a = b
  | .whitespace .., b, h => by cases b <;> simp_all [Rule.peq]
  | .tag .., b, h => by cases b <;> simp_all [Rule.peq]
  | .untilAny .., b, h => by cases b <;> simp_all [Rule.peq]
  | .untilAnyOrWs .., b, h => by cases b <;> simp_all [Rule.peq]
  | .text .., b, h => by cases b <;> simp_all [Rule.peq]
  | .number .., b, h => by cases b <;> simp_all [Rule.peq]
  | .select rs i, b, h => by
    cases b <;> simp [Rule.peq] at h
    rw [peqL_eq rs _ h.1, h.2]
  | .fastSelect .., b, h => by cases b <;> simp [Rule.peq] at h
  | .sequence rs i, b, h => by
    cases b <;> simp [Rule.peq] at h
    rw [peqL_eq rs _ h.1, h.2]
  | .separateBy r b' _ _ _, b, h => by
    cases b <;> simp [Rule.peq] at h
    rw [peq_eq r _ h.1.1.1.1, peq_eq b' _ h.1.1.1.2, h.1.1.2, h.1.2, h.2]
  | .repeat_ r _ _, b, h => by
    cases b <;> simp [Rule.peq] at h
    rw [peq_eq r _ h.1.1, h.1.2, h.2]
  | .lines r _ _, b, h => by
    cases b <;> simp [Rule.peq] at h
    rw [peq_eq r _ h.1.1, h.1.2, h.2]
  | .node .., b, h => by cases b <;> simp_all [Rule.peq]
  | .optional r _, b, h => by
    cases b <;> simp [Rule.peq] at h
    rw [peq_eq r _ h.1, h.2]
  | .not r _, b, h => by
    cases b <;> simp [Rule.peq] at h
    rw [peq_eq r _ h.1, h.2]
private theorem peqL_eq : ∀ (a b : List Rule), Rule.peqL a b = true → a = b
  | [], b, h => by cases b <;> simp_all [Rule.peqL]
  | r :: rs, b, h => by
    cases b <;> simp [Rule.peqL] at h
    rw [peq_eq r _ h.1, peqL_eq rs _ h.2]
end

/-- A table look-up rule. -/
def IsTable (r : Rule) : Prop := ∃ t args tail id, r = .fastSelect t args tail id

mutual
private theorem peq_refl : ∀ (r : Rule), (∀ x, Occurs x r → ¬ IsTable x) → Rule.peq r r = true
  | .whitespace .., _ => by simp [Rule.peq]
  | .tag .., _ => by simp [Rule.peq]
  | .untilAny .., _ => by simp [Rule.peq]
  | .untilAnyOrWs .., _ => by simp [Rule.peq]
  | .text .., _ => by simp [Rule.peq]
  | .number .., _ => by simp [Rule.peq]
  | .select rs i, h => by
    simp only [Rule.peq, beq_self_eq_true, Bool.and_true]
    exact peqL_refl rs fun r hr x hx => h x (.step hx (.select hr))
  | .fastSelect t args tail id, h => absurd ⟨t, args, tail, id, rfl⟩ (h _ .refl)
  | .sequence rs i, h => by
    simp only [Rule.peq, beq_self_eq_true, Bool.and_true]
    exact peqL_refl rs fun r hr x hx => h x (.step hx (.sequence hr))
  | .separateBy r b _ _ _, h => by
    simp [Rule.peq, peq_refl r fun x hx => h x (.step hx .item), peq_refl b fun x hx => h x (.step hx .sep)]
  | .repeat_ r _ _, h => by simp [Rule.peq, peq_refl r fun x hx => h x (.step hx .repeat_)]
  | .lines r _ _, h => by simp [Rule.peq, peq_refl r fun x hx => h x (.step hx .lines)]
  | .node .., _ => by simp [Rule.peq]
  | .optional r _, h => by simp [Rule.peq, peq_refl r fun x hx => h x (.step hx .optional)]
  | .not r _, h => by simp [Rule.peq, peq_refl r fun x hx => h x (.step hx .not)]
private theorem peqL_refl : ∀ (rs : List Rule), (∀ r ∈ rs, ∀ x, Occurs x r → ¬ IsTable x) → Rule.peqL rs rs = true
  | [], _ => rfl
  | r :: rs, h => by
    simp [Rule.peqL, peq_refl r (h r (by simp)), peqL_refl rs fun r hr => h r (by simp [hr])]
end

private theorem peqL_mem {rs : List Rule} (h : Rule.peqL rs rs = true) : ∀ r ∈ rs, Rule.peq r r = true := by
  induction rs with
  | nil => simp
  | cons a rs ih =>
    simp [Rule.peqL] at h
    intro r hr
    rcases List.mem_cons.1 hr with rfl | hr
    · exact h.1
    · exact ih h.2 r hr

private theorem peq_child {c r : Rule} (hc : Child c r) (h : Rule.peq r r = true) : Rule.peq c c = true := by
  cases hc <;> simp [Rule.peq] at h <;> first | exact h | exact h.1 | exact h.2 | exact peqL_mem h _ ‹_›

private theorem peq_occurs {x r : Rule} (hx : Occurs x r) (h : Rule.peq r r = true) : Rule.peq x x = true := by
  induction hx with
  | refl => exact h
  | step _ hc ih => exact ih (peq_child hc h)

/-! ### C45 -/

/-- Rules that compare equal are the same, so they behave the same. -/
theorem C45_sound {a b : Rule} (h : Rule.peq a b = true) : a = b := peq_eq a b h

/-- Two syntaxes that compare equal parse alike. -/
theorem C45_syntax_sound {a b : Syntax} (h : Syntax.peq a b = true) :
    a = b ∧ ∀ L text toks ind o, Parses L a text toks ind o ↔ Parses L b text toks ind o := by
  have : a = b := by
    obtain ⟨ra, na⟩ := a
    obtain ⟨rb, nb⟩ := b
    simp [Syntax.peq] at h
    rw [peqL_eq _ _ h.1, h.2]
  subst this
  exact ⟨rfl, fun _ _ _ _ _ => Iff.rfl⟩

/-- A rule is equal to itself exactly if no table look-up occurs in it. -/
theorem C45_reflexive_iff (r : Rule) : Rule.peq r r = true ↔ ∀ x, Occurs x r → ¬ IsTable x := by
  constructor
  · rintro h x hx ⟨t, args, tail, id, rfl⟩
    have := peq_occurs hx h
    simp [Rule.peq] at this
  · exact peq_refl r

/-- A syntax is equal to itself exactly if it has no table look-up. -/
theorem C45_syntax_reflexive_iff (syn : Syntax) : Syntax.peq syn syn = true ↔ ∀ x, Part syn.rules x → ¬ IsTable x := by
  simp only [Syntax.peq, beq_self_eq_true, Bool.and_true]
  constructor
  · rintro h x ⟨q, hq, hx⟩
    exact (C45_reflexive_iff q).1 (peqL_mem h q hq) x hx
  · intro h
    exact peqL_refl _ fun r hr x hx => h x ⟨r, hr, hx⟩

/-- Equality is symmetric and transitive. -/
theorem C45_symmetric_transitive {a b c : Rule} :
    (Rule.peq a b = true → Rule.peq b a = true) ∧
    (Rule.peq a b = true → Rule.peq b c = true → Rule.peq a c = true) := by
  refine ⟨fun h => ?_, fun h h' => ?_⟩
  · have := C45_sound h; subst this; exact h
  · have := C45_sound h; subst this; exact h'

/-- A small syntax whose optimized form is not equal to itself. -/
theorem C45_optimized_differs_from_itself : ∃ syn syn', Optimizes syn syn' ∧
    Syntax.peq syn syn = true ∧ Syntax.peq syn' syn' = false :=
  ⟨⟨[.select [.tag c!"a" false false none 1, .tag c!"b" false false none 2] 3], [c!"doc"]⟩, _,
    ⟨5, rfl⟩, by decide, rfl⟩

example : Rule.peq exItem exItem = true := by decide
example : ¬ ∀ x, Occurs x (.optional (.fastSelect (fun _ => 0) [] false 1) 2) → ¬ IsTable x := by
  intro h
  exact h _ (.step .refl .optional) ⟨_, _, _, _, rfl⟩

/-! ### C50 -/

/-- Items of meta data that compare equal differ at most in the sign of a zero. -/
theorem C50_meta_data_equal_iff (a b : MetaData) : MetaData.peq a b = true ↔
    (a = b ∧ ∀ n v, a = .f64 n v → v.isNaN = false) ∨
    (∃ n v w, a = .f64 n v ∧ b = .f64 n w ∧ v.isZero = true ∧ w.isZero = true) := by
  have hn : ∀ z : F64, z.isZero = true → z.isNaN = false := by
    intro z hz
    simp only [F64.isZero, Bool.and_eq_true, beq_iff_eq] at hz
    simp [F64.isNaN, hz.1]
  cases a with
  | f64 n v =>
    cases b with
    | f64 m w =>
      simp only [MetaData.peq, Bool.and_eq_true, beq_iff_eq, F64.feq, Bool.or_eq_true, Bool.not_eq_true',
        MetaData.f64.injEq]
      obtain ⟨v⟩ := v
      obtain ⟨w⟩ := w
      constructor
      · rintro ⟨rfl, ⟨h₁, h₂⟩, rfl | ⟨h₃, h₄⟩⟩
        · exact .inl ⟨⟨rfl, rfl⟩, by rintro _ _ ⟨rfl, rfl⟩; exact h₁⟩
        · exact .inr ⟨_, _, _, ⟨rfl, rfl⟩, ⟨rfl, rfl⟩, h₃, h₄⟩
      · rintro (⟨⟨rfl, e⟩, h⟩ | ⟨k, x, y, ⟨rfl, rfl⟩, ⟨rfl, rfl⟩, hx, hy⟩)
        · simp at e
          subst e
          have := h n ⟨v⟩ ⟨rfl, rfl⟩
          exact ⟨rfl, ⟨this, this⟩, .inl rfl⟩
        · exact ⟨rfl, ⟨hn _ hx, hn _ hy⟩, .inr ⟨hx, hy⟩⟩
    | _ => simp [MetaData.peq]
  | _ => cases b <;> simp [MetaData.peq]

/-- An item is equal to itself unless it is not a number. -/
theorem C50_meta_data_reflexive_iff (a : MetaData) :
    MetaData.peq a a = true ↔ ∀ n v, a = .f64 n v → v.isNaN = false := by
  rw [C50_meta_data_equal_iff]
  constructor
  · rintro (⟨_, h⟩ | ⟨n, v, w, rfl, h, hv, hw⟩)
    · exact h
    · rintro _ _ h'
      cases h'
      simp only [F64.isZero, Bool.and_eq_true, beq_iff_eq] at hv
      simp [F64.isNaN, hv.1]
  · intro h
    exact .inl ⟨rfl, h⟩

example : MetaData.peq (.f64 c!"a" ⟨0⟩) (.f64 c!"a" ⟨0x8000000000000000⟩) = true := by decide
example : MetaData.peq (.f64 c!"a" ⟨0x7FF8000000000000⟩) (.f64 c!"a" ⟨0x7FF8000000000000⟩) = false := by decide
example : MetaData.peq (.startNode c!"a") (.endNode c!"a") = false := by decide

end Verif.Props
