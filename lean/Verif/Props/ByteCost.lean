import Verif.Proofs.ByteCost
import Verif.Props.OptCost
/-
What the optimizer costs, the calls of `unique_byte`: C93.
-/
namespace Verif.Props
open Spec

/-- Counting calls of `unique_byte` changes nothing else. -/
theorem C93_same {refs : List Rule} {n : Nat} {r : Rule} :
    (∀ o, uniqueByte refs n r = .ok o ↔ ∃ k, uniqueByteCounted refs n r = .ok (o, k)) ∧
    (∀ r', optimizeRule refs n r = .ok r' ↔ ∃ k, optimizeRuleBytes refs n r = .ok (r', k)) ∧
    (optimizeRule refs n r = .panic ↔ optimizeRuleBytes refs n r = .panic) ∧
    (optimizeRule refs n r = .timeout ↔ optimizeRuleBytes refs n r = .timeout) := by
  rw [← optimizeRuleBytes_erase r, ← uniqueByteCounted_erase n r]
  refine ⟨fun o => Comp.erase_ok, fun r' => Comp.erase_ok, ?_⟩
  cases optimizeRuleBytes refs n r <;> simp [Comp.erase, Bind.bind, Comp.bind, pure]

/-- `unique_byte` calls itself once for each rule in the chain of rules that begins with `r`. -/
theorem C93_unique_byte {refs : List Rule} {r : Rule} {o : Option UInt8} {m : Nat} :
    UniqueByteIn refs r o m ↔ UniqueByte refs r o ∧ ByteChain refs r m := by
  constructor
  · rintro ⟨n, h⟩
    exact ⟨⟨n, by rw [← uniqueByteCounted_erase, h]; rfl⟩, uniqueByteCounted_chain h⟩
  · rintro ⟨⟨n, h⟩, hc⟩
    rw [← uniqueByteCounted_erase] at h
    obtain ⟨k, h⟩ := Comp.erase_ok.1 h
    cases chain_det hc (uniqueByteCounted_chain h)
    exact ⟨n, h⟩

/-- No rule comes twice in the chain; so there are at most as many calls as there are rules in the syntax. -/
theorem C93_unique_byte_bound {refs : List Rule} {q r : Rule} {o : Option UInt8} {m : Nat} (hq : q ∈ refs)
    (hr : OccursOutside r q) (h : UniqueByteIn refs r o m) : 1 ≤ m ∧ m ≤ outerSizes refs := by
  have hc := (C93_unique_byte.1 h).2
  exact ⟨by cases hc <;> omega, chain_size hc ⟨q, hq, hr⟩⟩

/-- How many calls of `unique_byte` `optimize` makes, exactly. -/
theorem C93_calls {syn syn' : Syntax} {m : Nat} :
    OptimizesBytes syn syn' m ↔ Optimizes syn syn' ∧ m = byteWorks syn.rules syn.rules := by
  have key : ∀ {n syn' k}, syn.optimizeBytes n = .ok (syn', k) → k = byteWorks syn.rules syn.rules := by
    intro n syn' k h
    obtain ⟨⟨as, k⟩, h1, h2⟩ := Comp.bind_ok.1 h
    cases h2
    rw [← optimizeRulesBytes_eq] at h1
    exact optimizeRulesBytes_count h1
  constructor
  · rintro ⟨n, h⟩
    refine ⟨⟨n, ?_⟩, key h⟩
    rw [← optimizeBytes_erase]
    exact Comp.erase_ok.2 ⟨m, h⟩
  · rintro ⟨⟨n, h⟩, rfl⟩
    rw [← optimizeBytes_erase] at h
    obtain ⟨k, h⟩ := Comp.erase_ok.1 h
    cases key h
    exact ⟨n, h⟩

/-- After `k` calls of `optimize_rule`, those on the rules of the syntax themselves not counted, there are at most `k`
times as many calls of `unique_byte` as there are rules. -/
theorem C93_bound {syn syn' : Syntax} {m k : Nat} (h : OptimizesBytes syn syn' m) (h' : OptimizesIn syn syn' k) :
    m ≤ (k - syn.rules.length) * outerSizes syn.rules := by
  obtain ⟨-, rfl⟩ := C93_calls.1 h
  obtain ⟨-, rfl⟩ := C80_calls.1 h'
  have := byteWorks_le (refs := syn.rules) syn.rules fun r hr => ⟨r, hr, .refl⟩
  rw [Nat.sub_mul]
  omega

/-- Without selects that are tried twice there are fewer calls of `unique_byte` than the square of the number of
rules. -/
theorem C93_square {syn syn' : Syntax} {m : Nat} (h : OptimizesBytes syn syn' m)
    (ht : ∀ q ∈ syn.rules, ∀ args id, OccursOutside (.select args id) q → ¬ TriedTwice syn.rules args) :
    m ≤ outerSizes syn.rules * outerSizes syn.rules := by
  obtain ⟨k, hk⟩ : ∃ k, OptimizesIn syn syn' k := ⟨_, C80_calls.2 ⟨(C93_calls.1 h).1, rfl⟩⟩
  have h1 := C93_bound h hk
  rw [C80_linear hk ht] at h1
  exact Nat.le_trans h1 (Nat.mul_le_mul_right _ (Nat.sub_le _ _))

/-- The calls for the table of a select are those for the alternatives to which the optimizer comes: as long as there
are fewer than 255 before, and these have bytes that differ. -/
theorem C93_table {refs args : List Rule} {t : Table} {u : Nat} :
    UniqueTable refs args t u ↔ ∃ n, uniqueTableCounted refs n args = .ok ((t, u), tableCalls refs args) := by
  constructor
  · rintro ⟨n, h⟩
    rw [← uniqueTableCounted_erase] at h
    obtain ⟨k, h⟩ := Comp.erase_ok.1 h
    rw [uniqueTableCounted_count h] at h
    exact ⟨n, h⟩
  · rintro ⟨n, h⟩
    exact ⟨n, by rw [← uniqueTableCounted_erase, h]; rfl⟩

/-! ### A square -/

theorem boxed_size : ∀ k, outerSize (boxed k) = k + 1
  | 0 => by simp [boxed, outerSize]
  | k + 1 => by
    simp only [boxed, outerSize, outerSizes, boxed_size k]
    omega

theorem boxed_chain {refs : List Rule} : ∀ k, ByteChain refs (boxed k) (k + 1)
  | 0 => .last (by rintro c ⟨⟩) (by rintro ⟨_, _, _, _, ⟨⟩, _⟩)
  | k + 1 => .step .select (boxed_chain k)

theorem boxed_work {refs : List Rule} : ∀ k, 2 * byteWork refs (boxed k) = k * (k + 1)
  | 0 => by simp [boxed, byteWork]
  | k + 1 => by
    have ih := boxed_work (refs := refs) k
    simp only [boxed, byteWork, byteWorks, tableCalls, reached]
    rw [if_pos ⟨by simp, by simp, by simp⟩, if_neg (by simp [TriedTwice])]
    simp only [List.map_cons, List.map_nil, List.sum_cons, List.sum_nil, chain_length (boxed_chain k)]
    rw [Nat.add_mul k 1 (k + 1 + 1), Nat.mul_add k (k + 1) 1]
    omega

theorem boxed_optimized {refs : List Rule} : ∀ k, Optimized refs (boxed k) (boxed k)
  | 0 => .tag
  | k + 1 => by
    obtain ⟨o, ho⟩ := chain_counted (boxed_chain (refs := refs) k)
    have ht : ∃ t u, uniqueTable refs (k + 1) [boxed k] = .ok (t, u) ∧ u < 2 := by
      rw [← uniqueTableCounted_erase]
      simp only [uniqueTableCounted, uniqueLoopCounted, ho]
      cases o with
      | none => exact ⟨_, _, rfl, by omega⟩
      | some b => exact ⟨_, _, rfl, by omega⟩
    obtain ⟨t, u, ht, hu⟩ := ht
    exact .select ⟨_, ht⟩ hu (.cons (boxed_optimized k) .nil)

/-- There are syntaxes of `k + 1` rules without selects that are tried twice for which `k * (k + 1) / 2` calls are made:
`k` selects in each other of one alternative each, which stay as they are. -/
theorem C93_selects (k : Nat) (name : Str) :
    outerSizes [boxed k] = k + 1 ∧
    ∃ m, 2 * m = k * (k + 1) ∧ OptimizesBytes ⟨[boxed k], [name]⟩ ⟨[boxed k], [name]⟩ m := by
  refine ⟨by simp only [outerSizes, boxed_size], byteWork [boxed k] (boxed k), boxed_work k, ?_⟩
  exact C93_calls.2 ⟨C72_optimized.2 ⟨rfl, .cons (boxed_optimized k) .nil⟩, by simp [byteWorks]⟩

/-! ### Examples -/

/-- A select with references: to a tag, to a sequence of that, to a select of that; then one with the byte of the
first; the last one is not looked at. -/
def exBytes : Syntax :=
  ⟨[.select [.node c!"t" none (some 1) 1, .node c!"u" none (some 2) 2, .node c!"t" none (some 1) 3,
      .node c!"u" none (some 2) 4] 5,
    .tag c!"a" false false none 6,
    .sequence [.node c!"v" none (some 3) 7, .whitespace true 8] 9,
    .select [.tag c!"b" false false none 10] 11], [c!"x", c!"t", c!"u", c!"v"]⟩

/-- Two calls, five, two, and one for the select of one alternative. -/
example : ∃ syn', OptimizesBytes exBytes syn' (2 + 5 + 2 + 1) := ⟨_, 10, rfl⟩

example : ∃ syn', OptimizesIn exBytes syn' 11 := ⟨_, 10, rfl⟩

example : UniqueByteIn exBytes.rules (.node c!"u" none (some 2) 2) (some 0x62) 5 := ⟨6, rfl⟩

/-- The 180 hard-coded rules for rule files take 199 calls of `optimize_rule` and 31 of `unique_byte`. -/
example : ∃ syn', OptimizesBytes bootstrapRules syn' 31 := ⟨_, 10, rfl⟩

/-- Optimizing the rule `{.w? .w? {.w? .w? ..}}` of C80 calls `unique_byte` exponentially often, too. -/
example : ∃ syn', OptimizesBytes ⟨[nestRule 3 0], [c!"a"]⟩ syn' 7 := ⟨_, 10, rfl⟩

end Verif.Props
