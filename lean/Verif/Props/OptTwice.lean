import Verif.Proofs.OptTwice
import Verif.Props.Optimize
import Verif.Props.Syntax
/-
What the optimizer makes of a syntax, exactly; optimizing twice is optimizing once: C72.
-/
namespace Verif.Props
open Spec

theorem firstByte_iff {c : Char} {b : UInt8} : (String.utf8EncodeChar c).head? = some b ↔ firstByte c = b := by
  unfold firstByte
  cases h : String.utf8EncodeChar c with
  | nil => exact absurd h (by simp)
  | cons x xs => simp

/-- `unique_byte` finds exactly the bytes that can be seen from the rule. -/
theorem C72_unique_byte {refs : List Rule} {r : Rule} {b : UInt8} :
    UniqueByte refs r (some b) ↔ BeginsWith refs r b := by
  constructor
  · rintro ⟨n, h⟩
    induction n generalizing r with
    | zero => simp [uniqueByte] at h
    | succ n ih =>
      unfold uniqueByte at h
      split at h
      all_goals try cases h
      · exact .call .notNot (ih h)
      · exact .text
      · exact .call .select (ih h)
      · split at h
        · exact absurd h (by simp)
        · rename_i ho
          simp only [Bool.not_eq_true] at ho
          subst ho
          exact .call .item (ih h)
      · exact .call .sequence (ih h)
      · split at h
        · exact absurd h (by simp)
        · rename_i ho
          simp only [Bool.not_eq_true] at ho
          subst ho
          exact .call .repeat_ (ih h)
      · split at h
        · exact absurd h (by simp)
        · rename_i hq
          exact .call (.node hq) (ih h)
      · split at h
        · exact absurd h (by simp)
        · rename_i ho
          simp only [Bool.not_eq_true] at ho
          subst ho
          split at h
          · simp only [Comp.ok.injEq, Option.some.injEq] at h
            exact .tag (firstByte_iff.2 h)
          · exact absurd h (by simp)
  · intro h
    induction h with
    | text => exact ⟨1, rfl⟩
    | tag h =>
      refine ⟨1, ?_⟩
      simp [uniqueByte, firstByte_iff.1 h]
    | call h _ ih =>
      obtain ⟨n, ih⟩ := ih
      refine ⟨n + 1, ?_⟩
      cases h with
      | notNot => exact ih
      | select => exact ih
      | item => simpa [uniqueByte] using ih
      | sequence => exact ih
      | repeat_ => simpa [uniqueByte] using ih
      | node h => simpa [uniqueByte, h] using ih

/-- What `optimize` returns, exactly. -/
theorem C72_optimized {syn syn' : Syntax} :
    Optimizes syn syn' ↔ syn'.names = syn.names ∧ OptimizedL syn.rules syn.rules syn'.rules := by
  constructor
  · rintro ⟨n, h⟩
    obtain ⟨rules, h1, h2⟩ := Comp.bind_ok.1 h
    cases h2
    exact ⟨rfl, optimizedL_of _ _ h1⟩
  · rintro ⟨h1, h2⟩
    obtain ⟨n, h2⟩ := of_optimizedL h2
    obtain ⟨rules, names⟩ := syn'
    cases h1
    exact ⟨n, Comp.bind_ok.2 ⟨_, h2, rfl⟩⟩

/-- Optimizing an optimized syntax returns it unchanged. -/
theorem C72_twice {syn syn' syn'' : Syntax} (h : Optimizes syn syn') : Optimizes syn' syn'' ↔ syn'' = syn' := by
  have h' : Optimizes syn' syn' := by
    obtain ⟨n, h⟩ := h
    obtain ⟨rules, h1, h2⟩ := Comp.bind_ok.1 h
    cases h2
    exact ⟨n, Comp.bind_ok.2 ⟨_, optimizeRules_opt h1 _ _ h1, rfl⟩⟩
  exact ⟨fun h2 => C31_deterministic h2 h', fun e => e ▸ h'⟩

/-- `syntax` returns optimized rules, so that calling `optimize` on them, as in benches/bench.rs:80 and
src/optimize.rs:267, has no effect. -/
theorem C72_syntax {L : Lexer} (hL : L.Lawful) {text : Str} {syn syn' : Syntax} (h : SyntaxReturns L text (.ok syn)) :
    Optimizes syn syn' ↔ syn' = syn := by
  obtain ⟨_, _, _, _, rs, _, h3⟩ := C46_result hL h
  exact C72_twice h3

/-- A select whose first or second alternative has no unique byte, or whose first two have the same,
is left as it is, apart from its alternatives: the attempt at src/optimize.rs:134-147 to make a table of
the others never succeeds. -/
theorem C72_no_table {refs : List Rule} {a a' : Rule} {l : List Rule} {id r'}
    (h : Optimized refs (.select (a :: a' :: l) id) r')
    (hb : ¬ ∃ b b', BeginsWith refs a b ∧ BeginsWith refs a' b' ∧ b ≠ b') :
    ∃ l', OptimizedL refs (a :: a' :: l) l' ∧ r' = .select l' id := by
  have key : ∀ {t u}, UniqueTable refs (a :: a' :: l) t u → 2 ≤ u → False := by
    intro t u ht h2
    obtain ⟨b, h3, -⟩ := (C30_table_exact ht).2.2.1 0 a (by omega) rfl
    obtain ⟨b', h4, -⟩ := (C30_table_exact ht).2.2.1 1 a' (by omega) rfl
    refine hb ⟨b, b', C72_unique_byte.1 h3, C72_unique_byte.1 h4, ?_⟩
    rintro rfl
    have := C30_bytes_distinct ht (i := 0) (j := 1) (by omega) (by omega) rfl rfl h3 h4
    omega
  cases h with
  | select _ _ h => exact ⟨_, h, rfl⟩
  | table ht h2 h => exact (key ht h2).elim
  | tableTail ht h2 _ h => exact (key ht h2).elim

/-- A table for two of three alternatives. -/
def exTwice : Syntax :=
  ⟨[.select [.tag c!"a" false false none 1, .node c!"b" none (some 1) 2, .whitespace false 3] 4,
    .sequence [.text true none 5, .select [.whitespace false 6, .tag c!"c" false false none 7, .tag c!"d" false false none 8] 9] 10],
   [c!"a", c!"b"]⟩

example : ∃ syn', Optimizes exTwice syn' ∧ Optimizes syn' syn' ∧
    (∃ t, syn'.rules[0]? = some (.fastSelect t [.tag c!"a" false false none 1, .node c!"b" none (some 1) 2,
      .select [.whitespace false 3] 4] true 4)) ∧ syn'.rules[1]? = exTwice.rules[1]? := by
  have h : Optimizes exTwice ⟨[.fastSelect _ _ true _, _], _⟩ := ⟨5, rfl⟩
  exact ⟨_, h, (C72_twice h).2 rfl, ⟨_, rfl⟩, rfl⟩

example : BeginsWith exTwice.rules (.node c!"b" none (some 1) 2) 0x22 :=
  .call (.node rfl) (.call .sequence .text)

end Verif.Props
