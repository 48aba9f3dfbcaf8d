import Verif.Proofs.FileSize
import Verif.Props.ConvertCost
/-
C97: how much data a rule file gives, and what it costs to convert it.
-/
namespace Verif.Props
open Verif Verif.Spec

section
variable {L : Lexer}

/-- C97: a rule file gives at most four items of data for each character; fifteen less if it gives any. -/
theorem C97_bound (hL : L.Lawful) (hX : L.Exact) {text : Str} {data : List Tok}
    (h : Parses L bootstrapRules text [] Indent.default (.ok data)) : data = [] ∨ data.length + 15 ≤ 4 * text.length := by
  obtain ⟨doc, h1, h2⟩ := parses_text hL hX h
  have h3 := doc_length hL h1
  rw [← h2] at h3
  simpa using h3

/-- `0 a =???…b`. -/
def asksDoc (k : Nat) : Doc := ⟨[], [(⟨0⟩, c!"a", Nat.rec (.reference c!"b" none) (fun _ d => .optional d) k)]⟩
def asksFile (k : Nat) : Str := c!"0 a =" ++ (List.replicate k '?' ++ c!"b")

theorem asks_text (hz : ReadsZero L) (k : Nat) : (asksDoc k).Text L (asksFile k) := by
  refine ⟨[], [.node ⟨0⟩ c!"a" (Nat.rec (.reference c!"b" none) (fun _ d => .optional d) k)], by simp, by simp [Entry.isString], ?_, rfl, rfl⟩
  refine ⟨[], asksFile k, [], by decide, by simp, ?_, by simp [EntriesText, Space], by simp⟩
  refine ⟨c!"0", c!" ", c!" ", [], List.replicate k '?' ++ c!"b", hz _ _ (by decide), by decide, by decide, by decide, by decide,
    by decide, by decide, by decide, ?_, by simp [asksFile]⟩
  induction k with
  | zero => exact ⟨[], by decide, by decide, rfl, rfl⟩
  | succ k ih => exact ⟨_, ih, rfl⟩

theorem asks_length (k : Nat) : (asksDoc k).data.length = 4 * k + 9 := by
  rw [doc_items]
  simp only [asksDoc, List.length_nil, List.map_cons, List.map_nil, List.sum_cons, List.sum_nil]
  induction k with
  | zero => rfl
  | succ k ih =>
    simp only [Desc.data, nodeOf_length] at ih ⊢
    omega

/-- C97: no better bound of this kind is true. -/
theorem C97_sharp (hL : L.Lawful) (hX : L.Exact) (hz : ReadsZero L) (k : Nat) :
    ∃ data, Parses L bootstrapRules (asksFile k) [] Indent.default (.ok data) ∧ data.length + 15 = 4 * (asksFile k).length := by
  obtain ⟨data, h1, h2⟩ := text_writes hL (exact_noSlash hX) (asks_text hz k)
  refine ⟨data, h1, ?_⟩
  have h3 := congrArg List.length h2
  rw [List.length_map, asks_length] at h3
  rw [h3]
  simp [asksFile]
  omega

/-- C97: to convert a rule file to rules takes at most quadratic time. -/
theorem C97_convert (hL : L.Lawful) (hX : L.Exact) {text : Str} {data : List Tok}
    (h : Parses L bootstrapRules text [] Indent.default (.ok data)) {ignored ignored' : List Range} {r : Option Syntax} {k : Nat}
    (hk : ConvertsIn data ignored r ignored' k) : k ≤ 32 * text.length ^ 2 + 80 * text.length + 3 := by
  have h1 := C96_parsed h hk
  have h2 : data.length ≤ 4 * text.length := by
    rcases C97_bound hL hX h with rfl | h2
    · simp
    · omega
  have h3 := Nat.mul_le_mul h2 h2
  rw [Nat.pow_two] at h1 ⊢
  have h4 : 4 * text.length * (4 * text.length) = 16 * (text.length * text.length) := by
    rw [Nat.mul_assoc, Nat.mul_left_comm text.length, ← Nat.mul_assoc]
  omega

/-- C97: if every string that is used is defined, so that nothing is ignored, it takes at most 80 plus four times the number of strings
for each character. -/
theorem C97_convert_linear (hL : L.Lawful) (hX : L.Exact) {text : Str} {data : List Tok}
    (h : Parses L bootstrapRules text [] Indent.default (.ok data)) {ignored : List Range} {r : Option Syntax} {k : Nat}
    (hk : ConvertsIn data ignored r ignored k) : k ≤ (4 * stringNodes data + 80) * text.length + 3 := by
  obtain ⟨ts, e, hw⟩ := C05_data_well_nested h
  obtain rfl : data = ts := e
  have h1 := C96_linear hw hk
  have h2 : data.length ≤ 4 * text.length := by
    rcases C97_bound hL hX h with rfl | h2
    · simp
    · omega
  have h3 := Nat.mul_le_mul_left (stringNodes data + 20) h2
  rw [← Nat.mul_assoc, show (stringNodes data + 20) * 4 = 4 * stringNodes data + 80 by omega] at h3
  omega

end

/-! ### Examples -/

example : asksFile 3 = c!"0 a =???b" := by decide

example : ∃ data, Parses stdLexer bootstrapRules c!"0 a =???b" [] Indent.default (.ok data) ∧ data.length = 21 := by
  obtain ⟨data, h1, h2⟩ := C97_sharp stdLexer_lawful stdLexer_exact std_readsZero 3
  exact ⟨data, h1, by have : (asksFile 3).length = 9 := rfl; omega⟩

/-- Less characters are too few for any data. -/
example {data : List Tok} {text : Str} (h : Parses stdLexer bootstrapRules text [] Indent.default (.ok data)) (ht : text.length < 4) :
    data = [] := by
  rcases C97_bound stdLexer_lawful stdLexer_exact h with h | h
  · exact h
  · omega

end Verif.Props
