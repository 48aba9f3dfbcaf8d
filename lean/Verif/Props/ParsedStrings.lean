import Verif.Props.StringRule
import Verif.Props.Origin
import Verif.Props.Leftover
/-
C139: the strings in the data, and what is wrong with strings that cannot be read.
-/
namespace Verif.Std
open Spec

/-- No beginning of a bad escape stands for anything. -/
theorem not_text {b : List Char} (h1 : ∀ c t x, b = c :: t → unescape c ≠ some x)
    (h2 : ∀ a c d e t x, b = 'u' :: a :: c :: d :: e :: t → hex4 a c d e ≠ some x) (k : Nat) (s : Str) : ¬ StrText ('\\' :: b.take k) s := by
  intro h
  have hb := List.take_append_drop k b
  generalize ho : '\\' :: b.take k = o at h
  cases h with
  | nil => cases ho
  | plain _ hb' _ => exact hb' (List.cons.inj ho).1.symm
  | escape hc _ =>
    rw [(List.cons.inj ho).2] at hb
    exact h1 _ _ _ hb.symm (unescape_iff.2 hc)
  | hex ha hb' hc hd hx _ =>
    rw [(List.cons.inj ho).2] at hb
    exact h2 _ _ _ _ _ _ hb.symm (hex4_iff.2 ⟨_, _, _, _, ha, hb', hc, hd, hx⟩)

/-- An error lies at the first bad escape. -/
theorem decode_error : ∀ (n : Nat) {t : List Char} {off : Nat} {r : Range} {e : StrErr}, t.length = n → QuotedText t → decode t off = .error (r, e) →
    ∃ a b s, t = a ++ '\\' :: b ∧ StrText a s ∧ r.offset = off + a.length ∧ 2 ≤ r.length ∧ r.length ≤ b.length + 1 ∧
      ∀ k s, ¬ StrText ('\\' :: b.take k) s := by
  intro n
  induction n using Nat.strongRecOn with
  | ind n ih =>
    intro t off r e hn hq h
    cases t with
    | nil => cases h
    | cons c t =>
      by_cases hb : c = '\\'
      · subst hb
        have q0 : ∀ {c t'}, t = c :: t' → QuotedText t' := by
          rintro c t' rfl
          cases hq with
          | plain _ hb _ => exact absurd rfl hb
          | escape h => exact h
        by_cases hu : ∃ a b c d t', t = 'u' :: a :: b :: c :: d :: t'
        · obtain ⟨a, b, c, d, t', rfl⟩ := hu
          rw [decode_hex] at h
          split at h
          · rename_i x hx
            obtain ⟨i, j, k, l, ha, hb, hc, hd, hx⟩ := hex4_iff.1 hx
            have q2 := (quoted_drop (q0 rfl) (hexDigitVal_plain ha).2).2
            have q3 := (quoted_drop q2 (hexDigitVal_plain hb).2).2
            have q4 := (quoted_drop q3 (hexDigitVal_plain hc).2).2
            have q5 := (quoted_drop q4 (hexDigitVal_plain hd).2).2
            simp only [List.length_cons] at hn
            obtain ⟨a', b', s, rfl, h1, h2, h3⟩ := ih t'.length (by omega) rfl q5 (except_map_error h)
            exact ⟨_ :: _ :: a :: b :: c :: d :: a', b', _, rfl, .hex ha hb hc hd hx h1, by simp only [List.length_cons]; omega, h3⟩
          · rename_i hx
            cases h
            refine ⟨[], _, [], rfl, .nil, rfl, by simp, by simp, not_text ?_ ?_⟩
            · intro c' t'' x heq
              cases heq
              rintro ⟨⟩
            · intro a' c' d' e' t'' x heq
              cases heq
              rw [hx]
              rintro ⟨⟩
        · cases t with
          | nil => cases hq with
            | plain _ hb _ => exact absurd rfl hb
          | cons c t' =>
            rw [decode_simple fun a b d e cs h1 h2 => hu ⟨a, b, d, e, cs, by rw [h1, h2]⟩] at h
            split at h
            · rename_i x hx
              simp only [List.length_cons] at hn
              obtain ⟨a', b', s, rfl, h1, h2, h3⟩ := ih t'.length (by omega) rfl (q0 rfl) (except_map_error h)
              exact ⟨_ :: c :: a', b', _, rfl, .escape (unescape_iff.1 hx) h1, by simp only [List.length_cons]; omega, h3⟩
            · rename_i hx
              cases h
              refine ⟨[], _, [], rfl, .nil, rfl, by simp, by simp, not_text ?_ ?_⟩
              · intro c' t'' x heq
                cases heq
                rw [hx]
                rintro ⟨⟩
              · intro a' c' d' e' t'' x heq
                exact absurd ⟨_, _, _, _, _, heq⟩ hu
      · rw [decode_plain hb] at h
        obtain ⟨q1, q2⟩ := quoted_drop hq hb
        simp only [List.length_cons] at hn
        obtain ⟨a', b', s, rfl, h1, h2, h3⟩ := ih t.length (by omega) rfl q2 (except_map_error h)
        exact ⟨c :: a', b', _, rfl, .plain q1 hb h1, by simp only [List.length_cons]; omega, h3⟩

end Verif.Std

namespace Verif.Props
open Spec

/-- What a string of the data says about the text at its range: either it is that text, recorded by a rule that reads up to a character, or that text
is quoted and stands for it, recorded by a string rule. -/
def SaysString (rules : List Rule) (text : Str) (rg : Range) (n s : Str) : Prop :=
  ((∃ any opt id, Part rules (.untilAny any opt (some n) id) ∨ Part rules (.untilAnyOrWs any opt (some n) id)) ∧ (text.drop rg.offset).take rg.length = s) ∨
  ((∃ empty id, Part rules (.text empty (some n) id)) ∧ ∃ t, (text.drop rg.offset).take rg.length = '"' :: (t ++ ['"']) ∧ StrText t s)

theorem records_string {refs : List Rule} {ind : Indent} {text : Str} {x : Rule} {rg : Range} {n s : Str} (hx : Part refs x)
    (h : Records (envOf stdLexer refs ind) text x ⟨rg, .string n s⟩) : SaysString refs text rg n s := by
  cases h with
  | untilAny h => exact .inl ⟨⟨_, _, _, .inl hx⟩, rfl⟩
  | untilAnyOrWs h => exact .inl ⟨⟨_, _, _, .inr hx⟩, rfl⟩
  | text h hs =>
    obtain ⟨t, rest, h1, h2, h3⟩ := C138_value.1 ⟨h, hs⟩
    refine .inr ⟨⟨_, _, hx⟩, t, ?_, h3⟩
    simp only at h1 h2 ⊢
    rw [h1, h2, show '"' :: (t ++ '"' :: rest) = ('"' :: (t ++ ['"'])) ++ rest by simp]
    exact List.take_left' (by simp)

/-- Every string in the data of an accepted text is what stands at its range. -/
theorem C139_string {syn : Syntax} {text : Str} {ind : Indent} {toks : List Tok} (h : Parses stdLexer syn text [] ind (.ok toks)) {rg : Range} {n s : Str}
    (ht : ⟨rg, .string n s⟩ ∈ toks) : SaysString syn.rules text rg n s := by
  obtain ⟨ts, rfl, hts⟩ := C57_items stdLexer_lawful h
  obtain ⟨x, hx, hr⟩ := hts _ ht
  exact records_string hx hr

/-- So are those that a rejected text leaves in the vector. -/
theorem C139_left {syn : Syntax} {text : Str} {ind : Indent} {err : RErr} {toks : List Tok} (h : Parses stdLexer syn text [] ind (.err err toks)) {rg : Range}
    {n s : Str} (ht : ⟨rg, .string n s⟩ ∈ toks) : SaysString syn.rules text rg n s := by
  obtain ⟨ts, rfl, hts⟩ := C81_items stdLexer_lawful h
  obtain ⟨-, x, hx, hr⟩ := hts _ ht
  exact records_string hx hr

/-- "Expected text": no quoted string begins there. -/
theorem C139_expected {syn : Syntax} {text : Str} {ind : Indent} {toks toks' : List Tok} {rg : Range} {id : DebugId}
    (h : Parses stdLexer syn text toks ind (.err ⟨rg, .expectedText id⟩ toks')) :
    ∀ t rest, QuotedText t → text.drop rg.offset ≠ '"' :: (t ++ '"' :: rest) := by
  intro t rest hq heq
  cases C56_returned stdLexer_lawful h with
  | rule hx hb => cases hb with
    | noText hn =>
      have hn := hn.symm.trans (C138_taken.2 ⟨t, rest, heq, rfl, hq⟩)
      cases hn

/-- "Empty text not allowed": two quotes stand there. -/
theorem C139_empty {syn : Syntax} {text : Str} {ind : Indent} {toks toks' : List Tok} {rg : Range} {id : DebugId}
    (h : Parses stdLexer syn text toks ind (.err ⟨rg, .emptyTextNotAllowed id⟩ toks')) : (text.drop rg.offset).take rg.length = ['"', '"'] := by
  cases C56_returned stdLexer_lawful h with
  | rule hx hb => cases hb with
    | emptyText hn =>
      obtain ⟨t, rest, h1, h2, -⟩ := C138_taken.1 hn
      cases t with
      | nil => simp only at h1 ⊢; rw [h1]; rfl
      | cons => simp at h2

/-- "Invalid string format": the range begins at a backslash inside a quoted string, what stands before it in the quotes stands for something, and
no beginning of what stands after it does; the range ends before the closing quote. -/
theorem C139_invalid {syn : Syntax} {text : Str} {ind : Indent} {toks toks' : List Tok} {rg : Range} {id : DebugId} {e : StrErr}
    (h : Parses stdLexer syn text toks ind (.err ⟨rg, .parseStringError e id⟩ toks')) :
    ∃ off a b rest s, text.drop off = '"' :: (a ++ '\\' :: b ++ '"' :: rest) ∧ QuotedText (a ++ '\\' :: b) ∧ StrText a s ∧
      rg.offset = off + 1 + a.length ∧ 2 ≤ rg.length ∧ rg.length ≤ b.length + 1 ∧ ∀ k s, ¬ StrText ('\\' :: b.take k) s := by
  cases C56_returned stdLexer_lawful h with
  | rule hx hb => cases hb with
    | @badText _ _ _ off n r _ hs hv =>
      obtain ⟨t, rest, h1, rfl, h3⟩ := C138_taken.1 hs
      have hv : Std.parseStr (text.drop off) (t.length + 2) = .error (r, e) := hv
      rw [h1] at hv
      have hv : Std.decode ((t ++ '"' :: rest).take (t.length + 2 - 2)) 1 = .error (r, e) := hv
      rw [Nat.add_sub_cancel, List.take_left] at hv
      obtain ⟨a, b, s, rfl, h4, h5, h6, h7, h8⟩ := Std.decode_error _ rfl h3 hv
      exact ⟨off, a, b, rest, s, h1, h3, h4, by simp only; omega, h6, h7, h8⟩

/-! ### Examples -/

/-- `.t!:"a"` and `..","?:"b"`. -/
def exStrings : Syntax := ⟨[.sequence [.text false (some c!"a") 1, .untilAny c!"," true (some c!"b") 2] 3], [c!"doc"]⟩

theorem exStrings_parses : Parses stdLexer exStrings c!"\"x\\n\"y\"" [] Indent.default
    (.ok [⟨⟨0, 5⟩, .string c!"a" ['x', '\n']⟩, ⟨⟨5, 2⟩, .string c!"b" ['y', '"']⟩]) := ⟨by simp, 9, by decide +kernel⟩

example : SaysString exStrings.rules c!"\"x\\n\"y\"" ⟨0, 5⟩ c!"a" ['x', '\n'] := C139_string exStrings_parses (by simp)

/-- `"x\"` does not end, `"x\q"` has a bad escape. -/
example : ∃ toks, Parses stdLexer exStrings c!"\"x\\\"" [] Indent.default (.err ⟨⟨0, 0⟩, .expectedText 1⟩ toks) := ⟨[], by simp, 9, by decide +kernel⟩

example : ∃ e toks, Parses stdLexer exStrings c!"\"x\\q\"" [] Indent.default (.err ⟨⟨2, 2⟩, .parseStringError e 1⟩ toks) :=
  ⟨⟨0⟩, [], by simp, 9, by decide +kernel⟩

example : ∃ toks, Parses stdLexer exStrings c!"\"\"," [] Indent.default (.err ⟨⟨0, 2⟩, .emptyTextNotAllowed 1⟩ toks) := ⟨[], by simp, 9, by decide +kernel⟩

end Verif.Props
