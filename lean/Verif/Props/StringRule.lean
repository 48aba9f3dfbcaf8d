import Verif.Proofs.StdLexer
import Verif.Spec.StringText
import Verif.Spec.Api
/-
C138: exactly what string rules read.
-/
namespace Verif.Std
open Spec

theorem hexVal_eq {c : Char} : hexVal c = hexDigitVal c := by
  by_cases h : c.toNat < 128
  · have key : ∀ n < 128, hexVal (Char.ofNat n) = hexDigitVal (Char.ofNat n) := by decide +kernel
    have := key c.toNat h
    rwa [Char.ofNat_toNat] at this
  · have h1 : hexVal c = none := by
      unfold hexVal
      simp only
      rw [if_neg (by omega), if_neg (by omega), if_neg (by omega)]
    have h2 : ∀ d ∈ "0123456789abcdef".toList ++ "0123456789ABCDEF".toList, c ≠ d := by
      rintro d hd rfl
      have : ∀ d ∈ "0123456789abcdef".toList ++ "0123456789ABCDEF".toList, d.toNat < 128 := by decide
      exact h (this c hd)
    have h3 : "0123456789abcdef".toList.idxOf? c = none := by
      rw [List.idxOf?_eq_none_iff]
      exact fun hc => h2 c (List.mem_append_left _ hc) rfl
    have h4 : "0123456789ABCDEF".toList.idxOf? c = none := by
      rw [List.idxOf?_eq_none_iff]
      exact fun hc => h2 c (List.mem_append_right _ hc) rfl
    rw [h1, hexDigitVal, h3, h4]
    rfl

theorem hexDigitVal_plain {c : Char} {n : Nat} (h : hexDigitVal c = some n) : c ≠ '"' ∧ c ≠ '\\' := by
  have h1 : hexDigitVal '"' = none := by decide
  have h2 : hexDigitVal '\\' = none := by decide
  constructor
  · rintro rfl
    rw [h1] at h
    cases h
  · rintro rfl
    rw [h2] at h
    cases h

theorem unescape_iff {c x : Char} : unescape c = some x ↔ (c, x) ∈ simpleEscapes := by
  constructor
  · intro h
    unfold unescape at h
    split at h <;> first | (cases h; decide) | cases h
  · intro h
    simp only [simpleEscapes, List.mem_cons, Prod.mk.injEq, List.not_mem_nil, or_false] at h
    rcases h with ⟨rfl, rfl⟩ | ⟨rfl, rfl⟩ | ⟨rfl, rfl⟩ | ⟨rfl, rfl⟩ | ⟨rfl, rfl⟩ | ⟨rfl, rfl⟩ | ⟨rfl, rfl⟩ | ⟨rfl, rfl⟩ <;> rfl

theorem toNat_valid {n : Nat} (h : n.isValidChar) : (Char.ofNat n).toNat = n := by
  simp [Char.ofNat, h, Char.ofNatAux, Char.toNat]

theorem hex4_iff {a b c d x : Char} : hex4 a b c d = some x ↔ ∃ i j k l, hexDigitVal a = some i ∧ hexDigitVal b = some j ∧ hexDigitVal c = some k ∧
    hexDigitVal d = some l ∧ x.toNat = i * 4096 + j * 256 + k * 16 + l := by
  simp only [hex4, hexVal_eq]
  constructor
  · intro h
    cases ha : hexDigitVal a with
    | none => rw [ha] at h; cases h
    | some i =>
      cases hb : hexDigitVal b with
      | none => rw [ha, hb] at h; cases h
      | some j =>
        cases hc : hexDigitVal c with
        | none => rw [ha, hb, hc] at h; cases h
        | some k =>
          cases hd : hexDigitVal d with
          | none => rw [ha, hb, hc, hd] at h; cases h
          | some l =>
            rw [ha, hb, hc, hd] at h
            simp only [Option.bind_eq_bind, Option.bind_some] at h
            split at h
            · rename_i hv
              cases h
              refine ⟨i, j, k, l, rfl, rfl, rfl, rfl, ?_⟩
              have hx : (Char.ofNat (((i * 16 + j) * 16 + k) * 16 + l)).toNat = ((i * 16 + j) * 16 + k) * 16 + l := toNat_valid hv
              omega
            · cases h
  · rintro ⟨i, j, k, l, ha, hb, hc, hd, hx⟩
    rw [ha, hb, hc, hd]
    simp only [Option.bind_eq_bind, Option.bind_some]
    have : ((i * 16 + j) * 16 + k) * 16 + l = x.toNat := by omega
    have hv : x.toNat.isValidChar := x.valid
    rw [this, if_pos hv, Char.ofNat_toNat]

/-- The scan ends at the closing quote. -/
theorem scan_quoted {t rest : List Char} (h : QuotedText t) : scanStr (t ++ '"' :: rest) false = some (t.length + 1) := by
  induction h with
  | nil => rfl
  | plain hq hb _ ih => simp [scanStr, hq, hb, ih]
  | escape _ ih => simp [scanStr, ih]

theorem quoted_scan : ∀ (n : Nat) {cs : List Char}, scanStr cs false = some n → ∃ t rest, cs = t ++ '"' :: rest ∧ n = t.length + 1 ∧ QuotedText t := by
  intro n
  induction n using Nat.strongRecOn with
  | ind n ih =>
    intro cs h
    cases cs with
    | nil => cases h
    | cons c cs =>
      simp only [scanStr] at h
      split at h
      · rename_i hc
        subst hc
        cases cs with
        | nil => cases h
        | cons d cs =>
          simp only [scanStr, Option.map_map, Option.map_eq_some_iff] at h
          obtain ⟨m, h1, h2⟩ := h
          simp only [Function.comp_apply] at h2
          obtain ⟨t, rest, rfl, h3, h4⟩ := ih m (by omega) h1
          exact ⟨'\\' :: d :: t, rest, rfl, by simp only [List.length_cons]; omega, .escape h4⟩
      · split at h
        · rename_i hq
          subst hq
          cases h
          exact ⟨[], cs, rfl, rfl, .nil⟩
        · rename_i hb hq
          obtain ⟨m, h1, h2⟩ := Option.map_eq_some_iff.1 h
          obtain ⟨t, rest, rfl, h3, h4⟩ := ih m (by omega) h1
          exact ⟨c :: t, rest, rfl, by simp only [List.length_cons]; omega, .plain hq hb h4⟩

theorem decode_simple {c : Char} {t : List Char} (hu : ∀ a b d e cs, c = 'u' → t = a :: b :: d :: e :: cs → False) (off : Nat) :
    decode ('\\' :: c :: t) off = match unescape c with
      | some x => (decode t (off + 2)).map (x :: ·)
      | none => .error (⟨off, 2⟩, ⟨0⟩) := by
  rw [decode]
  · cases unescape c <;> rfl
  · exact hu

theorem decode_hex {a b c d : Char} {t : List Char} (off : Nat) : decode ('\\' :: 'u' :: a :: b :: c :: d :: t) off = match hex4 a b c d with
    | some x => (decode t (off + 6)).map (x :: ·)
    | none => .error (⟨off, 6⟩, ⟨1⟩) := by
  rw [decode]
  cases hex4 a b c d <;> rfl

theorem decode_text {t : List Char} {s : Str} (h : StrText t s) : ∀ off, decode t off = .ok s := by
  induction h with
  | nil => intro; rfl
  | plain hq hb _ ih =>
    intro off
    rw [decode_plain hb, ih]
    rfl
  | @escape c x t s hc _ ih =>
    intro off
    have h1 := unescape_iff.2 hc
    have hu : c ≠ 'u' := by rintro rfl; cases h1
    rw [decode_simple fun _ _ _ _ _ h _ => hu h, h1]
    simp only [ih]
    rfl
  | hex ha hb hc hd hx _ ih =>
    intro off
    have h1 := hex4_iff.2 ⟨_, _, _, _, ha, hb, hc, hd, hx⟩
    unfold decode
    simp only [h1, ih]
    rfl

theorem text_quoted {t : List Char} {s : Str} (h : StrText t s) : QuotedText t := by
  induction h with
  | nil => exact .nil
  | plain hq hb _ ih => exact .plain hq hb ih
  | escape _ _ ih => exact .escape ih
  | hex ha hb hc hd _ _ ih =>
    have a := hexDigitVal_plain ha
    have b := hexDigitVal_plain hb
    have c := hexDigitVal_plain hc
    have d := hexDigitVal_plain hd
    exact .escape (.plain a.1 a.2 (.plain b.1 b.2 (.plain c.1 c.2 (.plain d.1 d.2 ih))))

theorem quoted_drop {c : Char} {t : List Char} (h : QuotedText (c :: t)) (hb : c ≠ '\\') : c ≠ '"' ∧ QuotedText t := by
  cases h with
  | plain hq _ h => exact ⟨hq, h⟩
  | escape h => exact absurd rfl hb

theorem except_map_ok {α β ε} {x : Except ε α} {f : α → β} {y : β} (h : x.map f = .ok y) : ∃ a, x = .ok a ∧ f a = y := by
  cases x with
  | error => cases h
  | ok a => cases h; exact ⟨a, rfl, rfl⟩

theorem text_decode : ∀ (n : Nat) {t : List Char} {s : Str} {off : Nat}, t.length = n → QuotedText t → decode t off = .ok s → StrText t s := by
  intro n
  induction n using Nat.strongRecOn with
  | ind n ih =>
    intro t s off hn hq h
    cases t with
    | nil => cases h; exact .nil
    | cons c t =>
      by_cases hb : c = '\\'
      · subst hb
        have q0 : ∀ {c t'}, t = c :: t' → QuotedText t' := by
          rintro c t' rfl
          cases hq with
          | plain _ hb _ => exact absurd rfl hb
          | escape h => exact h
        by_cases hu : ∃ a b c d t', t = 'u' :: a :: b :: c :: d :: t'
        · obtain ⟨a, b, c, d, t', rfl⟩ := hu
          rw [decode_hex] at h
          split at h
          · rename_i x hx
            obtain ⟨s', h1, rfl⟩ := except_map_ok h
            obtain ⟨i, j, k, l, ha, hb, hc, hd, hx⟩ := hex4_iff.1 hx
            have q2 := (quoted_drop (q0 rfl) (hexDigitVal_plain ha).2).2
            have q3 := (quoted_drop q2 (hexDigitVal_plain hb).2).2
            have q4 := (quoted_drop q3 (hexDigitVal_plain hc).2).2
            have q5 := (quoted_drop q4 (hexDigitVal_plain hd).2).2
            simp only [List.length_cons] at hn
            exact .hex ha hb hc hd hx (ih t'.length (by omega) rfl q5 h1)
          · cases h
        · cases t with
          | nil => simp [decode] at h
          | cons c t' =>
            rw [decode_simple fun a b d e cs h1 h2 => hu ⟨a, b, d, e, cs, by rw [h1, h2]⟩] at h
            split at h
            · rename_i x hx
              obtain ⟨s', h1, rfl⟩ := except_map_ok h
              simp only [List.length_cons] at hn
              exact .escape (unescape_iff.1 hx) (ih t'.length (by omega) rfl (q0 rfl) h1)
            · cases h
      · rw [decode_plain hb] at h
        obtain ⟨s', h1, rfl⟩ := except_map_ok h
        obtain ⟨q1, q2⟩ := quoted_drop hq hb
        simp only [List.length_cons] at hn
        exact .plain q1 hb (ih t.length (by omega) rfl q2 h1)

end Verif.Std

namespace Verif.Props
open Spec

/-- A quoted string is taken up to the first quote that does not stand after a backslash, which itself does not stand after one, and so on. -/
theorem C138_taken {src : Str} {n : Nat} : stdLexer.str src = some n ↔ ∃ t rest, src = '"' :: (t ++ '"' :: rest) ∧ n = t.length + 2 ∧ QuotedText t := by
  constructor
  · intro h
    have h : Std.str src = some n := h
    unfold Std.str at h
    split at h
    · obtain ⟨m, h1, h2⟩ := Option.map_eq_some_iff.1 h
      obtain ⟨t, rest, rfl, h3, h4⟩ := Std.quoted_scan m h1
      exact ⟨t, rest, rfl, by omega, h4⟩
    · cases h
  · rintro ⟨t, rest, rfl, rfl, h⟩
    show (Std.scanStr _ false).map (· + 1) = _
    rw [Std.scan_quoted h]
    rfl

/-- It is read as `s` exactly if it stands for `s`. -/
theorem C138_value {src : Str} {n : Nat} {s : Str} : stdLexer.str src = some n ∧ stdLexer.parseStr src n = .ok s ↔
    ∃ t rest, src = '"' :: (t ++ '"' :: rest) ∧ n = t.length + 2 ∧ StrText t s := by
  have hp : ∀ t rest : Str, stdLexer.parseStr ('"' :: (t ++ '"' :: rest)) (t.length + 2) = Std.decode t 1 := by
    intro t rest
    show Std.decode ((t ++ '"' :: rest).take (t.length + 2 - 2)) 1 = _
    rw [Nat.add_sub_cancel, List.take_left]
  rw [C138_taken]
  constructor
  · rintro ⟨⟨t, rest, rfl, rfl, h⟩, h'⟩
    rw [hp] at h'
    exact ⟨t, rest, rfl, rfl, Std.text_decode _ rfl h h'⟩
  · rintro ⟨t, rest, rfl, rfl, h⟩
    exact ⟨⟨t, rest, rfl, rfl, Std.text_quoted h⟩, (hp t rest).trans (Std.decode_text h 1)⟩

/-- It stands for at most one string. -/
theorem C138_one {t s s' : Str} (h : StrText t s) (h' : StrText t s') : s = s' := by
  have := (Std.decode_text h 0).symm.trans (Std.decode_text h' 0)
  cases this
  rfl

/-- Every string can be written. -/
theorem C138_every (s : Str) : ∃ t, StrText t s := by
  induction s with
  | nil => exact ⟨[], .nil⟩
  | cons c s ih =>
    obtain ⟨t, ht⟩ := ih
    by_cases hq : c = '"'
    · subst hq
      exact ⟨'\\' :: '"' :: t, .escape (by decide) ht⟩
    · by_cases hb : c = '\\'
      · subst hb
        exact ⟨'\\' :: '\\' :: t, .escape (by decide) ht⟩
      · exact ⟨c :: t, .plain hq hb ht⟩

/-- A syntax that is one string rule accepts exactly the quoted texts that stand for something, with what they stand for. -/
theorem C138_rule {p name : Str} {empty : Bool} {id : DebugId} {text : Str} {ind : Indent} {ds : List MetaData} :
    (∃ ts, Accepts stdLexer ⟨[.text empty (some p) id], [name]⟩ text ind ts ∧ ts.map (·.data) = ds) ↔
    ∃ t s, text = '"' :: (t ++ ['"']) ∧ StrText t s ∧ (t = [] → empty = true) ∧ ds = [.string p s] := by
  constructor
  · rintro ⟨ts, ⟨r, j, tr, h1, h2⟩, rfl⟩
    simp only [List.getLast?_singleton, Option.some.injEq] at h1
    subst h1
    generalize ho : some (text.length, ts) = o at h2
    cases h2 with
    | text_ok h h2 hv =>
      cases ho
      obtain ⟨t, rest, h3, h4, h5⟩ := C138_value.1 ⟨h, hv⟩
      simp only at h3
      have hr : rest = [] := by
        have := congrArg List.length h3
        simp only [List.length_cons, List.length_append] at this
        exact List.eq_nil_of_length_eq_zero (by omega)
      subst hr
      refine ⟨t, _, h3, h5, fun ht => h2 ?_, rfl⟩
      rw [h4, ht]
      rfl
    | _ => cases ho
  · rintro ⟨t, s, rfl, h1, h2, rfl⟩
    obtain ⟨h3, h4⟩ := C138_value.2 ⟨t, [], rfl, rfl, h1⟩
    have hl : ('"' :: (t ++ ['"'])).length = t.length + 2 := by simp
    refine ⟨named (some p) 0 (t.length + 2) fun x => .string x s, ⟨_, ind.indent, [], rfl, ?_⟩, rfl⟩
    rw [hl]
    exact .text_ok h3 (fun hn => h2 (List.eq_nil_of_length_eq_zero (by omega))) h4

/-- A quoted text that stands for nothing is an error. -/
theorem C138_error {t rest : Str} (hq : QuotedText t) (h : ∀ s, ¬ StrText t s) :
    ∃ e, stdLexer.parseStr ('"' :: (t ++ '"' :: rest)) (t.length + 2) = .error e := by
  cases hp : stdLexer.parseStr ('"' :: (t ++ '"' :: rest)) (t.length + 2) with
  | error e => exact ⟨e, rfl⟩
  | ok s =>
    obtain ⟨t', rest', h1, h2, h3⟩ := C138_value.1 ⟨C138_taken.2 ⟨t, rest, rfl, rfl, hq⟩, hp⟩
    have h4 := (List.append_inj (List.cons.inj h1).2 (by omega)).1
    subst h4
    exact absurd h3 (h s)

/-- `"a\"\u0042"` stands for `a"B`. -/
example : stdLexer.parseStr "\"a\\\"\\u0042\" c".toList 11 = .ok "a\"B".toList :=
  (C138_value.2 ⟨"a\\\"\\u0042".toList, " c".toList, rfl, rfl, .plain (by decide) (by decide) (.escape (x := '"') (by decide)
    (.hex (x := 'B') (i := 0) (j := 0) (k := 4) (l := 2) (by decide) (by decide) (by decide) (by decide) (by decide) .nil))⟩).2

/-- `\x` and half of a surrogate pair stand for nothing. -/
example : (∀ s, ¬ StrText "\\x".toList s) ∧ ∀ s, ¬ StrText "\\ud83d".toList s := by
  have h : ∀ {t s e}, Std.decode t 0 = .error e → ¬ StrText t s := fun h1 h2 => by
    rw [Std.decode_text h2 0] at h1
    cases h1
  exact ⟨fun s => h (e := (⟨0, 2⟩, ⟨0⟩)) rfl, fun s => h (e := (⟨0, 6⟩, ⟨1⟩)) rfl⟩

end Verif.Props
