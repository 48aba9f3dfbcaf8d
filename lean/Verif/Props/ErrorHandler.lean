import Verif.Proofs.ErrorHandler
import Verif.Props.Parse
/-
`ParseErrorHandler`: C35, C36.
-/
namespace Verif.Props
open Spec

/-! ### C36 -/

/-- Writing a message never panics, whatever the text, the range and the error. -/
theorem C36_no_panic (E : ErrText) (text : Str) (e : RErr) (msg : Str) :
    (∃ out, writeErr E (handlerLines text) e = .ok out) ∧
    (∃ out, writeMsg (handlerLines text) e.range msg = .ok out) := by
  refine ⟨writeErr_ok _ _ _, ?_⟩
  obtain ⟨x, hx⟩ := excerpts_ok e.range (handlerLines text) 0 false
  exact ⟨_, by simp [writeMsg, hx, bind_ok]; rfl⟩

/-- For a range after the text only the first line of the message is written. -/
theorem C36_after_the_text (E : ErrText) (text : Str) (e : RErr) (msg : Str) (h : byteLen text < e.range.offset) :
    writeErr E (handlerLines text) e = .ok (c!"Error " ++ e.err.text E ++ ['\n']) ∧
    writeMsg (handlerLines text) e.range msg = .ok (msg ++ ['\n']) := by
  have hw : ∀ l ∈ handlerLines text, l.1.next < e.range.offset := by
    intro l hl
    have := handler_within text 0 l hl
    omega
  have hx := excerpts_beyond (handlerLines text) 0 false hw
  have hf : ∀ ls : List (Range × Str), (∀ l ∈ ls, l.1.next < e.range.offset) → firstLine e.range ls = none := by
    intro ls
    induction ls with
    | nil => intro _; rfl
    | cons l ls ih =>
      intro h
      obtain ⟨r, t⟩ := l
      have := h (r, t) (by simp)
      have hn : e.range.endsIntersect r = none := by
        unfold Range.endsIntersect
        rw [if_neg]
        simp only [] at this
        omega
      simp [firstLine, hn, ih (fun l hl => h l (by simp [hl]))]
  have hb : linesBefore (handlerLines text) e.range e.err = .ok [] := by
    unfold linesBefore
    split
    · rw [hf _ hw]
    · rfl
  constructor
  · simp [writeErr, hb, hx, bind_ok]
  · simp [writeMsg, hx, bind_ok]

def exErrText : ErrText := ⟨fun _ => c!"number", fun _ => c!"string"⟩

-- a range in the middle of a multi-byte text, and one of another text
example : writeErr exErrText (handlerLines c!"é\nab") ⟨⟨1, 7⟩, .expectedEnd⟩ =
    .ok c!"Error Expected end\n1,2: é\n1,2:  ^\n2,1: ab\n" := by decide
example : writeErr exErrText (handlerLines c!"é\nab") ⟨⟨6, 1⟩, .expectedTag c!";" 5⟩ =
    .ok c!"Error #5, Expected: `;`\n" := by decide

/-! ### C35 -/

/-- The excerpt of an error at `off`: line, column, at most 100 characters of the line, and below
them a caret. `skip` characters of the line are not shown. -/
def excerptText (text : Str) (off skip : Nat) : Str :=
  dec (lineNo text off) ++ [','] ++ dec (column text off) ++ c!": " ++
    ((lineBefore text off ++ lineAfter text off).drop skip).take 100 ++ ['\n'] ++
  (dec (lineNo text off) ++ [','] ++ dec (column text off) ++ c!": " ++
    blank ((lineBefore text off).drop skip) ++ c!"^\n")

/-- The caret is under the error: the text before it is as long as the text before the error in
the line above, and the line above goes on with the characters of the text at the error. -/
theorem C35_caret (text : Str) (off skip : Nat) (hs : skip ≤ (lineBefore text off).length)
    (hl : (lineBefore text off).length - skip ≤ 100) :
    ∃ place pad shown : Str,
      excerptText text off skip = place ++ pad ++ shown ++ ['\n'] ++ (place ++ blank pad ++ c!"^\n") ∧
      (blank pad).length = pad.length ∧ pad <:+ lineBefore text off ∧ shown <+: lineAfter text off ∧
      (off ≤ text.length → lineBefore text off <:+ text.take off) ∧ lineAfter text off <+: text.drop off := by
  refine ⟨dec (lineNo text off) ++ [','] ++ dec (column text off) ++ c!": ", (lineBefore text off).drop skip,
    (lineAfter text off).take (100 - ((lineBefore text off).length - skip)), ?_, by simp [blank],
    List.drop_suffix _ _, List.take_prefix _ _, fun _ => ?_, List.takeWhile_prefix _⟩
  · have : ((lineBefore text off ++ lineAfter text off).drop skip).take 100 =
        (lineBefore text off).drop skip ++ (lineAfter text off).take (100 - ((lineBefore text off).length - skip)) := by
      rw [List.drop_append_of_le_length hs, List.take_append, List.take_of_length_le (by simpa using hl)]
      simp
    simp [excerptText, this]
  · have := List.takeWhile_prefix (l := (text.take off).reverse) (· != '\n')
    simpa [lineBefore] using List.reverse_suffix.2 this

/-- What is written for an error when the lines before it have single-byte characters only: the line and the
column of the error; a caret under it; and for ranges over several lines the other lines. -/
theorem C35_ascii_partial (E : ErrText) (text : Str) (e : RErr) (msg : Str)
    (hoff : e.range.offset ≤ text.length) (hasc : Ascii (linesAbove text e.range.offset)) :
    ∃ skip before rest,
      writeErr E (handlerLines text) e =
        .ok (c!"Error " ++ e.err.text E ++ ['\n'] ++ before ++ excerptText text e.range.offset skip ++ rest) ∧
      writeMsg (handlerLines text) e.range msg =
        .ok (msg ++ ['\n'] ++ excerptText text e.range.offset skip ++ rest) ∧
      skip ≤ (lineBefore text e.range.offset).length ∧
      (lineBefore text e.range.offset).length - skip ≤ 75 ∧
      ((lineBefore text e.range.offset).length ≤ 75 → skip = 0) ∧
      ((∀ t id, e.err ≠ .expectedTag t id) → before = []) ∧
      (e.range.length = 0 → rest = []) ∧
      (Ascii (linesAbove text e.range.next) → rest = following (lineNo text e.range.offset + 1)
        ((splitLines (text.drop e.range.offset)).tail.take
          (((text.drop e.range.offset).take e.range.length).count '\n'))) := by
  obtain ⟨rest, h0, h1, hx⟩ := excerpts_error text 0 0 e.range.offset e.range.length hoff hasc
  rw [Nat.zero_add] at hx
  obtain ⟨before, hb⟩ := linesBefore_ok (handlerLines text) e.range e.err
  have hx' : excerpts e.range 0 (handlerLines text) false =
      .ok (excerptText text e.range.offset (skipOf (lineBefore text e.range.offset).length) ++ rest) := by
    have : (⟨e.range.offset, e.range.length⟩ : Range) = e.range := rfl
    rw [this] at hx
    simp only [Nat.zero_add] at hx
    exact hx
  refine ⟨skipOf (lineBefore text e.range.offset).length, before, rest, ?_, ?_, skipOf_le _, ?_, ?_, ?_, h0, ?_⟩
  · simp [writeErr, hb, hx', bind_ok]
  · simp [writeMsg, hx', bind_ok]
  · unfold skipOf; split <;> omega
  · intro h; unfold skipOf; rw [if_neg (by omega)]
  · intro h
    unfold linesBefore at hb
    split at hb
    · rename_i t id he; exact absurd he (h t id)
    · cases hb; rfl
  · intro h
    simpa using h1 h

/-- Lines with their numbers. -/
def numbered (ls : List (Str × Nat)) : Str := ls.flatMap fun (l, n) => dec n ++ c!": " ++ l ++ ['\n']

theorem plainLines_numbered (ls : List (Range × Str)) :
    ∀ i, plainLines i ls = numbered ((ls.map (·.2)).zipIdx (i + 1)) := by
  induction ls with
  | nil => intro i; rfl
  | cons l ls ih =>
    intro i
    obtain ⟨r, t⟩ := l
    simp [plainLines, numbered, List.zipIdx_cons, ih (i + 1)]

theorem zipIdx_drop (l : List α) : ∀ n i, (l.zipIdx i).drop n = (l.drop n).zipIdx (i + n) := by
  induction l with
  | nil => simp
  | cons a l ih =>
    intro n i
    cases n with
    | zero => simp
    | succ n => simp [List.zipIdx_cons, ih, Nat.add_comm, Nat.add_left_comm]

theorem zipIdx_take (l : List α) : ∀ n i, (l.zipIdx i).take n = (l.take n).zipIdx i := by
  induction l with
  | nil => simp
  | cons a l ih =>
    intro n i
    cases n with
    | zero => simp
    | succ n => simp [List.zipIdx_cons, ih]

/-- When something was expected, the message says what, then come the lines before the error with
their numbers, back to the last one with something in it, then the line of the error. -/
theorem C35_lines_before (E : ErrText) (text : Str) (r : Range) (t : Str) (id : DebugId)
    (hoff : r.offset ≤ text.length) (hasc : Ascii (linesAbove text r.offset)) :
    ∃ p skip rest, writeErr E (handlerLines text) ⟨r, .expectedTag t id⟩ =
        .ok (c!"Error #" ++ dec id ++ c!", Expected: `" ++ t ++ c!"`\n" ++
          numbered ((((splitLines text).zipIdx 1).take (lineNo text r.offset - 1)).drop p) ++
          excerptText text r.offset skip ++ rest) ∧
      p ≤ lineNo text r.offset - 1 ∧
      (∀ k l, p < k → k < lineNo text r.offset - 1 → (splitLines text)[k]? = some l → l.all isWs = true) ∧
      (p = 0 ∨ p < lineNo text r.offset - 1 ∧ ∃ l, (splitLines text)[p]? = some l ∧ l.all isWs = false) := by
  obtain ⟨rest, -, -, hx⟩ := excerpts_error text 0 0 r.offset r.length hoff hasc
  simp only [Nat.zero_add] at hx
  change excerpts r 0 (handlerLines text) false = _ at hx
  have hf := firstLine_error text 0 r.offset r.length hoff hasc
  rw [Nat.zero_add] at hf
  change firstLine r (handlerLines text) = _ at hf
  have hlt := firstLine_lt hf
  have hz : prevLine (handlerLines text) (lineNo text r.offset - 1) 0 =
      prevLine (handlerLines text) (lineNo text r.offset - 1)
        (if lineNo text r.offset - 1 = 0 then 0 else lineNo text r.offset - 1) := by
    cases hn : lineNo text r.offset - 1 with
    | zero => simp
    | succ n => simp [prevLine]
  have get : ∀ (k : Nat) l, (splitLines text)[k]? = some l → ∃ r', (handlerLines text)[k]? = some (r', l) := by
    intro k l hk
    have := numberLines_text (splitLines text) 0
    rw [← this] at hk
    simp at hk
    exact hk
  have get' : ∀ (k : Nat) r' l, (handlerLines text)[k]? = some (r', l) → (splitLines text)[k]? = some l := by
    intro k r' l hk
    rw [← numberLines_text (splitLines text) 0]
    simp
    exact ⟨r', hk⟩
  obtain ⟨h₁, h₂, h₃⟩ := prevLine_spec (handlerLines text) _ (Nat.le_of_lt hlt) _ rfl
  rw [← hz] at h₁ h₂ h₃
  refine ⟨prevLine (handlerLines text) (lineNo text r.offset - 1) 0,
    skipOf (lineBefore text r.offset).length, rest, ?_, h₁, ?_, ?_⟩
  · have hb : linesBefore (handlerLines text) r (.expectedTag t id) =
        .ok (numbered ((((splitLines text).zipIdx 1).take (lineNo text r.offset - 1)).drop
          (prevLine (handlerLines text) (lineNo text r.offset - 1) 0))) := by
      simp only [linesBefore, hf]
      rw [if_pos (Nat.le_of_lt hlt), if_pos h₁, plainLines_numbered, List.map_drop, List.map_take,
        handlerLines, numberLines_text, zipIdx_take, zipIdx_drop, Nat.add_comm 1]
    simp only [writeErr, hb, hx, bind_ok]
    simp only [excerptText, ParseError.text, List.append_assoc, List.cons_append, List.nil_append]
  · intro k l hk hk' hl
    obtain ⟨r', hr⟩ := get k l hl
    exact h₂ k r' l hk hk' hr
  · rcases h₃ with h₃ | ⟨h₃, r', l, h₄, h₅⟩
    · exact .inl h₃
    · exact .inr ⟨h₃, l, get' _ _ _ h₄, h₅⟩

/-- After a multi-byte character the line and the column are wrong: the error is at `a` in the
second line, and is shown in the first. -/
theorem C35_multibyte_refuted :
    lineNo c!"é\nab" 2 = 2 ∧ column c!"é\nab" 2 = 1 ∧
    writeErr exErrText (handlerLines c!"é\nab") ⟨⟨2, 0⟩, .expectedNumber 3⟩ =
      .ok c!"Error #3, Expected number\n1,3: é\n1,3:  ^\n" := by decide

/-- The place of an error of `parse` is shown when the lines before it are ASCII. -/
theorem C35_parse_error {L : Lexer} (hL : L.Lawful) {syn text toks ind e toks'} (E : ErrText)
    (h : Parses L syn text toks ind (.err e toks')) (ha : Ascii (linesAbove text e.range.offset)) :
    ∃ skip before rest, reportErr E text e =
      .ok (c!"Error " ++ e.err.text E ++ ['\n'] ++ before ++ excerptText text e.range.offset skip ++ rest) := by
  have hw := C08_error_in_text hL h
  obtain ⟨skip, before, rest, h, _⟩ := C35_ascii_partial E text e [] (by
    have := hw.2
    simp [Range.next] at this
    omega) ha
  exact ⟨skip, before, rest, h⟩

example : excerptText c!"let x = 1\nlet  y" 15 0 = c!"2,6: let  y\n2,6:      ^\n" := by decide
example : ∃ skip before rest, reportErr exErrText c!"(ab,a" ⟨⟨5, 0⟩, .expectedTag c!")" 10⟩ =
    .ok (c!"Error #10, Expected: `)`\n" ++ before ++ excerptText c!"(ab,a" 5 skip ++ rest) := by
  obtain ⟨a, b, c, h⟩ := C35_parse_error stdLexer_lawful exErrText ex_err (by unfold Ascii; decide)
  exact ⟨a, b, c, h⟩
-- a range over two lines, and a long line of which only a part is shown
example : writeErr exErrText (handlerLines c!"ab\ncd\nef") ⟨⟨1, 3⟩, .expectedEnd⟩ =
    .ok c!"Error Expected end\n1,2: ab\n1,2:  ^\n2,1: cd\n" := by decide
example : excerptText (List.replicate 80 'x') 80 30 =
    c!"1,81: " ++ List.replicate 50 'x' ++ c!"\n1,81: " ++ List.replicate 50 ' ' ++ c!"^\n" := by decide

/-! ### C54 -/

/-- What is shown for byte `b` of a text that is in `line`, after the lines `above`: `skip`
characters of the line are not shown. -/
def byteExcerpt (above line : Str) (b skip : Nat) : Str :=
  dec (1 + above.count '\n') ++ [','] ++ dec (1 + (b - utf8Len above)) ++ c!": " ++ (line.drop skip).take 100 ++ ['\n'] ++
  (dec (1 + above.count '\n') ++ [','] ++ dec (1 + (b - utf8Len above)) ++ c!": " ++
    blank ((line.take (b - utf8Len above)).drop skip) ++ c!"^\n")

/-- The offset of the error is taken as a number of bytes: what is shown is the line in which that
byte of the text is. -/
theorem C54_shown (E : ErrText) (text : Str) (e : RErr) (msg : Str) (h : e.range.offset ≤ utf8Len text) :
    ∃ above line after skip before rest, AtByte text e.range.offset above line after ∧
      writeErr E (handlerLines text) e =
        .ok (c!"Error " ++ e.err.text E ++ ['\n'] ++ before ++ byteExcerpt above line e.range.offset skip ++ rest) ∧
      writeMsg (handlerLines text) e.range msg =
        .ok (msg ++ ['\n'] ++ byteExcerpt above line e.range.offset skip ++ rest) ∧
      skip ≤ e.range.offset - utf8Len above ∧ e.range.offset - utf8Len above - skip ≤ 75 ∧
      (e.range.offset - utf8Len above ≤ 75 → skip = 0) ∧
      ((∀ t id, e.err ≠ .expectedTag t id) → before = []) ∧
      (e.range.length = 0 → rest = []) := by
  rw [utf8Len_eq] at h
  obtain ⟨above, line, after, rest, h1, h2, h3, -⟩ := excerpts_byte text 0 0 e.range.offset e.range.length h
  obtain ⟨before, hb⟩ := linesBefore_ok (handlerLines text) e.range e.err
  have hle := h1.le
  simp only [utf8Len_eq] at hle
  rw [blockText_byte _ _ _ (by omega), Nat.zero_add, Nat.zero_add] at h3
  have hx : excerpts e.range 0 (handlerLines text) false =
      .ok (byteExcerpt above line e.range.offset (skipOf (e.range.offset - utf8Len above)) ++ rest) := by
    simp only [byteExcerpt, utf8Len_eq]
    exact h3
  refine ⟨above, line, after, skipOf (e.range.offset - utf8Len above), before, rest, h1, ?_, ?_, skipOf_le _, ?_, ?_, ?_, h2⟩
  · simp [writeErr, hb, hx, bind_ok]
  · simp [writeMsg, hx, bind_ok]
  · unfold skipOf; split <;> omega
  · intro h; unfold skipOf; rw [if_neg (by omega)]
  · intro h
    unfold linesBefore at hb
    split at hb
    · rename_i t id he; exact absurd he (h t id)
    · cases hb; rfl

/-- That line is determined by the byte. -/
theorem C54_one_place {text above line after above' line' after' : Str} {b : Nat}
    (h : AtByte text b above line after) (h' : AtByte text b above' line' after') :
    above = above' ∧ line = line' ∧ after = after' := atByte_unique text _ _ _ _ _ _ _ h h'

/-- The line and the column that are shown are those of the error if and only if all characters in
the lines before the line of the error have one byte; those in the line itself do not matter. -/
theorem C54_right_iff {text above line after : Str} {off : Nat} (ho : off ≤ text.length)
    (h : AtByte text off above line after) :
    (1 + above.count '\n' = lineNo text off ∧ 1 + (off - utf8Len above) = column text off) ↔
      Ascii (linesAbove text off) := by
  rw [utf8Len_eq, place_iff text (Nat.le_refl _) ho h]
  simp

-- two characters of two bytes in the line of the error, and one in the line before it
example : ∃ skip before rest, writeErr exErrText (handlerLines c!"ab\néé a") ⟨⟨6, 0⟩, .expectedNumber 3⟩ =
    .ok (c!"Error #3, Expected number\n" ++ before ++ excerptText c!"ab\néé a" 6 skip ++ rest) ∧
    excerptText c!"ab\néé a" 6 0 = c!"2,4: éé a\n2,4:    ^\n" :=
  have ⟨skip, before, rest, h, _⟩ := C35_ascii_partial exErrText c!"ab\néé a" ⟨⟨6, 0⟩, .expectedNumber 3⟩ []
    (by decide) (by unfold Ascii; decide)
  ⟨skip, before, rest, h, by decide⟩
example : AtByte c!"é\nab" 2 [] c!"é" c!"\nab" := ⟨rfl, by decide, .inl rfl, .inr rfl, by decide, by decide⟩
example : ¬ Ascii (linesAbove c!"é\nab" 2) := by unfold Ascii; decide

/-! ### C62 -/

theorem split_at {c : Char} : ∀ {a b x y : Str}, c ∉ a → c ∉ b → a ++ c :: x = b ++ c :: y → a = b ∧ x = y
  | [], [], _, _, _, _, h => ⟨rfl, by simpa using h⟩
  | [], _ :: _, _, _, _, hb, h => by simp at h; simp [h.1] at hb
  | _ :: _, [], _, _, ha, _, h => by simp at h; simp [h.1] at ha
  | _ :: _, _ :: _, _, _, ha, hb, h => by
    simp at h ha hb
    obtain ⟨h1, h2⟩ := split_at ha.2 hb.2 h.2
    exact ⟨by rw [h.1, h1], h2⟩

theorem dec_inj {m n : Nat} (h : dec m = dec n) : m = n := by
  rw [← Nat.ofDigitChars_ten_toDigits (n := m), ← Nat.ofDigitChars_ten_toDigits (n := n)]
  exact congrArg _ h

theorem comma_dec (n : Nat) : ',' ∉ dec n := fun h =>
  absurd (Nat.isDigit_of_mem_toDigits (by decide) (by decide) h) (by decide)

theorem dec_comma {m n : Nat} {x y : Str} : dec m ++ ',' :: x = dec n ++ ',' :: y ↔ m = n ∧ x = y :=
  ⟨fun h => have ⟨h1, h2⟩ := split_at (comma_dec m) (comma_dec n) h; ⟨dec_inj h1, h2⟩,
    fun ⟨h1, h2⟩ => by rw [h1, h2]⟩

theorem invalid_inj {m m' : InvalidMsg} (h : m.text = m'.text) : m = m' := by
  cases m <;> cases m' <;> first | rfl | exact absurd h (by decide)

/-- Different errors have different messages, if the crate `read_token` has different messages for
different errors. -/
theorem C62_message_tells_error {E : ErrText} (hn : ∀ a b, E.num a = E.num b → a = b)
    (hs : ∀ a b, E.str a = E.str b → a = b) {e e' : ParseError} (h : e.text E = e'.text E) : e = e' := by
  cases e <;> cases e' <;> simp [ParseError.text, dec_comma] at h <;>
    simp_all
  all_goals first | exact dec_inj h | exact hn _ _ h.2 | exact hs _ _ h.2 | exact invalid_inj h.2

/-- An error has an id if and only if its message begins with it. -/
theorem C62_message_shows_id (E : ErrText) (e : ParseError) (id : DebugId) :
    errorId e = some id ↔ ∃ rest, e.text E = '#' :: dec id ++ c!", " ++ rest := by
  cases e <;> simp [errorId, ParseError.text, dec_comma]

/-- The tag that was expected is in the message between backquotes, and ends the message. -/
theorem C62_message_shows_tag (E : ErrText) (t : Str) (id : DebugId) :
    (ParseError.expectedTag t id).text E = '#' :: dec id ++ c!", Expected: `" ++ t ++ ['`'] ∧
    (ParseError.didNotExpectTag t id).text E = '#' :: dec id ++ c!", Did not expect: `" ++ t ++ ['`'] :=
  ⟨rfl, rfl⟩

/-- The report of an error begins with the message. -/
theorem C62_report_shows_message (E : ErrText) (text : Str) (e : RErr) :
    ∃ rest, reportErr E text e = .ok (c!"Error " ++ e.err.text E ++ ['
'] ++ rest) := by
  obtain ⟨b, hb⟩ := linesBefore_ok (handlerLines text) e.range e.err
  obtain ⟨x, hx⟩ := excerpts_ok e.range (handlerLines text) 0 false
  exact ⟨b ++ x, by simp [reportErr, writeErr, hb, hx, bind_ok]⟩

example : (ParseError.expectedTag c!"}" 1007).text exErrText = c!"#1007, Expected: `}`" := by decide
example : (ParseError.expectedTag c!"} " 1007).text exErrText ≠ (ParseError.expectedTag c!"}" 1007).text exErrText := by
  decide

/-- The places that two ranges have in common, ends included. -/
theorem C35_ends_intersect (a b : Range) :
    (∀ x, a.endsIntersect b = some x → ∀ i, (x.offset ≤ i ∧ i ≤ x.offset + x.length) ↔
      (a.offset ≤ i ∧ i ≤ a.offset + a.length) ∧ b.offset ≤ i ∧ i ≤ b.offset + b.length) ∧
    (a.endsIntersect b = none ↔ ∀ i, ¬ ((a.offset ≤ i ∧ i ≤ a.offset + a.length) ∧ b.offset ≤ i ∧ i ≤ b.offset + b.length)) := by
  unfold Range.endsIntersect Range.next
  split
  · rename_i h
    refine ⟨fun x hx i => ?_, ?_⟩
    · cases hx
      simp only
      omega
    · simp only [reduceCtorEq, false_iff, Classical.not_forall]
      exact ⟨max a.offset b.offset, by omega⟩
  · rename_i h
    refine ⟨(by intro x hx; cases hx), ?_⟩
    simp only [true_iff]
    omega

example : Range.endsIntersect ⟨2, 3⟩ ⟨5, 4⟩ = some ⟨5, 0⟩ ∧ Range.endsIntersect ⟨2, 3⟩ ⟨3, 9⟩ = some ⟨3, 2⟩ ∧
    Range.endsIntersect ⟨2, 3⟩ ⟨6, 1⟩ = none := by decide

end Verif.Props
