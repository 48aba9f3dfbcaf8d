import Verif.Model.ErrorHandler
import Verif.Spec.ErrorHandler
/-
What `ParseErrorHandler` writes.
-/
namespace Verif.Spec

/-! ### Lines -/

theorem splitLines_none {l : Str} (h : '\n' ∉ l) : splitLines l = [l] := by
  induction l with
  | nil => rfl
  | cons c l ih =>
    simp at h
    have hc : c ≠ '\n' := fun e => h.1 e.symm
    simp [splitLines, hc, ih h.2]

theorem splitLines_cons {l t : Str} (h : '\n' ∉ l) : splitLines (l ++ '\n' :: t) = l :: splitLines t := by
  induction l with
  | nil => simp [splitLines]
  | cons c l ih =>
    simp at h
    have hc : c ≠ '\n' := fun e => h.1 e.symm
    simp [splitLines, hc, ih h.2]

/-- A text is one line, or a line and a text. -/
theorem lines_rec {P : Str → Prop} (h₁ : ∀ l, '\n' ∉ l → P l)
    (h₂ : ∀ l t, '\n' ∉ l → P t → P (l ++ '\n' :: t)) (text : Str) : P text := by
  have : ∀ (text l : Str), '\n' ∉ l → P (l ++ text) := by
    intro text
    induction text with
    | nil => intro l hl; simpa using h₁ l hl
    | cons c text ih =>
      intro l hl
      by_cases hc : c = '\n'
      · subst hc
        exact h₂ l text hl (by simpa using ih [] (by simp))
      · have := ih (l ++ [c]) (by simp [hl]; exact fun e => hc e.symm)
        simpa using this
  simpa using this text [] (by simp)

theorem byteLen_cons (c : Char) (s : Str) : byteLen (c :: s) = c.utf8Size + byteLen s := by
  simp [byteLen]

theorem length_le_byteLen (s : Str) : s.length ≤ byteLen s := by
  induction s with
  | nil => simp [byteLen]
  | cons c s ih =>
    rw [byteLen_cons]
    have := Char.utf8Size_pos c
    simp
    omega

theorem byteLen_ascii {s : Str} (h : Ascii s) : byteLen s = s.length := by
  induction s with
  | nil => rfl
  | cons c s ih =>
    rw [byteLen_cons, h c (by simp), ih (fun d hd => h d (by simp [hd]))]
    simp
    omega

/-! ### No panics -/

theorem endsIntersect_some {a b x : Range} (h : a.endsIntersect b = some x) :
    x.offset = max a.offset b.offset ∧ a.offset ≤ b.next ∧ b.offset ≤ a.next := by
  unfold Range.endsIntersect at h
  split at h
  · rename_i hc
    simp at h
    exact ⟨by rw [← h], hc⟩
  · simp at h

theorem bind_ok {α β : Type} (a : α) (f : α → Comp β) : ((Comp.ok a : Comp α) >>= f) = f a := rfl

theorem checkedSub_ok {a b : Nat} (h : b ≤ a) : checkedSub a b = .ok (a - b) := if_pos h

/-- What is shown of a line: where it starts, and where it is cut. -/
def skipOf (j : Nat) : Nat := if j > 75 then j - 50 else 0

theorem skipOf_le (j : Nat) : skipOf j ≤ j := by unfold skipOf; split <;> omega

/-- The text of one excerpt. -/
def blockText (i j len : Nat) (text : Str) (printed : Bool) : Str :=
  let place := dec (i + 1) ++ [','] ++ dec (j + 1) ++ c!": "
  let out := place ++ (text.drop (skipOf j)).take (min (skipOf j + 100) len - skipOf j) ++ ['\n']
  if printed then out
  else out ++ place ++ blank ((text.drop (skipOf j)).take (j - skipOf j)) ++ c!"^\n"

theorem excerpt_none {range : Range} {i r text printed} (h : range.endsIntersect r = none) :
    excerpt range i r text printed = .ok ([], printed) := by
  simp [excerpt, h]

theorem excerpt_some {range r x : Range} {i text printed} (h : range.endsIntersect r = some x) :
    excerpt range i r text printed =
      .ok (blockText i (max range.offset r.offset - r.offset) r.length text printed, true) := by
  obtain ⟨e, h₁, h₂⟩ := endsIntersect_some h
  have hge : x.offset ≥ r.offset := by rw [e]; omega
  simp only [excerpt, h]
  rw [if_pos hge, checkedSub_ok hge, bind_ok, e]
  have hj : max range.offset r.offset - r.offset ≤ r.length := by simp [Range.next] at h₁; omega
  generalize max range.offset r.offset - r.offset = j at hj ⊢
  have hs : (if j > 75 then checkedSub j 50 else .ok 0) = .ok (skipOf j) := by
    unfold skipOf
    split
    · rw [checkedSub_ok (by omega)]
    · rfl
  have hs' := skipOf_le j
  refine Eq.trans (b := (if j > 75 then checkedSub j 50 else .ok 0) >>= _) (by split <;> rfl) ?_
  rw [hs, bind_ok, checkedSub_ok (by omega), bind_ok]
  cases printed with
  | true => simp [blockText]
  | false => simp [checkedSub_ok hs', bind_ok, blockText, blank]

theorem excerpts_ok (range : Range) : ∀ (ls : List (Range × Str)) (i : Nat) (printed : Bool),
    ∃ t, excerpts range i ls printed = .ok t
  | [], _, _ => ⟨[], rfl⟩
  | (r, text) :: ls, i, printed => by
    rw [excerpts]
    cases h : range.endsIntersect r with
    | none =>
      obtain ⟨t, ht⟩ := excerpts_ok range ls (i + 1) printed
      exact ⟨t, by rw [excerpt_none h, bind_ok]; simp [ht, bind_ok]⟩
    | some x =>
      obtain ⟨t, ht⟩ := excerpts_ok range ls (i + 1) true
      exact ⟨_, by rw [excerpt_some h, bind_ok]; simp [ht, bind_ok]; rfl⟩

theorem excerpts_skip {range r : Range} {text ls i printed} (h : range.endsIntersect r = none) :
    excerpts range i ((r, text) :: ls) printed = excerpts range (i + 1) ls printed := by
  rw [excerpts, excerpt_none h, bind_ok]
  obtain ⟨t, ht⟩ := excerpts_ok range ls (i + 1) printed
  simp [ht, bind_ok]

theorem excerpts_hit {range r x : Range} {text ls i printed t} (h : range.endsIntersect r = some x)
    (ht : excerpts range (i + 1) ls true = .ok t) :
    excerpts range i ((r, text) :: ls) printed =
      .ok (blockText i (max range.offset r.offset - r.offset) r.length text printed ++ t) := by
  rw [excerpts, excerpt_some h, bind_ok]
  simp [ht, bind_ok]

/-- Nothing is written for lines after the range. -/
theorem excerpts_past {range : Range} : ∀ (ls : List Str) (start i : Nat) (printed : Bool), range.next < start →
    excerpts range i (numberLines start ls) printed = .ok []
  | [], _, _, _, _ => rfl
  | l :: ls, start, i, printed, h => by
    rw [numberLines, excerpts_skip]
    · exact excerpts_past ls _ _ _ (by omega)
    · unfold Range.endsIntersect
      rw [if_neg]
      simp only []
      omega

/-- Nothing is written for lines before the range. -/
theorem excerpts_beyond {range : Range} : ∀ (ls : List (Range × Str)) (i : Nat) (printed : Bool),
    (∀ l ∈ ls, l.1.next < range.offset) → excerpts range i ls printed = .ok []
  | [], _, _, _ => rfl
  | (r, text) :: ls, i, printed, h => by
    rw [excerpts_skip]
    · exact excerpts_beyond ls _ _ (fun l hl => h l (by simp [hl]))
    · have := h (r, text) (by simp)
      unfold Range.endsIntersect
      rw [if_neg]
      simp only [] at this
      omega

theorem numberLines_length (ls : List Str) (start : Nat) : (numberLines start ls).length = ls.length := by
  induction ls generalizing start with
  | nil => rfl
  | cons l ls ih => simp [numberLines, ih]

theorem numberLines_text (ls : List Str) (start : Nat) : (numberLines start ls).map (·.2) = ls := by
  induction ls generalizing start with
  | nil => rfl
  | cons l ls ih => simp [numberLines, ih]

theorem handler_within (text : Str) : ∀ start, ∀ l ∈ numberLines start (splitLines text),
    l.1.next ≤ start + byteLen text := by
  have app : ∀ a b : Str, byteLen (a ++ b) = byteLen a + byteLen b := by intro a b; simp [byteLen]
  refine lines_rec (P := fun text => ∀ start, ∀ l ∈ numberLines start (splitLines text),
    l.1.next ≤ start + byteLen text) ?_ ?_ text
  · intro l hl start x hx
    simp [splitLines_none hl, numberLines] at hx
    subst hx
    simp [Range.next]
  · intro l t hl ih start x hx
    rw [splitLines_cons hl, numberLines] at hx
    rw [app, byteLen_cons]
    have : ('\n' : Char).utf8Size = 1 := by decide
    rcases List.mem_cons.1 hx with rfl | hx
    · simp [Range.next]
    · have := ih _ x hx
      omega

theorem firstLine_lt {range : Range} : ∀ {ls : List (Range × Str)} {n}, firstLine range ls = some n → n < ls.length
  | [], n, h => by simp [firstLine] at h
  | (r, text) :: ls, n, h => by
    unfold firstLine at h
    split at h
    · simp at h; subst h; simp
    · simp at h
      obtain ⟨m, h, rfl⟩ := h
      have := firstLine_lt h
      simp
      omega

theorem prevLine_le (ls : List (Range × Str)) : ∀ n p, prevLine ls n p ≤ max n p
  | 0, p => by simp [prevLine]
  | n + 1, p => by
    unfold prevLine
    split
    · omega
    · split
      · have := prevLine_le ls n n
        omega
      · omega

/-- The last line with something in it before line `n`, or the first line. -/
theorem prevLine_spec (ls : List (Range × Str)) : ∀ n, n ≤ ls.length →
    ∀ p, p = prevLine ls n (if n = 0 then 0 else n) →
    p ≤ n ∧ (∀ k r t, p < k → k < n → ls[k]? = some (r, t) → t.all isWs = true) ∧
      (p = 0 ∨ p < n ∧ ∃ r t, ls[p]? = some (r, t) ∧ t.all isWs = false)
  | 0, _, p, e => by simp [prevLine] at e; subst e; simp
  | n + 1, h, p, e => by
    have hl : n < ls.length := by omega
    unfold prevLine at e
    rw [List.getElem?_eq_getElem hl] at e
    generalize hx : ls[n] = x at e
    obtain ⟨r, t⟩ := x
    have hx' : ls[n]? = some (r, t) := by rw [List.getElem?_eq_getElem hl, hx]
    simp only [] at e
    by_cases ht : t.all isWs = true
    · rw [if_pos ht] at e
      have hz : prevLine ls n n = prevLine ls n (if n = 0 then 0 else n) := by
        by_cases h0 : n = 0 <;> simp [h0]
      rw [hz] at e
      obtain ⟨h₁, h₂, h₃⟩ := prevLine_spec ls n (by omega) p e
      refine ⟨by omega, ?_, ?_⟩
      · intro k r' t' hk hk' hg
        by_cases hkn : k = n
        · subst hkn; rw [hx'] at hg; simp at hg; rw [← hg.2]; exact ht
        · exact h₂ k r' t' hk (by omega) hg
      · rcases h₃ with h₃ | ⟨h₃, h₄⟩
        · exact .inl h₃
        · exact .inr ⟨by omega, h₄⟩
    · rw [if_neg ht] at e
      subst e
      refine ⟨by omega, fun k _ _ h₁ h₂ => by omega, .inr ⟨by omega, r, t, hx', by simpa using ht⟩⟩

theorem linesBefore_ok (lines : List (Range × Str)) (range : Range) (err : ParseError) :
    ∃ t, linesBefore lines range err = .ok t := by
  unfold linesBefore
  split
  · split
    · exact ⟨_, rfl⟩
    · rename_i n h
      have := firstLine_lt h
      rw [if_pos (by omega)]
      have := prevLine_le lines n 0
      exact ⟨_, by simp; rw [if_pos (by omega)]⟩
  · exact ⟨_, rfl⟩

theorem writeErr_ok (E : ErrText) (lines : List (Range × Str)) (e : RErr) : ∃ t, writeErr E lines e = .ok t := by
  obtain ⟨b, hb⟩ := linesBefore_ok lines e.range e.err
  obtain ⟨x, hx⟩ := excerpts_ok e.range lines 0 false
  exact ⟨_, by simp [writeErr, hb, hx, bind_ok]; rfl⟩

/-! ### The excerpt of the error -/

theorem takeWhile_all {p : Char → Bool} {l : Str} (h : ∀ c ∈ l, p c = true) (r : Str) :
    (l ++ r).takeWhile p = l ++ r.takeWhile p := by
  induction l with
  | nil => rfl
  | cons c l ih => simp [h c (by simp), ih (fun d hd => h d (by simp [hd]))]

theorem take_line (l t : Str) (off : Nat) : (l ++ '\n' :: t).take (l.length + 1 + off) = l ++ '\n' :: t.take off := by
  rw [List.take_append, show l.length + 1 + off - l.length = off + 1 by omega, List.take_of_length_le (by omega)]
  rfl

theorem drop_line (l t : Str) (off : Nat) : (l ++ '\n' :: t).drop (l.length + 1 + off) = t.drop off := by
  rw [List.drop_append, show l.length + 1 + off - l.length = off + 1 by omega, List.drop_of_length_le (by omega)]
  rfl

theorem lineBefore_one {l t : Str} (h : '\n' ∉ l) {off : Nat} (ho : off ≤ l.length) :
    lineBefore (l ++ t) off = l.take off := by
  unfold lineBefore
  rw [List.take_append_of_le_length ho]
  have := takeWhile_all (p := (· != '\n')) (l := (l.take off).reverse) (by
    intro c hc
    have := List.mem_of_mem_take (List.mem_reverse.1 hc)
    simp
    rintro rfl
    exact h this) []
  simp at this ⊢
  rw [this]
  simp

theorem lineBefore_next {l t : Str} (off : Nat) :
    lineBefore (l ++ '\n' :: t) (l.length + 1 + off) = lineBefore t off := by
  unfold lineBefore
  have : (l ++ '\n' :: t).take (l.length + 1 + off) = l ++ '\n' :: t.take off := take_line l t off
  rw [this]
  simp only [List.reverse_append, List.reverse_cons, List.append_assoc]
  congr 1
  rw [List.takeWhile_append]
  split
  · rename_i h
    have := List.takeWhile_prefix (l := (t.take off).reverse) (· != '\n')
    simp [this.eq_of_length h]
  · rfl

theorem linesAbove_split (text : Str) (off : Nat) : text.take off = linesAbove text off ++ lineBefore text off := by
  unfold linesAbove lineBefore
  rw [← List.reverse_append, List.takeWhile_append_dropWhile, List.reverse_reverse]

theorem linesAbove_one {l t : Str} (h : '\n' ∉ l) {off : Nat} (ho : off ≤ l.length) : linesAbove (l ++ t) off = [] := by
  have h1 := linesAbove_split (l ++ t) off
  rw [lineBefore_one h ho, List.take_append_of_le_length ho] at h1
  simpa using h1

theorem linesAbove_all {l : Str} (h : '\n' ∉ l) (off : Nat) : linesAbove l off = [] := by
  by_cases ho : off ≤ l.length
  · simpa using linesAbove_one (t := []) h ho
  · have : l.take off = l.take l.length := by rw [List.take_of_length_le (by omega), List.take_length]
    unfold linesAbove
    rw [this]
    simpa [linesAbove] using linesAbove_one (t := []) h (Nat.le_refl l.length)

theorem linesAbove_next {l t : Str} (off : Nat) :
    linesAbove (l ++ '\n' :: t) (l.length + 1 + off) = l ++ '\n' :: linesAbove t off := by
  have h1 := linesAbove_split (l ++ '\n' :: t) (l.length + 1 + off)
  rw [lineBefore_next, take_line, linesAbove_split t off] at h1
  have : (l ++ '\n' :: linesAbove t off) ++ lineBefore t off =
    linesAbove (l ++ '\n' :: t) (l.length + 1 + off) ++ lineBefore t off := by rw [← h1]; simp
  exact (List.append_cancel_right this).symm

theorem lineNo_one {l t : Str} (h : '\n' ∉ l) {off : Nat} (ho : off ≤ l.length) : lineNo (l ++ t) off = 1 := by
  unfold lineNo
  rw [List.take_append_of_le_length ho]
  have : '\n' ∉ l.take off := fun hc => h (List.mem_of_mem_take hc)
  rw [List.count_eq_zero.2 this]

theorem lineNo_next {l t : Str} (h : '\n' ∉ l) (off : Nat) :
    lineNo (l ++ '\n' :: t) (l.length + 1 + off) = lineNo t off + 1 := by
  unfold lineNo
  have : (l ++ '\n' :: t).take (l.length + 1 + off) = l ++ '\n' :: t.take off := take_line l t off
  rw [this]
  simp [List.count_eq_zero.2 h]
  omega

theorem lineAfter_one {l : Str} (h : '\n' ∉ l) {off : Nat} : lineAfter l off = l.drop off := by
  unfold lineAfter
  have := takeWhile_all (p := (· != '\n')) (l := l.drop off) (by
    intro c hc
    simp
    rintro rfl
    exact h (List.mem_of_mem_drop hc)) []
  simpa using this

theorem lineAfter_cons {l t : Str} (h : '\n' ∉ l) {off : Nat} (ho : off ≤ l.length) :
    lineAfter (l ++ '\n' :: t) off = l.drop off := by
  unfold lineAfter
  rw [List.drop_append_of_le_length ho]
  rw [takeWhile_all (by
    intro c hc
    simp
    rintro rfl
    exact h (List.mem_of_mem_drop hc))]
  simp

theorem lineAfter_next {l t : Str} (off : Nat) :
    lineAfter (l ++ '\n' :: t) (l.length + 1 + off) = lineAfter t off := by
  unfold lineAfter
  rw [drop_line]

/-- The block for the line of the error. -/
theorem blockText_line (i : Nat) {l : Str} {off len : Nat} (ho : off ≤ l.length) (hl : l.length ≤ len) :
    blockText i off len l false =
      dec (i + 1) ++ [','] ++ dec (1 + (l.take off).length) ++ c!": " ++
        ((l.take off ++ l.drop off).drop (skipOf off)).take 100 ++ ['\n'] ++
      (dec (i + 1) ++ [','] ++ dec (1 + (l.take off).length) ++ c!": " ++
        blank ((l.take off).drop (skipOf off)) ++ c!"^\n") := by
  have h1 : (l.drop (skipOf off)).take (min (skipOf off + 100) len - skipOf off) = (l.drop (skipOf off)).take 100 := by
    by_cases h : skipOf off + 100 ≤ len
    · rw [Nat.min_eq_left h, Nat.add_sub_cancel_left]
    · rw [Nat.min_eq_right (by omega), List.take_of_length_le (by simp; omega), List.take_of_length_le (by simp; omega)]
  have h2 : (l.drop (skipOf off)).take (off - skipOf off) = (l.take off).drop (skipOf off) := by
    rw [List.drop_take]
  simp only [blockText, h1, h2, List.take_append_drop]
  simp [ho, Nat.add_comm]

/-- The lines after the line of the error. -/
def following : Nat → List Str → Str
  | _, [] => []
  | n, l :: ls => dec n ++ c!",1: " ++ l.take 100 ++ ['\n'] ++ following (n + 1) ls

theorem count_one {l : Str} (h : '\n' ∉ l) (t : Str) {n : Nat} (hn : n ≤ l.length) :
    ((l ++ t).take n).count '\n' = 0 := by
  rw [List.take_append_of_le_length hn]
  exact List.count_eq_zero.2 fun hc => h (List.mem_of_mem_take hc)

theorem blockText_later (i : Nat) (l : Str) :
    blockText i 0 (byteLen l) l true = dec (i + 1) ++ c!",1: " ++ l.take 100 ++ ['\n'] := by
  have hb := length_le_byteLen l
  have h1 : l.take (min 100 (byteLen l)) = l.take 100 := by
    by_cases h : 100 ≤ byteLen l
    · rw [Nat.min_eq_left h]
    · rw [Nat.min_eq_right (by omega), List.take_of_length_le (by omega), List.take_of_length_le (by omega)]
  have h2 : dec 1 = ['1'] := by decide
  simp [blockText, skipOf, h1, h2]

theorem excerpts_later (range : Range) (text : Str) : ∀ (i start : Nat), range.offset < start → start ≤ range.next →
    Ascii (linesAbove text (range.next - start)) →
    excerpts range i (numberLines start (splitLines text)) true =
      .ok (following (i + 1) ((splitLines text).take (1 + (text.take (range.next - start)).count '\n'))) := by
  refine lines_rec (P := fun text => ∀ (i start : Nat), range.offset < start → start ≤ range.next →
    Ascii (linesAbove text (range.next - start)) →
    excerpts range i (numberLines start (splitLines text)) true =
      .ok (following (i + 1) ((splitLines text).take (1 + (text.take (range.next - start)).count '\n')))) ?_ ?_ text
  all_goals
    intro l
    intros
  · rename_i hl i start h₁ h₂ _
    rw [splitLines_none hl, numberLines, numberLines]
    have hi : ∃ x, Range.endsIntersect range ⟨start, byteLen l⟩ = some x := by
      unfold Range.endsIntersect
      exact ⟨_, if_pos ⟨by simp [Range.next]; omega, h₂⟩⟩
    obtain ⟨x, hx⟩ := hi
    rw [excerpts_hit hx (t := []) rfl, show max range.offset start - start = 0 by omega, blockText_later]
    simp [Nat.add_comm 1, following]
  · rename_i t hl ih i start h₁ h₂ hasc
    rw [splitLines_cons hl, numberLines]
    have hi : ∃ x, Range.endsIntersect range ⟨start, byteLen l⟩ = some x := by
      unfold Range.endsIntersect
      exact ⟨_, if_pos ⟨by simp [Range.next]; omega, h₂⟩⟩
    obtain ⟨x, hx⟩ := hi
    have hb := length_le_byteLen l
    by_cases hn : range.next - start ≤ l.length
    · rw [excerpts_hit hx (t := []) (excerpts_past _ _ _ _ (by omega)),
        show max range.offset start - start = 0 by omega, blockText_later, count_one hl _ hn]
      simp [following]
    · obtain ⟨n, hn'⟩ : ∃ n, range.next - start = l.length + 1 + n := ⟨range.next - start - (l.length + 1), by omega⟩
      rw [hn', linesAbove_next] at hasc
      have hbl : byteLen l = l.length := byteLen_ascii (fun c hc => hasc c (by simp [hc]))
      have hn2 : range.next - (start + (byteLen l + 1)) = n := by omega
      have := ih (i + 1) (start + (byteLen l + 1)) (by omega) (by omega)
        (by rw [hn2]; exact fun c hc => hasc c (by simp [hc]))
      rw [excerpts_hit hx this, show max range.offset start - start = 0 by omega, blockText_later, hn2, hn', take_line]
      simp [following, List.count_eq_zero.2 hl, Nat.add_comm 1]

/-- What is written for an error that begins at an offset of the text. -/
def Shown (i : Nat) (text : Str) (off len : Nat) (ls : List (Range × Str)) (range : Range) : Prop :=
  ∃ rest, (len = 0 → rest = []) ∧
    (Ascii (linesAbove text (off + len)) →
      rest = following (i + lineNo text off + 1)
        ((splitLines (text.drop off)).tail.take (((text.drop off).take len).count '\n'))) ∧
    excerpts range i ls false =
      .ok (dec (i + lineNo text off) ++ [','] ++ dec (column text off) ++ c!": " ++
        ((lineBefore text off ++ lineAfter text off).drop (skipOf (lineBefore text off).length)).take 100 ++ ['\n'] ++
        (dec (i + lineNo text off) ++ [','] ++ dec (column text off) ++ c!": " ++
          blank ((lineBefore text off).drop (skipOf (lineBefore text off).length)) ++ c!"^\n") ++ rest)

theorem excerpts_error (text : Str) : ∀ (i start off len : Nat), off ≤ text.length → Ascii (linesAbove text off) →
    Shown i text off len (numberLines start (splitLines text)) ⟨start + off, len⟩ := by
  refine lines_rec (P := fun text => ∀ (i start off len : Nat), off ≤ text.length → Ascii (linesAbove text off) →
    Shown i text off len (numberLines start (splitLines text)) ⟨start + off, len⟩) ?_ ?_ text
  · intro l hl i start off len ho _
    have hb := length_le_byteLen l
    refine ⟨[], fun _ => rfl, ?_, ?_⟩
    · intro _
      rw [splitLines_none (fun hc => hl (List.mem_of_mem_drop hc))]
      simp [following]
    rw [splitLines_none hl, numberLines, numberLines]
    have hi : ∃ x, Range.endsIntersect ⟨start + off, len⟩ ⟨start, byteLen l⟩ = some x := by
      unfold Range.endsIntersect
      simp [Range.next]
      omega
    obtain ⟨x, hx⟩ := hi
    rw [excerpts_hit hx (t := []) rfl]
    have h1 := lineBefore_one (t := []) hl ho
    have h2 := lineNo_one (t := []) hl ho
    rw [List.append_nil] at h1 h2
    have h3 : max (start + off) start - start = off := by omega
    simp only [h3, h1, h2, column, lineAfter_one hl]
    rw [blockText_line i ho hb]
    simp [ho]
  · intro l t hl ih i start off len ho hasc
    have hb := length_le_byteLen l
    rw [splitLines_cons hl, numberLines]
    by_cases hcase : off ≤ l.length
    · have hi : ∃ x, Range.endsIntersect ⟨start + off, len⟩ ⟨start, byteLen l⟩ = some x := by
        unfold Range.endsIntersect
        simp [Range.next]
        omega
      obtain ⟨x, hx⟩ := hi
      obtain ⟨rest, hr⟩ := excerpts_ok ⟨start + off, len⟩ (numberLines (start + (byteLen l + 1)) (splitLines t)) (i + 1) true
      refine ⟨rest, fun h0 => ?_, fun ha => ?_, ?_⟩
      · subst h0
        rw [excerpts_past _ _ _ _ (by simp [Range.next]; omega)] at hr
        cases hr
        rfl
      · have hl' : '\n' ∉ l.drop off := fun hc => hl (List.mem_of_mem_drop hc)
        rw [List.drop_append_of_le_length hcase, splitLines_cons hl', List.tail_cons, lineNo_one hl hcase]
        by_cases hlen : len ≤ (l.drop off).length
        · rw [count_one hl' _ hlen]
          rw [excerpts_past _ _ _ _ (by simp [Range.next] at hlen ⊢; omega)] at hr
          cases hr
          rfl
        · obtain ⟨n, hn⟩ : ∃ n, len = (l.drop off).length + 1 + n := ⟨len - ((l.drop off).length + 1), by omega⟩
          have hn1 : off + len = l.length + 1 + n := by simp at hn; omega
          rw [hn1, linesAbove_next] at ha
          have hbl : byteLen l = l.length := byteLen_ascii (fun c hc => ha c (by simp [hc]))
          have hn2 : (⟨start + off, len⟩ : Range).next - (start + (byteLen l + 1)) = n := by
            simp [Range.next]; omega
          have := excerpts_later ⟨start + off, len⟩ t (i + 1) (start + (byteLen l + 1)) (by simp; omega)
            (by simp [Range.next]; omega) (by rw [hn2]; exact fun c hc => ha c (by simp [hc]))
          rw [hr, hn2] at this
          rw [hn, take_line]
          simp only [Comp.ok.injEq] at this
          rw [this]
          simp [List.count_eq_zero.2 hl', Nat.add_comm 1]
      · rw [excerpts_hit hx hr]
        have h3 : max (start + off) start - start = off := by omega
        simp only [h3, lineBefore_one hl hcase, lineNo_one hl hcase, column, lineAfter_cons hl hcase]
        rw [blockText_line i hcase hb]
        simp [hcase]
    · obtain ⟨off', rfl⟩ : ∃ off', off = l.length + 1 + off' := ⟨off - (l.length + 1), by omega⟩
      rw [linesAbove_next] at hasc
      have hbl : byteLen l = l.length := byteLen_ascii (fun c hc => hasc c (by simp [hc]))
      have hn : Range.endsIntersect ⟨start + (l.length + 1 + off'), len⟩ ⟨start, byteLen l⟩ = none := by
        unfold Range.endsIntersect
        rw [if_neg]
        simp [Range.next]
        omega
      obtain ⟨rest, h0, h1, hr⟩ := ih (i + 1) (start + (l.length + 1)) off' len (by simp at ho; omega)
        (fun c hc => hasc c (by simp [hc]))
      refine ⟨rest, h0, fun ha => ?_, ?_⟩
      · rw [show l.length + 1 + off' + len = l.length + 1 + (off' + len) by omega, linesAbove_next] at ha
        rw [h1 (fun c hc => ha c (by simp [hc])), drop_line, lineNo_next hl]
        rw [show i + 1 + lineNo t off' = i + (lineNo t off' + 1) by omega]
      · rw [excerpts_skip hn, hbl,
          show start + (l.length + 1 + off') = start + (l.length + 1) + off' by omega, hr]
        simp only [lineNo_next hl, lineBefore_next, column, lineAfter_next]
        rw [show i + 1 + lineNo t off' = i + (lineNo t off' + 1) by omega]

/-- The first line that is shown is the line of the error. -/
theorem firstLine_error (text : Str) : ∀ (start off len : Nat), off ≤ text.length → Ascii (linesAbove text off) →
    firstLine ⟨start + off, len⟩ (numberLines start (splitLines text)) = some (lineNo text off - 1) := by
  refine lines_rec (P := fun text => ∀ (start off len : Nat), off ≤ text.length → Ascii (linesAbove text off) →
    firstLine ⟨start + off, len⟩ (numberLines start (splitLines text)) = some (lineNo text off - 1)) ?_ ?_ text
  · intro l hl start off len ho _
    have hb := length_le_byteLen l
    have h2 := lineNo_one (t := []) hl ho
    rw [List.append_nil] at h2
    rw [splitLines_none hl, numberLines, numberLines, firstLine, h2]
    have hi : ∃ x, Range.endsIntersect ⟨start + off, len⟩ ⟨start, byteLen l⟩ = some x := by
      unfold Range.endsIntersect
      simp [Range.next]
      omega
    obtain ⟨x, hx⟩ := hi
    simp [hx]
  · intro l t hl ih start off len ho hasc
    have hb := length_le_byteLen l
    rw [splitLines_cons hl, numberLines, firstLine]
    by_cases hcase : off ≤ l.length
    · have hi : ∃ x, Range.endsIntersect ⟨start + off, len⟩ ⟨start, byteLen l⟩ = some x := by
        unfold Range.endsIntersect
        simp [Range.next]
        omega
      obtain ⟨x, hx⟩ := hi
      simp [hx, lineNo_one hl hcase]
    · obtain ⟨off', rfl⟩ : ∃ off', off = l.length + 1 + off' := ⟨off - (l.length + 1), by omega⟩
      rw [linesAbove_next] at hasc
      have hbl : byteLen l = l.length := byteLen_ascii (fun c hc => hasc c (by simp [hc]))
      have hn : Range.endsIntersect ⟨start + (l.length + 1 + off'), len⟩ ⟨start, byteLen l⟩ = none := by
        unfold Range.endsIntersect
        rw [if_neg]
        simp [Range.next]
        omega
      simp only [hn]
      rw [hbl, show start + (l.length + 1 + off') = start + (l.length + 1) + off' by omega,
        ih (start + (l.length + 1)) off' len (by simp at ho; omega) (fun c hc => hasc c (by simp [hc]))]
      rw [lineNo_next hl]
      simp [lineNo, Nat.add_comm]

/-! ### Any text -/

theorem utf8Len_eq (s : Str) : utf8Len s = byteLen s := by
  induction s with
  | nil => rfl
  | cons c s ih => rw [byteLen_cons, utf8Len, ih]

theorem byteLen_append (a b : Str) : byteLen (a ++ b) = byteLen a + byteLen b := by simp [byteLen]

theorem byteLen_newline (a b : Str) : byteLen (a ++ '\n' :: b) = byteLen a + 1 + byteLen b := by
  rw [byteLen_append, byteLen_cons, show ('\n' : Char).utf8Size = 1 by decide]
  omega

theorem ascii_of_byteLen {s : Str} (h : byteLen s ≤ s.length) : Ascii s := by
  induction s with
  | nil => simp [Ascii]
  | cons c s ih =>
    rw [byteLen_cons] at h
    have := Char.utf8Size_pos c
    have := length_le_byteLen s
    simp only [List.length_cons] at h
    intro x hx
    rcases List.mem_cons.1 hx with rfl | hx
    · omega
    · exact ih (by omega) x hx

/-- There is a line for every byte, and it is the one that is shown. -/
theorem excerpts_byte (text : Str) : ∀ (i start b len : Nat), b ≤ byteLen text →
    ∃ above line after rest, AtByte text b above line after ∧ (len = 0 → rest = []) ∧
      excerpts ⟨start + b, len⟩ i (numberLines start (splitLines text)) false =
        .ok (blockText (i + above.count '\n') (b - byteLen above) (byteLen line) line false ++ rest) ∧
      firstLine ⟨start + b, len⟩ (numberLines start (splitLines text)) = some (above.count '\n') := by
  refine lines_rec (P := fun text => ∀ (i start b len : Nat), b ≤ byteLen text →
    ∃ above line after rest, AtByte text b above line after ∧ (len = 0 → rest = []) ∧
      excerpts ⟨start + b, len⟩ i (numberLines start (splitLines text)) false =
        .ok (blockText (i + above.count '\n') (b - byteLen above) (byteLen line) line false ++ rest) ∧
      firstLine ⟨start + b, len⟩ (numberLines start (splitLines text)) = some (above.count '\n')) ?_ ?_ text
  · intro l hl i start b len hb
    have hi : ∃ x, Range.endsIntersect ⟨start + b, len⟩ ⟨start, byteLen l⟩ = some x := by
      unfold Range.endsIntersect
      simp [Range.next]
      omega
    obtain ⟨x, hx⟩ := hi
    refine ⟨[], l, [], [], ⟨by simp, hl, .inl rfl, .inl rfl, by simp [utf8Len], by simp [utf8Len, utf8Len_eq]; exact hb⟩,
      fun _ => rfl, ?_, ?_⟩
    · rw [splitLines_none hl, numberLines, numberLines, excerpts_hit hx (t := []) rfl]
      rw [show max (start + b) start - start = b by omega]
      simp [byteLen]
    · rw [splitLines_none hl, numberLines, numberLines, firstLine]
      simp [hx]
  · intro l t hl ih i start b len hb
    rw [splitLines_cons hl, numberLines, firstLine]
    by_cases hcase : b ≤ byteLen l
    · have hi : ∃ x, Range.endsIntersect ⟨start + b, len⟩ ⟨start, byteLen l⟩ = some x := by
        unfold Range.endsIntersect
        simp [Range.next]
        omega
      obtain ⟨x, hx⟩ := hi
      obtain ⟨rest, hr⟩ := excerpts_ok ⟨start + b, len⟩ (numberLines (start + (byteLen l + 1)) (splitLines t)) (i + 1) true
      refine ⟨[], l, '\n' :: t, rest, ⟨by simp, hl, .inl rfl, .inr rfl, by simp [utf8Len],
        by simp [utf8Len, utf8Len_eq]; exact hcase⟩, fun h0 => ?_, ?_, ?_⟩
      · subst h0
        rw [excerpts_past _ _ _ _ (by simp [Range.next]; omega)] at hr
        cases hr
        rfl
      · rw [excerpts_hit hx hr, show max (start + b) start - start = b by omega]
        simp [byteLen]
      · simp [hx]
    · obtain ⟨b', rfl⟩ : ∃ b', b = byteLen l + 1 + b' := ⟨b - (byteLen l + 1), by omega⟩
      have hn : Range.endsIntersect ⟨start + (byteLen l + 1 + b'), len⟩ ⟨start, byteLen l⟩ = none := by
        unfold Range.endsIntersect
        rw [if_neg]
        simp [Range.next]
        omega
      obtain ⟨above, line, after, rest, h1, h2, h3, h4⟩ := ih (i + 1) (start + (byteLen l + 1)) b' len
        (by rw [byteLen_newline] at hb; omega)
      have e : start + (byteLen l + 1) + b' = start + (byteLen l + 1 + b') := by omega
      rw [e] at h3 h4
      have hc : (l ++ '\n' :: above).count '\n' = above.count '\n' + 1 := by
        simp [List.count_eq_zero.2 hl]
      refine ⟨l ++ '\n' :: above, line, after, rest, ⟨by rw [h1.eq]; simp, h1.oneLine, .inr ?_, h1.atEnd, ?_, ?_⟩, h2, ?_, ?_⟩
      · rcases h1.wholeLines with rfl | h
        · simp
        · rw [List.getLast?_append, List.getLast?_cons]
          simp [h]
      · have := h1.ge
        simp only [utf8Len_eq, byteLen_newline] at this ⊢
        omega
      · have := h1.le
        simp only [utf8Len_eq, byteLen_newline] at this ⊢
        omega
      · rw [excerpts_skip hn, h3, hc, byteLen_newline]
        rw [show i + 1 + above.count '\n' = i + (above.count '\n' + 1) by omega,
          show byteLen l + 1 + b' - (byteLen l + 1 + byteLen above) = b' - byteLen above by omega]
      · simp only [hn, h4, hc]
        rfl

theorem atByte_one {l above line after : Str} {b : Nat} (hl : '\n' ∉ l) (h : AtByte l b above line after) :
    above = [] := by
  rcases h.wholeLines with h1 | h1
  · exact h1
  · refine absurd ?_ hl
    rw [h.eq]
    exact List.mem_append_left _ (List.mem_append_left _ (List.mem_of_getLast? h1))

theorem atByte_next {l t above line after : Str} {b : Nat} (hl : '\n' ∉ l)
    (h : AtByte (l ++ '\n' :: t) b above line after) :
    (above = [] ∧ b ≤ byteLen l) ∨
      ∃ above' b', above = l ++ '\n' :: above' ∧ b = byteLen l + 1 + b' ∧ AtByte t b' above' line after := by
  have hle := h.le
  have hge := h.ge
  simp only [utf8Len_eq] at hle hge
  rcases h.wholeLines with h1 | h1
  · subst h1
    refine .inl ⟨rfl, ?_⟩
    have e := h.eq
    rw [List.nil_append] at e
    rcases h.atEnd with h2 | h2
    · subst h2
      refine absurd ?_ h.oneLine
      rw [List.append_nil] at e
      rw [← e]
      simp
    · cases after with
      | nil => cases h2
      | cons x y =>
        cases h2
        have hs := congrArg splitLines e
        rw [splitLines_cons hl, splitLines_cons h.oneLine] at hs
        have hs := (List.cons.inj hs).1
        subst hs
        simpa [byteLen] using hle
  · obtain ⟨a, rfl⟩ := List.getLast?_eq_some_iff.1 h1
    have e := h.eq
    rcases List.append_eq_append_iff.1 (show l ++ '\n' :: t = a ++ ('\n' :: (line ++ after)) by rw [e]; simp) with
      ⟨z, rfl, hz⟩ | ⟨z, rfl, hz⟩
    · cases z with
      | nil =>
        cases hz
        refine .inr ⟨[], b - (byteLen l + 1), by simp, ?_, rfl, h.oneLine, .inl rfl, h.atEnd, by simp [utf8Len], ?_⟩
        · simp only [List.append_nil] at hge
          rw [byteLen_newline] at hge
          omega
        · simp only [List.append_nil] at hle
          rw [byteLen_newline] at hle
          simp only [utf8Len, utf8Len_eq]
          simp only [byteLen, List.map_nil, List.sum_nil] at hle ⊢
          omega
      | cons x z =>
        cases hz
        refine .inr ⟨z ++ ['\n'], b - (byteLen l + 1), by simp, ?_, by simp, h.oneLine, .inr (by simp), h.atEnd, ?_, ?_⟩
        all_goals
          rw [show l ++ '\n' :: z ++ ['\n'] = l ++ '\n' :: (z ++ ['\n']) by simp, byteLen_newline] at hle hge
          try simp only [utf8Len_eq]
          omega
    · cases z with
      | nil =>
        cases hz
        refine .inr ⟨[], b - (byteLen a + 1), by simp, ?_, rfl, h.oneLine, .inl rfl, h.atEnd, by simp [utf8Len], ?_⟩
        · rw [byteLen_newline] at hge
          simp only [List.append_nil]
          omega
        · rw [byteLen_newline] at hle
          simp only [utf8Len, utf8Len_eq]
          simp only [byteLen, List.map_nil, List.sum_nil] at hle ⊢
          omega
      | cons x z =>
        have hz : x = '\n' := by
          simp at hz
          exact hz.1.symm
        subst hz
        exact absurd (by simp) hl

theorem noNl_app {a b : Str} (h : '\n' ∉ a) (hb : b = [] ∨ b.head? = some '\n') : splitLines (a ++ b) = a :: (splitLines b).tail := by
  rcases hb with rfl | hb
  · rw [List.append_nil, splitLines_none h]
    rfl
  · cases b with
    | nil => cases hb
    | cons x t => cases hb; rw [splitLines_cons h]; simp [splitLines]

/-- A byte is in one place. -/
theorem atByte_unique (text : Str) : ∀ (b : Nat) (above line after above' line' after' : Str),
    AtByte text b above line after → AtByte text b above' line' after' →
    above = above' ∧ line = line' ∧ after = after' := by
  have key : ∀ {text : Str} {b : Nat} {above line after line' after' : Str}, AtByte text b above line after →
      AtByte text b above line' after' → above = above ∧ line = line' ∧ after = after' := by
    intro text b above line after line' after' h h'
    have e := h.eq.symm.trans h'.eq
    rw [List.append_assoc, List.append_assoc] at e
    have e := List.append_cancel_left e
    have hs := congrArg splitLines e
    rw [noNl_app h.oneLine h.atEnd, noNl_app h'.oneLine h'.atEnd] at hs
    have hl := (List.cons.inj hs).1
    subst hl
    exact ⟨rfl, rfl, List.append_cancel_left e⟩
  refine lines_rec (P := fun text => ∀ (b : Nat) (above line after above' line' after' : Str),
    AtByte text b above line after → AtByte text b above' line' after' →
    above = above' ∧ line = line' ∧ after = after') ?_ ?_ text
  · intro l hl b above line after above' line' after' h h'
    cases atByte_one hl h
    cases atByte_one hl h'
    exact key h h'
  · intro l t hl ih b above line after above' line' after' h h'
    rcases atByte_next hl h with ⟨rfl, h1⟩ | ⟨x, b1, rfl, h1, h2⟩
    · rcases atByte_next hl h' with ⟨rfl, h3⟩ | ⟨y, b2, rfl, h3, h4⟩
      · exact key h h'
      · omega
    · rcases atByte_next hl h' with ⟨rfl, h3⟩ | ⟨y, b2, rfl, h3, h4⟩
      · omega
      · obtain rfl : b1 = b2 := by omega
        obtain ⟨rfl, rfl, rfl⟩ := ih _ _ _ _ _ _ _ h2 h4
        exact ⟨rfl, rfl, rfl⟩

/-- The block for the line of a byte. -/
theorem blockText_byte (i j : Nat) (l : Str) (hj : j ≤ byteLen l) :
    blockText i j (byteLen l) l false =
      dec (1 + i) ++ [','] ++ dec (1 + j) ++ c!": " ++ (l.drop (skipOf j)).take 100 ++ ['\n'] ++
      (dec (1 + i) ++ [','] ++ dec (1 + j) ++ c!": " ++ blank ((l.take j).drop (skipOf j)) ++ c!"^\n") := by
  have hl := length_le_byteLen l
  have hs := skipOf_le j
  have h1 : (l.drop (skipOf j)).take (min (skipOf j + 100) (byteLen l) - skipOf j) = (l.drop (skipOf j)).take 100 := by
    by_cases h : skipOf j + 100 ≤ byteLen l
    · rw [Nat.min_eq_left h, Nat.add_sub_cancel_left]
    · rw [Nat.min_eq_right (by omega), List.take_of_length_le (by simp; omega), List.take_of_length_le (by simp; omega)]
  have h2 : (l.drop (skipOf j)).take (j - skipOf j) = (l.take j).drop (skipOf j) := by
    rw [List.drop_take]
  simp only [blockText, h1, h2, Nat.add_comm 1]
  simp

/-- The place of a byte is the place of a character only if it is the same one and all characters in
the lines before have one byte. -/
theorem place_iff (text : Str) : ∀ {o b : Nat} {above line after : Str}, b ≤ o → o ≤ text.length →
    AtByte text b above line after →
    ((1 + above.count '\n' = lineNo text o ∧ 1 + (b - byteLen above) = column text o) ↔
      b = o ∧ Ascii (linesAbove text o)) := by
  refine lines_rec (P := fun text => ∀ {o b : Nat} {above line after : Str}, b ≤ o → o ≤ text.length →
    AtByte text b above line after →
    ((1 + above.count '\n' = lineNo text o ∧ 1 + (b - byteLen above) = column text o) ↔
      b = o ∧ Ascii (linesAbove text o))) ?_ ?_ text
  · intro l hl o b above line after hbo ho h
    cases atByte_one hl h
    have h1 := lineBefore_one (t := []) hl ho
    have h2 := lineNo_one (t := []) hl ho
    have h3 := linesAbove_one (t := []) hl ho
    rw [List.append_nil] at h1 h2 h3
    simp only [column, h1, h2, h3, Ascii, byteLen]
    simp
    omega
  · intro l t hl ih o b above line after hbo ho h
    have hb := length_le_byteLen l
    by_cases hcase : o ≤ l.length
    · rcases atByte_next hl h with ⟨rfl, h1⟩ | ⟨above', b', rfl, rfl, h1⟩
      · simp only [column, lineBefore_one hl hcase, lineNo_one hl hcase, linesAbove_one hl hcase, Ascii, byteLen]
        simp
        omega
      · omega
    · obtain ⟨o', rfl⟩ : ∃ o', o = l.length + 1 + o' := ⟨o - (l.length + 1), by omega⟩
      simp only [column, lineNo_next hl, lineBefore_next, linesAbove_next]
      rcases atByte_next hl h with ⟨rfl, h1⟩ | ⟨above', b', rfl, rfl, h1⟩
      · constructor
        · rintro ⟨h2, -⟩
          simp [lineNo] at h2
        · rintro ⟨rfl, h2⟩
          have := byteLen_ascii (fun c hc => h2 c (List.mem_append_left _ hc) : Ascii l)
          omega
      · have := ih (o := o') (b := b') (by omega) (by simp at ho; omega) h1
        simp only [column] at this
        rw [byteLen_newline, show byteLen l + 1 + b' - (byteLen l + 1 + byteLen above') = b' - byteLen above' by omega]
        have hc : (l ++ '\n' :: above').count '\n' = above'.count '\n' + 1 := by
          simp [List.count_eq_zero.2 hl]
        rw [hc, show 1 + (above'.count '\n' + 1) = lineNo t o' + 1 ↔ 1 + above'.count '\n' = lineNo t o' by omega, this]
        constructor
        · rintro ⟨rfl, h2⟩
          have h3 : Ascii l := ascii_of_byteLen (by omega)
          have := byteLen_ascii h3
          refine ⟨by omega, fun c hc => ?_⟩
          rcases List.mem_append.1 hc with hc | hc
          · exact h3 c hc
          · rcases List.mem_cons.1 hc with rfl | hc
            · decide
            · exact h2 c hc
        · rintro ⟨h2, h3⟩
          have := byteLen_ascii (fun c hc => h3 c (List.mem_append_left _ hc) : Ascii l)
          exact ⟨by omega, fun c hc => h3 c (by simp [hc])⟩

end Verif.Spec
