import Verif.Props.Rules
import Verif.Proofs.Safe
/-
Lines and indented lines: C21 - C23.
-/
namespace Verif.Props
open Spec

/-- Only whitespace is left. -/
def AllBlank (rest : List Char) : Prop := ∀ c ∈ rest, isWs c = true

/-- The first line of `rest` that is not blank starts after `k` characters. -/
def LineStart (rest : List Char) (k : Nat) : Prop :=
  k ≤ rest.length ∧ (∀ c ∈ rest.take k, isWs c = true) ∧
  (k = 0 ∨ (rest.take k).getLast? = some '\n') ∧ NonBlankLine (rest.drop k)

/-- There is a new line between the start of the previous item, whose text is `prev`, and the next
one, `k` characters later (`none`: there was no item). -/
def OnNewLine (prev : Option (List Char)) (rest : List Char) (k : Nat) : Prop :=
  ∀ t, prev = some t → '\n' ∈ t ++ rest.take k

/-- The items of `.l(r)`: each is a match of `r` at the start of a line that is not blank; blank
lines are skipped; it ends at the first line whose item is refused, which is left unread, or at the
end of the text. -/
inductive LineRun (L : Lexer) (refs : List Rule) (r : Rule) :
    Option (List Char) → Pos → Indent → Nat → List Tok → Indent → Prop
  | atEnd {prev p ind} (h : AllBlank p.src) : LineRun L refs r prev p ind p.src.length [] ind
  | stop {prev p ind k ind'} (h : LineStart p.src k) (hn : OnNewLine prev p.src k)
      (h' : Refuses L refs r (adv p k) ind ind') : LineRun L refs r prev p ind k [] ind'
  | item {prev p ind k n ts ind₁ m us ind₂} (h : LineStart p.src k) (hn : OnNewLine prev p.src k)
      (h' : Matches L refs r (adv p k) ind n ts ind₁)
      (h'' : LineRun L refs r (some ((p.src.drop k).take n)) (adv p (k + n)) ind₁ m us ind₂) :
      LineRun L refs r prev p ind (k + n + m) (ts ++ us) ind₂

/-- `.l(r)` gets stuck: after at least one item something else follows on the same line. -/
inductive LineStuck (L : Lexer) (refs : List Rule) (r : Rule) :
    Option (List Char) → Pos → Indent → Indent → Prop
  | here {t p ind} (h : NonBlankLine p.src) : LineStuck L refs r (some t) p ind ind
  | item {prev p ind k n ts ind₁ ind₂} (h : LineStart p.src k) (hn : OnNewLine prev p.src k)
      (h' : Matches L refs r (adv p k) ind n ts ind₁)
      (h'' : LineStuck L refs r (some ((p.src.drop k).take n)) (adv p (k + n)) ind₁ ind₂) :
      LineStuck L refs r prev p ind ind₂

theorem nonBlank_not_allBlank {cs} (h : NonBlankLine cs) : ¬ AllBlank cs := by
  obtain ⟨a, c, b, rfl, hc, _⟩ := h
  intro h
  rw [h c (by simp)] at hc
  cases hc

theorem lineStart_not_allBlank {cs k} (h : LineStart cs k) : ¬ AllBlank cs := by
  obtain ⟨_, _, _, h⟩ := h
  intro h'
  exact nonBlank_not_allBlank h fun c hc => h' c (List.mem_of_mem_drop hc)

/-- A line that is not blank cannot be skipped. -/
theorem nonBlank_lineStart {cs k} (h : NonBlankLine cs) (h' : LineStart cs k) : k = 0 := by
  obtain ⟨a, c, b, rfl, hc, ha⟩ := h
  obtain ⟨h1, h2, h3, _⟩ := h'
  rcases h3 with h3 | h3
  · exact h3
  · exfalso
    by_cases hk : k ≤ a.length
    · rw [List.take_append_of_le_length hk] at h3
      exact (ha _ (List.mem_of_mem_take (List.mem_of_getLast? h3))).2 rfl
    · have : c ∈ (a ++ c :: b).take k := by
        rw [List.take_append]
        obtain ⟨m, hm⟩ : ∃ m, k - a.length = m + 1 := ⟨k - a.length - 1, by omega⟩
        rw [hm]
        simp
      rw [h2 c this] at hc
      cases hc

/-- Where the next line starts is determined. -/
theorem lineStart_unique {cs k l} (h : LineStart cs k) (h' : LineStart cs l) : k = l := by
  have key : ∀ {k l}, LineStart cs k → LineStart cs l → k ≤ l → k = l := by
    intro k l h h' hkl
    have : LineStart (cs.drop k) (l - k) := by
      obtain ⟨h1, h2, h3, h4⟩ := h'
      refine ⟨by simp; omega, ?_, ?_, by simpa [Nat.add_sub_cancel' hkl] using h4⟩
      · intro c hc
        refine h2 c ?_
        rw [show l = k + (l - k) by omega, List.take_add]
        exact List.mem_append_right _ hc
      · by_cases hk : l - k = 0
        · exact .inl hk
        · right
          rcases h3 with h3 | h3
          · omega
          · rw [show l = k + (l - k) by omega, List.take_add, List.getLast?_append] at h3
            cases hg : ((cs.drop k).take (l - k)).getLast? with
            | none =>
              rw [List.getLast?_eq_none_iff] at hg
              have := congrArg List.length hg
              simp at this
              omega
            | some x => rw [hg] at h3; simpa using h3
    have := nonBlank_lineStart h.2.2.2 this
    omega
  rcases Nat.le_total k l with hkl | hkl
  · exact key h h' hkl
  · exact (key h' h hkl).symm

section
variable {L : Lexer} {refs : List Rule}

/-- What the driver of lines may do. -/
theorem lineNext_cases (hL : L.Lawful) {first item rest} :
    (L.lineNext first item rest = .done rest.length ∧ AllBlank rest) ∨
    (∃ k, L.lineNext first item rest = .call k ∧ LineStart rest k ∧
      OnNewLine (if first then none else some item) rest k) ∨
    (∃ k, L.lineNext first item rest = .fail k ∧ first = false ∧ k ≤ rest.length ∧
      NonBlankLine rest) := by
  cases h : L.lineNext first item rest with
  | done k =>
    obtain ⟨rfl, h2⟩ := hL.line_done h
    exact .inl ⟨rfl, h2⟩
  | call k =>
    obtain ⟨h1, h2, h3, h4, h5⟩ := hL.line_call h
    refine .inr (.inl ⟨k, rfl, ⟨h1, h2, h3, h4⟩, ?_⟩)
    cases first with
    | true => intro t ht; simp at ht
    | false => intro t ht; simp at ht; subst ht; exact h5 rfl
  | fail k =>
    obtain ⟨h1, h2, h3, a, c, b, h4, h5, h6⟩ := hL.line_fail h
    refine .inr (.inr ⟨k, rfl, h1, h2, rest.take k ++ a, c, b, ?_, h5, ?_⟩)
    · rw [List.append_assoc, ← h4, List.take_append_drop]
    · intro x hx
      rcases List.mem_append.1 hx with hx | hx
      · exact h3 x hx
      · exact h6 x hx

/-- After an item without a new line the driver has no choice. -/
theorem lineNext_done (hL : L.Lawful) {first item rest} (h : AllBlank rest) :
    L.lineNext first item rest = .done rest.length := by
  rcases lineNext_cases hL (first := first) (item := item) (rest := rest) with h' | ⟨k, _, h', _⟩ |
    ⟨k, _, _, _, h'⟩
  · exact h'.1
  · exact absurd h (lineStart_not_allBlank h')
  · exact absurd h (nonBlank_not_allBlank h')

theorem lineNext_call (hL : L.Lawful) {first item rest k} (h : LineStart rest k)
    (hn : OnNewLine (if first then none else some item) rest k)
    (hi : '\n' ∉ item) : L.lineNext first item rest = .call k := by
  rcases lineNext_cases hL (first := first) (item := item) (rest := rest) with h' | ⟨k', h', h'', _⟩ |
    ⟨k', _, h1, _, h'⟩
  · exact absurd h'.2 (lineStart_not_allBlank h)
  · rw [h', lineStart_unique h'' h]
  · subst h1
    have := nonBlank_lineStart h' h
    subst this
    have := hn item rfl
    simp at this
    exact absurd this hi

theorem lineNext_fail (hL : L.Lawful) {item rest} (h : NonBlankLine rest) (hi : '\n' ∉ item) :
    ∃ k, L.lineNext false item rest = .fail k := by
  rcases lineNext_cases hL (first := false) (item := item) (rest := rest) with h' | ⟨k', h', h'', hn⟩ |
    ⟨k', h', _⟩
  · exact absurd h'.2 (nonBlank_not_allBlank h)
  · have := nonBlank_lineStart h h''
    subst this
    have := hn item rfl
    simp at this
    exact absurd this hi
  · exact ⟨k', h'⟩

/-- The text of the previous item, as the driver keeps it. -/
def prevOf (first : Bool) (item : List Char) : Option (List Char) := if first then none else some item

theorem call_cases (hL : L.Lawful) {first item rest k} (h : L.lineNext first item rest = .call k) :
    LineStart rest k ∧ OnNewLine (prevOf first item) rest k := by
  obtain ⟨h1, h2, h3, h4, h5⟩ := hL.line_call h
  refine ⟨⟨h1, h2, h3, h4⟩, ?_⟩
  intro t ht
  cases first
  · simp [prevOf] at ht; subst ht; exact h5 rfl
  · simp [prevOf] at ht

theorem fail_cases (hL : L.Lawful) {first item rest k} (h : L.lineNext first item rest = .fail k) :
    prevOf first item = some item ∧ NonBlankLine rest := by
  rcases lineNext_cases hL (first := first) (item := item) with ⟨h', _⟩ | ⟨k, h', _⟩ |
    ⟨k, h', h1, _, h2⟩
  · rw [h] at h'; cases h'
  · rw [h] at h'; cases h'
  · subst h1
    exact ⟨rfl, h2⟩

/-! ### C21 -/

theorem lineRun_of_run (hL : L.Lawful) {r id} {ind : Indent} {g p i o j tr}
    (h : Run (envOf L refs ind) g p i o j tr) : ∀ {first item}, g = .lines r false id first item →
      match o with
      | some (n, ts) =>
        LineRun L refs r (prevOf first item) p { ind with indent := i } n ts { ind with indent := j }
      | none => LineStuck L refs r (prevOf first item) p { ind with indent := i }
          { ind with indent := j } := by
  induction h with
  | lines_done h =>
    intro first item hg
    cases hg
    obtain ⟨rfl, h'⟩ := hL.line_done h
    exact .atEnd h'
  | lines_fail h =>
    intro first item hg
    cases hg
    obtain ⟨h1, h2⟩ := fail_cases hL h
    rw [h1]
    exact .here h2
  | lines_stop h h' =>
    intro first item hg
    cases hg
    obtain ⟨hs, hn⟩ := call_cases hL h
    cases h' with
    | line_plain h' => exact .stop hs hn (refuses_of_run h')
  | lines_more h h' _ _ ih =>
    intro first item hg
    cases hg
    obtain ⟨hs, hn⟩ := call_cases hL h
    cases h' with
    | line_plain h' =>
      rename_i o _ _ _ _
      have ih := ih rfl
      cases o with
      | none => exact .item hs hn (matches_of_run h') ih
      | some x => exact .item hs hn (matches_of_run h') ih
  | _ => intro first item hg; cases hg

/-- Whatever `.l(r)` matches is a run of lines, one item on each. -/
theorem C21_lines_matches (hL : L.Lawful) {r id p ind n ts ind'}
    (h : Matches L refs (.lines r false id) p ind n ts ind') :
    LineRun L refs r none p ind n ts ind' := by
  obtain ⟨j, tr, h1, rfl⟩ := matches_iff.1 h
  cases h1 with
  | lines h1 => exact lineRun_of_run hL h1 rfl

/-- `.l(r)` is refused only if something else follows an item on the same line. -/
theorem C21_lines_refuses (hL : L.Lawful) {r id p ind ind'}
    (h : Refuses L refs (.lines r false id) p ind ind') : LineStuck L refs r none p ind ind' := by
  obtain ⟨j, tr, h1, rfl⟩ := refuses_iff.1 h
  cases h1 with
  | lines h1 => exact lineRun_of_run hL h1 rfl

/-- Every match of the rule stays on one line. -/
def SingleLine (L : Lexer) (refs : List Rule) (r : Rule) : Prop :=
  ∀ p ind n ts ind', Matches L refs r p ind n ts ind' → '\n' ∉ p.src.take n

theorem run_of_lineRun (hL : L.Lawful) {r id} (hr : SingleLine L refs r) {prev p ind n ts ind'}
    (h : LineRun L refs r prev p ind n ts ind') : ∀ {first item}, prev = prevOf first item →
      '\n' ∉ item → ∃ j tr, Run (envOf L refs ind) (.lines r false id first item) p ind.indent
        (some (n, ts)) j tr ∧ ind' = { ind with indent := j } := by
  induction h with
  | atEnd h =>
    intro first item hp hi
    exact ⟨_, _, .lines_done (lineNext_done hL h), rfl⟩
  | stop h hn h' =>
    intro first item hp hi
    subst hp
    obtain ⟨j, tr, h1, rfl⟩ := refuses_iff.1 h'
    exact ⟨j, tr, .lines_stop (lineNext_call hL h hn hi) (.line_plain h1), rfl⟩
  | item h hn h' _ ih =>
    intro first item hp hi
    subst hp
    have hno := hr _ _ _ _ _ h'
    obtain ⟨j, tr, h1, rfl⟩ := matches_iff.1 h'
    obtain ⟨j', tr', h2, rfl⟩ := ih (first := false) rfl hno
    exact ⟨j', _, .lines_more (lineNext_call hL h hn hi) (.line_plain h1) h2, rfl⟩

theorem run_of_lineStuck (hL : L.Lawful) {r id} (hr : SingleLine L refs r) {prev p ind ind'}
    (h : LineStuck L refs r prev p ind ind') : ∀ {first item}, prev = prevOf first item →
      '\n' ∉ item → ∃ j tr, Run (envOf L refs ind) (.lines r false id first item) p ind.indent
        none j tr ∧ ind' = { ind with indent := j } := by
  induction h with
  | here h =>
    intro first item hp hi
    cases first with
    | true => simp [prevOf] at hp
    | false =>
      obtain ⟨k, hk⟩ := lineNext_fail hL h hi
      exact ⟨_, _, .lines_fail hk, rfl⟩
  | item h hn h' _ ih =>
    intro first item hp hi
    subst hp
    have hno := hr _ _ _ _ _ h'
    obtain ⟨j, tr, h1, rfl⟩ := matches_iff.1 h'
    obtain ⟨j', tr', h2, rfl⟩ := ih (first := false) rfl hno
    exact ⟨j', _, .lines_more (o := none) (lineNext_call hL h hn hi) (.line_plain h1) h2, rfl⟩

/-- If items stay on one line, `.l(r)` matches exactly the runs of lines... -/
theorem C21_lines_matches_iff (hL : L.Lawful) {r id p ind n ts ind'} (hr : SingleLine L refs r) :
    Matches L refs (.lines r false id) p ind n ts ind' ↔ LineRun L refs r none p ind n ts ind' := by
  refine ⟨C21_lines_matches hL, fun h => ?_⟩
  obtain ⟨j, tr, h1, rfl⟩ := run_of_lineRun (id := id) hL hr h (first := true) (item := []) rfl
    (by simp)
  exact matches_iff.2 ⟨j, tr, .lines h1, rfl⟩

/-- ...and is refused exactly when it gets stuck behind an item. -/
theorem C21_lines_refuses_iff (hL : L.Lawful) {r id p ind ind'} (hr : SingleLine L refs r) :
    Refuses L refs (.lines r false id) p ind ind' ↔ LineStuck L refs r none p ind ind' := by
  refine ⟨C21_lines_refuses hL, fun h => ?_⟩
  obtain ⟨j, tr, h1, rfl⟩ := run_of_lineStuck (id := id) hL hr h (first := true) (item := []) rfl
    (by simp)
  exact refuses_iff.2 ⟨j, tr, .lines h1, rfl⟩

theorem singleLine_tag {t inv prop id} (ht : '\n' ∉ t) :
    SingleLine L refs (.tag t false inv prop id) := by
  intro p ind n ts ind' h
  obtain ⟨⟨b, h1⟩, rfl, _⟩ := C16_tag_matches_iff.1 h
  rw [← h1]
  simpa using ht

/-! ### C22 -/

/-- What the start of a line says about it, when the block has indentation `i`: it does not belong
to the block, or its item starts after some characters and the block has some indentation from now
on (only the first line can change it). -/
inductive LineHead (align : Bool) (tab : Nat) (first : Bool) (i : Nat) (line : List Char) :
    Option (Nat × Nat) → Prop
  | shallow (h : ¬ ∃ k, Carries tab i line k) : LineHead align tab first i line none
  | deep {k} (ha : ¬ (first = true ∧ align = true)) (h : Carries tab i line k)
      (hd : (line.drop k).head? = some ' ') : LineHead align tab first i line none
  | same {k} (ha : ¬ (first = true ∧ align = true)) (h : Carries tab i line k)
      (hd : (line.drop k).head? ≠ some ' ') : LineHead align tab first i line (some (k, i))
  | aligned {k m} (hf : first = true) (ha : align = true) (h : Carries tab i line k)
      (hm : Longest Blank (line.drop k) m) :
      LineHead align tab first i line (some (k + m, i + width tab ((line.drop k).take m)))

/-- The items of `.l+(r)`: each is a match of `r` behind the indentation of a line that belongs to
the block, with the current indentation one deeper than the block; it ends, leaving the line
unread, at the first line that does not belong to the block or whose item is refused. -/
inductive BlockRun (L : Lexer) (refs : List Rule) (r : Rule) :
    Option (List Char) → Pos → Indent → Nat → List Tok → Indent → Prop
  | atEnd {prev p ind} (h : AllBlank p.src) : BlockRun L refs r prev p ind p.src.length [] ind
  | foreign {prev p k} {ind : Indent} (h : LineStart p.src k) (hn : OnNewLine prev p.src k)
      (hh : LineHead ind.alignFirst ind.tabSpaces prev.isNone ind.indent (p.src.drop k) none) :
      BlockRun L refs r prev p ind k [] ind
  | refused {prev p k a b} {ind ind' : Indent} (h : LineStart p.src k) (hn : OnNewLine prev p.src k)
      (hh : LineHead ind.alignFirst ind.tabSpaces prev.isNone ind.indent (p.src.drop k) (some (a, b)))
      (h' : Refuses L refs r (adv p (k + a)) { ind with indent := b + 1 } ind') :
      BlockRun L refs r prev p ind k [] { ind with indent := b }
  | item {prev p k a b n ts m us} {ind ind₁ ind₂ : Indent} (h : LineStart p.src k)
      (hn : OnNewLine prev p.src k)
      (hh : LineHead ind.alignFirst ind.tabSpaces prev.isNone ind.indent (p.src.drop k) (some (a, b)))
      (h' : Matches L refs r (adv p (k + a)) { ind with indent := b + 1 } n ts ind₁)
      (h'' : BlockRun L refs r (some ((p.src.drop k).take (a + n))) (adv p (k + (a + n)))
        { ind with indent := b } m us ind₂) :
      BlockRun L refs r prev p ind (k + (a + n) + m) (ts ++ us) ind₂

/-- `.l+(r)` gets stuck: after at least one item something else follows on the same line. -/
inductive BlockStuck (L : Lexer) (refs : List Rule) (r : Rule) :
    Option (List Char) → Pos → Indent → Indent → Prop
  | here {t p ind} (h : NonBlankLine p.src) : BlockStuck L refs r (some t) p ind ind
  | item {prev p k a b n ts} {ind ind₁ ind₂ : Indent} (h : LineStart p.src k)
      (hn : OnNewLine prev p.src k)
      (hh : LineHead ind.alignFirst ind.tabSpaces prev.isNone ind.indent (p.src.drop k) (some (a, b)))
      (h' : Matches L refs r (adv p (k + a)) { ind with indent := b + 1 } n ts ind₁)
      (h'' : BlockStuck L refs r (some ((p.src.drop k).take (a + n))) (adv p (k + (a + n)))
        { ind with indent := b } ind₂) :
      BlockStuck L refs r prev p ind ind₂

/-- One line of a block. -/
theorem line_cases {r first p} {ind : Indent} {i o j tr}
    (h : Run (envOf L refs ind) (.line r true first) p i o j tr) :
    (o = none ∧ j = i ∧ LineHead ind.alignFirst ind.tabSpaces first i p.src none) ∨
    ∃ a b, LineHead ind.alignFirst ind.tabSpaces first i p.src (some (a, b)) ∧ j = b ∧
      b + 1 < 2 ^ 32 ∧ ∃ o' j' , o = before a [] o' ∧
        Run (envOf L refs ind) (.rule r) (adv p a) (b + 1) o' j' tr := by
  cases h with
  | line_shallow h => exact .inl ⟨rfl, rfl, .shallow h⟩
  | line_deep ha h hd => exact .inl ⟨rfl, rfl, .deep ha h hd⟩
  | line_body ha h hd hi h' => exact .inr ⟨_, _, .same ha h hd, rfl, hi, _, _, rfl, h'⟩
  | line_align ha h hm hi h' => exact .inr ⟨_, _, .aligned rfl ha h hm, rfl, hi, _, _, rfl, h'⟩

theorem prevOf_isNone {first item} : (prevOf first item).isNone = first := by
  cases first <;> rfl

theorem blockRun_of_run (hL : L.Lawful) {r id} {ind : Indent} {g p i o j tr}
    (h : Run (envOf L refs ind) g p i o j tr) : ∀ {first item}, g = .lines r true id first item →
      match o with
      | some (n, ts) =>
        BlockRun L refs r (prevOf first item) p { ind with indent := i } n ts { ind with indent := j }
      | none => BlockStuck L refs r (prevOf first item) p { ind with indent := i }
          { ind with indent := j } := by
  induction h with
  | lines_done h =>
    intro first item hg
    cases hg
    obtain ⟨rfl, h'⟩ := hL.line_done h
    exact .atEnd h'
  | lines_fail h =>
    intro first item hg
    cases hg
    obtain ⟨h1, h2⟩ := fail_cases hL h
    rw [h1]
    exact .here h2
  | lines_stop h h' =>
    intro first item hg
    cases hg
    obtain ⟨hs, hn⟩ := call_cases hL h
    rcases line_cases h' with ⟨_, rfl, hh⟩ | ⟨a, b, hh, rfl, _, o', j', ho, h6⟩
    · exact .foreign hs hn (by rw [prevOf_isNone]; exact hh)
    · have := before_eq_none.1 ho.symm
      subst this
      exact .refused (a := a) hs hn (by rw [prevOf_isNone]; exact hh)
        (refuses_of_run (by rw [← adv_adv]; exact h6))
  | lines_more h h' _ _ ih =>
    intro first item hg
    cases hg
    obtain ⟨hs, hn⟩ := call_cases hL h
    rename_i o _ _ _ _
    have ih := ih rfl
    rcases line_cases h' with ⟨h6, _⟩ | ⟨a, b, hh, rfl, _, o', j', ho, h6⟩
    · cases h6
    · obtain ⟨m, us, rfl, rfl, rfl⟩ := before_some ho.symm
      have hm := matches_of_run (by rw [adv_adv] at h6; exact h6)
      cases o with
      | none => exact .item hs hn (by rw [prevOf_isNone]; exact hh) hm ih
      | some x => exact .item hs hn (by rw [prevOf_isNone]; exact hh) hm ih
  | _ => intro first item hg; cases hg

/-- Whatever `.l+(r)` matches is a block. -/
theorem C22_block_matches (hL : L.Lawful) {r id p ind n ts ind'}
    (h : Matches L refs (.lines r true id) p ind n ts ind') :
    BlockRun L refs r none p ind n ts ind' := by
  obtain ⟨j, tr, h1, rfl⟩ := matches_iff.1 h
  cases h1 with
  | lines h1 => exact blockRun_of_run hL h1 rfl

/-- `.l+(r)` is refused only if something else follows an item on the same line. -/
theorem C22_block_refuses (hL : L.Lawful) {r id p ind ind'}
    (h : Refuses L refs (.lines r true id) p ind ind') : BlockStuck L refs r none p ind ind' := by
  obtain ⟨j, tr, h1, rfl⟩ := refuses_iff.1 h
  cases h1 with
  | lines h1 => exact blockRun_of_run hL h1 rfl

/-- Without settings, parsing begins at column 0, aligns blocks to their first line, and counts four
columns for a tab. -/
theorem C22_default_settings (n : Nat) (syn : Syntax) (text : Str) (toks : List Tok) :
    parse L n syn text toks = parseWithIndent L n syn text toks ⟨0, true, 4⟩ := rfl

/-! The width of a run of spaces is its length, so on a line indented with spaces the items are
exactly at the column of the block. -/

/-- `line` starts with exactly `k` spaces (and no tab behind them). -/
def Spaces (line : List Char) (k : Nat) : Prop :=
  line.take k = List.replicate k ' ' ∧ (line.drop k).head? ≠ some ' ' ∧
    (line.drop k).head? ≠ some '\t'

theorem width_spaces {tab k} : width tab (List.replicate k ' ') = k := by
  induction k with
  | zero => rfl
  | succ k ih => simp [List.replicate_succ, width, ih]; omega

/-- On a line indented by `s` spaces the rule of indentation is simple: shallower lines do not
belong to the block, deeper ones only if they are the first and alignment is on. -/
theorem C22_line_of_spaces {align tab first i line s a b} (hs : Spaces line s)
    (h : LineHead align tab first i line (some (a, b))) :
    a = s ∧ b = s ∧ i ≤ s ∧ (¬ (first = true ∧ align = true) → i = s) := by
  obtain ⟨h1, h2, h3⟩ := hs
  have hlen : s ≤ line.length := by
    have := congrArg List.length h1
    simp at this
    omega
  have hline : line = List.replicate s ' ' ++ line.drop s := by
    conv => lhs; rw [← List.take_append_drop s line, h1]
  have htake : ∀ k, k ≤ s → line.take k = List.replicate k ' ' := by
    intro k hk
    have := congrArg (List.take k) h1
    rw [List.take_take, Nat.min_eq_left hk, List.take_replicate, Nat.min_eq_left hk] at this
    exact this
  have hblank : ∀ c, (line.drop s).head? = some c → ¬ Blank c := by
    rintro c hc (rfl | rfl)
    · exact h2 hc
    · exact h3 hc
  -- carrying `i` columns means the first `i` spaces
  have hcar : ∀ k, Carries tab i line k → k = i ∧ i ≤ s := by
    rintro k ⟨c1, c2, c3, c4⟩
    have hks : k ≤ s := by
      apply Decidable.byContradiction; intro hks
      have hlt : s < line.length := by omega
      have hmem : line[s] ∈ line.take k := by
        rw [List.mem_take_iff_getElem]
        exact ⟨s, by omega, rfl⟩
      refine hblank line[s] ?_ (c2 _ hmem)
      rw [List.head?_drop, List.getElem?_eq_getElem hlt]
    rw [htake k hks, width_spaces] at c3
    refine ⟨?_, by omega⟩
    apply Decidable.byContradiction; intro hne
    have := c4 i (by omega)
    rw [htake i (by omega), width_spaces] at this
    omega
  cases h with
  | same ha h hd =>
    obtain ⟨rfl, hi⟩ := hcar _ h
    have : a = s := by
      apply Decidable.byContradiction; intro hne
      apply hd
      rw [List.head?_drop, hline, List.getElem?_append_left (by simp; omega), List.getElem?_replicate]
      rw [if_pos (by omega)]
    exact ⟨this, this, hi, fun _ => this⟩
  | aligned hf ha h hm =>
    rename_i k m
    obtain ⟨rfl, hi⟩ := hcar _ h
    obtain ⟨m1, m2, m3⟩ := hm
    have hm' : m = s - k := by
      apply Nat.le_antisymm
      · apply Decidable.byContradiction; intro hlt
        have hlt2 : s < line.length := by simp at m1; omega
        have hmem : line[s] ∈ (line.drop k).take m := by
          rw [List.mem_take_iff_getElem]
          refine ⟨s - k, by simp; omega, ?_⟩
          simp [Nat.add_sub_cancel' hi]
        refine hblank line[s] ?_ (m2 _ hmem)
        rw [List.head?_drop, List.getElem?_eq_getElem hlt2]
      · apply Decidable.byContradiction; intro hlt
        refine m3 ' ' ?_ (.inl rfl)
        rw [List.drop_drop, List.head?_drop, hline, List.getElem?_append_left (by simp; omega),
          List.getElem?_replicate]
        rw [if_pos (by omega)]
    subst hm'
    have : (line.drop k).take (s - k) = List.replicate (s - k) ' ' := by
      rw [hline, List.drop_append_of_le_length (by simpa using hi), List.drop_replicate,
        List.take_append_of_le_length (by simp), List.take_replicate]
      simp
    rw [this, width_spaces]
    exact ⟨by omega, by omega, hi, fun h => absurd ⟨hf, ha⟩ h⟩

/-! The converse, when items stay on one line and the text is not so long that columns overflow. -/

/-- The indentation of a line of the block is bounded by the line. -/
theorem lineHead_le {align tab first i line a b} (h : LineHead align tab first i line (some (a, b))) :
    b ≤ max 1 tab * line.length := by
  have key : ∀ k, width tab (line.take k) ≤ max 1 tab * line.length := by
    intro k
    refine Nat.le_trans (width_le tab _) (Nat.mul_le_mul_left _ ?_)
    simp
    omega
  cases h with
  | same ha h hd => exact Nat.le_trans h.2.2.1 (key _)
  | aligned hf ha h hm =>
    rename_i k m
    have := key (k + m)
    rw [List.take_add, width_append] at this
    have := h.2.2.1
    omega

theorem lineHead_blank {align tab first i line a b} (h : LineHead align tab first i line (some (a, b))) :
    ∀ c ∈ line.take a, Blank c := by
  cases h with
  | same ha h hd => exact h.2.1
  | aligned hf ha h hm =>
    intro c hc
    rw [List.take_add] at hc
    rcases List.mem_append.1 hc with hc | hc
    · exact h.2.1 c hc
    · exact hm.2.1 c hc

/-- One line of a block, the other way round. -/
theorem run_of_lineHead_none {r first p} {ind : Indent} {i}
    (h : LineHead ind.alignFirst ind.tabSpaces first i p.src none) :
    Run (envOf L refs ind) (.line r true first) p i none i [] := by
  generalize ho : (none : Option (Nat × Nat)) = o at h
  cases h with
  | shallow h => exact .line_shallow h
  | deep ha h hd => exact .line_deep ha h hd
  | _ => cases ho

theorem run_of_lineHead_some {r first p} {ind : Indent} {i a b o j tr}
    (h : LineHead ind.alignFirst ind.tabSpaces first i p.src (some (a, b))) (hb : b + 1 < 2 ^ 32)
    (h' : Run (envOf L refs ind) (.rule r) (adv p a) (b + 1) o j tr) :
    Run (envOf L refs ind) (.line r true first) p i (before a [] o) b tr := by
  cases h with
  | same ha h hd => exact .line_body ha h hd hb h'
  | aligned hf ha h hm => subst hf; exact .line_align ha h hm hb h'

theorem item_singleLine {align tab first i line a b r p ind n ts ind'} (hr : SingleLine L refs r)
    (hh : LineHead align tab first i line (some (a, b))) (hp : p.src = line.drop a)
    (h : Matches L refs r p ind n ts ind') : '\n' ∉ line.take (a + n) := by
  rw [List.take_add]
  intro hm
  rcases List.mem_append.1 hm with hm | hm
  · rcases lineHead_blank hh _ hm with h | h <;> simp at h
  · rw [← hp] at hm
    exact hr _ _ _ _ _ h hm

theorem run_of_blockRun (hL : L.Lawful) {r id} (hr : SingleLine L refs r) {prev p ind n ts ind'}
    (h : BlockRun L refs r prev p ind n ts ind') : ∀ {first item}, prev = prevOf first item →
      '\n' ∉ item → max 1 ind.tabSpaces * p.src.length + 1 < 2 ^ 32 →
      ∃ j tr, Run (envOf L refs ind) (.lines r true id first item) p ind.indent
        (some (n, ts)) j tr ∧ ind' = { ind with indent := j } := by
  induction h with
  | atEnd h =>
    intro first item hp hi _
    exact ⟨_, _, .lines_done (lineNext_done hL h), rfl⟩
  | foreign h hn hh =>
    intro first item hp hi _
    subst hp
    rw [prevOf_isNone] at hh
    exact ⟨_, _, .lines_stop (lineNext_call hL h hn hi) (run_of_lineHead_none hh), rfl⟩
  | @refused prev p k a b ind ind' h hn hh h' =>
    intro first item hp hi hw
    subst hp
    rw [prevOf_isNone] at hh
    obtain ⟨j, tr, h1, rfl⟩ := refuses_iff.1 h'
    rw [← adv_adv] at h1
    have hb : b + 1 < 2 ^ 32 := by
      have h1 := lineHead_le hh
      have h2 : max 1 ind.tabSpaces * (p.src.drop k).length ≤ max 1 ind.tabSpaces * p.src.length :=
        Nat.mul_le_mul_left _ (by simp)
      omega
    exact ⟨b, _, .lines_stop (lineNext_call hL h hn hi) (run_of_lineHead_some hh hb h1), rfl⟩
  | @item prev p k a b n ts m us ind ind₁ ind₂ h hn hh h' _ ih =>
    intro first item hp hi hw
    subst hp
    rw [prevOf_isNone] at hh
    have hno := item_singleLine hr hh (by simp [adv]) h'
    obtain ⟨j, tr, h1, rfl⟩ := matches_iff.1 h'
    rw [← adv_adv] at h1
    have hb : b + 1 < 2 ^ 32 := by
      have h1 := lineHead_le hh
      have h2 : max 1 ind.tabSpaces * (p.src.drop k).length ≤ max 1 ind.tabSpaces * p.src.length :=
        Nat.mul_le_mul_left _ (by simp)
      omega
    obtain ⟨j', tr', h2, rfl⟩ := ih (first := false) rfl hno (by
      have h2 : max 1 ind.tabSpaces * (p.src.drop (k + (a + n))).length ≤
        max 1 ind.tabSpaces * p.src.length := Nat.mul_le_mul_left _ (by simp)
      simp only [adv]
      omega)
    exact ⟨j', _, .lines_more (lineNext_call hL h hn hi) (run_of_lineHead_some hh hb h1) h2, rfl⟩

theorem run_of_blockStuck (hL : L.Lawful) {r id} (hr : SingleLine L refs r) {prev p ind ind'}
    (h : BlockStuck L refs r prev p ind ind') : ∀ {first item}, prev = prevOf first item →
      '\n' ∉ item → max 1 ind.tabSpaces * p.src.length + 1 < 2 ^ 32 →
      ∃ j tr, Run (envOf L refs ind) (.lines r true id first item) p ind.indent
        none j tr ∧ ind' = { ind with indent := j } := by
  induction h with
  | here h =>
    intro first item hp hi _
    cases first with
    | true => simp [prevOf] at hp
    | false =>
      obtain ⟨k, hk⟩ := lineNext_fail hL h hi
      exact ⟨_, _, .lines_fail hk, rfl⟩
  | @item prev p k a b n ts ind ind₁ ind₂ h hn hh h' _ ih =>
    intro first item hp hi hw
    subst hp
    rw [prevOf_isNone] at hh
    have hno := item_singleLine hr hh (by simp [adv]) h'
    obtain ⟨j, tr, h1, rfl⟩ := matches_iff.1 h'
    rw [← adv_adv] at h1
    have hb : b + 1 < 2 ^ 32 := by
      have h1 := lineHead_le hh
      have h2 : max 1 ind.tabSpaces * (p.src.drop k).length ≤ max 1 ind.tabSpaces * p.src.length :=
        Nat.mul_le_mul_left _ (by simp)
      omega
    obtain ⟨j', tr', h2, rfl⟩ := ih (first := false) rfl hno (by
      have h2 : max 1 ind.tabSpaces * (p.src.drop (k + (a + n))).length ≤
        max 1 ind.tabSpaces * p.src.length := Nat.mul_le_mul_left _ (by simp)
      simp only [adv]
      omega)
    exact ⟨j', _, .lines_more (o := none) (lineNext_call hL h hn hi)
      (run_of_lineHead_some hh hb h1) h2, rfl⟩

/-- If items stay on one line, `.l+(r)` matches exactly the blocks... -/
theorem C22_block_matches_iff (hL : L.Lawful) {r id p ind n ts ind'} (hr : SingleLine L refs r)
    (hw : max 1 ind.tabSpaces * p.src.length + 1 < 2 ^ 32) :
    Matches L refs (.lines r true id) p ind n ts ind' ↔ BlockRun L refs r none p ind n ts ind' := by
  refine ⟨C22_block_matches hL, fun h => ?_⟩
  obtain ⟨j, tr, h1, rfl⟩ := run_of_blockRun (id := id) hL hr h (first := true) (item := []) rfl
    (by simp) hw
  exact matches_iff.2 ⟨j, tr, .lines h1, rfl⟩

/-- ...and is refused exactly when it gets stuck behind an item. -/
theorem C22_block_refuses_iff (hL : L.Lawful) {r id p ind ind'} (hr : SingleLine L refs r)
    (hw : max 1 ind.tabSpaces * p.src.length + 1 < 2 ^ 32) :
    Refuses L refs (.lines r true id) p ind ind' ↔ BlockStuck L refs r none p ind ind' := by
  refine ⟨C22_block_refuses hL, fun h => ?_⟩
  obtain ⟨j, tr, h1, rfl⟩ := run_of_blockStuck (id := id) hL hr h (first := true) (item := []) rfl
    (by simp) hw
  exact refuses_iff.2 ⟨j, tr, .lines h1, rfl⟩

/-! ### C23 -/

/-- The indentation in force never decreases. -/
theorem run_indent_le {E : Env} {g p i o j tr} (h : Run E g p i o j tr) : i ≤ j := by
  induction h <;> omega

theorem run_indent_eq_of_noAlign {E : Env} (ha : E.align = false) {g p i o j tr}
    (h : Run E g p i o j tr) : j = i := by
  induction h with
  | line_align h => simp [ha] at h
  | _ => omega

/-- The goal contains no rule outside `P`, and is not itself about indented lines. -/
def PlainGoal (P : Rule → Prop) : Goal → Prop
  | .rule r => P r
  | .sel rs => ∀ r ∈ rs, P r
  | .seq rs => ∀ r ∈ rs, P r
  | .rep r => P r
  | .sepTail r b _ => P r ∧ P b
  | .lines r ind _ _ _ => ind = false ∧ P r
  | .line r ind _ => ind = false ∧ P r

theorem run_indent_eq_of_plain {E : Env} {P : Rule → Prop} (hP : Closed E.refs P)
    (hl : ∀ r id, ¬ P (.lines r true id)) {g p i o j tr} (h : Run E g p i o j tr) :
    PlainGoal P g → j = i := by
  induction h with
  | line_body | line_align | line_shallow | line_deep => intro hg; cases hg.1
  | @lines _ ind _ _ _ _ _ _ h ih =>
    intro hg
    cases ind with
    | true => exact absurd hg (hl _ _)
    | false => exact ih ⟨rfl, hP.child .lines hg⟩
  | _ =>
    intro hg
    first
      | rfl
      | (have hc := @hP.child
         have hr := hP.refs
         simp only [PlainGoal] at *
         grind [Child, List.mem_of_getElem?, List.mem_of_getLast?])

/-- Trying a rule never makes the indentation smaller and never changes the other settings... -/
theorem C23_indentation_monotone_partial {r p ind ind'} :
    (∀ n ts, Matches L refs r p ind n ts ind' → ∃ j, ind.indent ≤ j ∧ ind' = { ind with indent := j }) ∧
    (Refuses L refs r p ind ind' → ∃ j, ind.indent ≤ j ∧ ind' = { ind with indent := j }) := by
  constructor
  · intro n ts h
    obtain ⟨j, tr, h1, rfl⟩ := matches_iff.1 h
    exact ⟨j, run_indent_le h1, rfl⟩
  · intro h
    obtain ⟨j, tr, h1, rfl⟩ := refuses_iff.1 h
    exact ⟨j, run_indent_le h1, rfl⟩

/-- ...leaves the indentation alone if `align_first` is off... -/
theorem C23_no_leak_without_align_partial {r p ind ind'} (ha : ind.alignFirst = false) :
    (∀ n ts, Matches L refs r p ind n ts ind' → ind' = ind) ∧
    (Refuses L refs r p ind ind' → ind' = ind) := by
  constructor
  · intro n ts h
    obtain ⟨j, tr, h1, rfl⟩ := matches_iff.1 h
    rw [run_indent_eq_of_noAlign (by exact ha) h1]
  · intro h
    obtain ⟨j, tr, h1, rfl⟩ := refuses_iff.1 h
    rw [run_indent_eq_of_noAlign (by exact ha) h1]

/-- ...and leaves it alone if no `.l+` occurs in the rule or in the rules that references point to. -/
theorem C23_no_leak_without_blocks_partial {r p ind ind'}
    (hr : ∀ x, Occurs x r → ∀ b id, x ≠ .lines b true id)
    (hrefs : ∀ q ∈ refs, ∀ x, Occurs x q → ∀ b id, x ≠ .lines b true id) :
    (∀ n ts, Matches L refs r p ind n ts ind' → ind' = ind) ∧
    (Refuses L refs r p ind ind' → ind' = ind) := by
  have hP := closed_occurs hrefs
  constructor
  · intro n ts h
    obtain ⟨j, tr, h1, rfl⟩ := matches_iff.1 h
    rw [run_indent_eq_of_plain (E := envOf L refs ind) hP (fun b id h => h _ .refl b id rfl) h1 hr]
  · intro h
    obtain ⟨j, tr, h1, rfl⟩ := refuses_iff.1 h
    rw [run_indent_eq_of_plain (E := envOf L refs ind) hP (fun b id h => h _ .refl b id rfl) h1 hr]

end

/-- `.l+("a":"a")` -/
def exBlockA : Rule := .lines exA true 3
/-- `.l+("b":"b")` -/
def exBlockB : Rule := .lines exB true 4

/-- The indentation leaks out of `.l+`: after a block aligned at column 2, indentation 2 stays in
force. -/
theorem C23_leak_counterexample :
    Matches stdLexer [] exBlockA ⟨c!"  a\nb\n", 0⟩ Indent.default 4 [⟨⟨2, 1⟩, .bool c!"a" true⟩]
      { Indent.default with indent := 2 } :=
  matches_of_eval 9 (by decide +kernel)

/-- It makes a difference: `[.l+("a") .l+("b")]` rejects the text, although each block would match
on its own: the second block is taken to belong to column 2. -/
theorem C23_leak_rejects_counterexample :
    (∃ toks, Parses stdLexer ⟨[.sequence [exBlockA, exBlockB] 5], [c!"x"]⟩ c!"  a\nb\n" [] Indent.default
      (.err ⟨⟨4, 0⟩, .expectedEnd⟩ toks)) ∧
    Matches stdLexer [] exBlockB ⟨c!"b\n", 4⟩ Indent.default 2 [⟨⟨4, 1⟩, .bool c!"b" true⟩]
      Indent.default := by
  refine ⟨⟨[⟨⟨2, 1⟩, .bool c!"a" true⟩], by simp, 9, by decide +kernel⟩, ?_⟩
  exact matches_of_eval 9 (by decide +kernel)

/-- C21: two items, blank lines between them, a third line that is not an item. -/
example : LineRun stdLexer [] exA none ⟨c!"\na\n \na\nb\n", 0⟩ Indent.default 7
    [⟨⟨1, 1⟩, .bool c!"a" true⟩, ⟨⟨5, 1⟩, .bool c!"a" true⟩] Indent.default :=
  C21_lines_matches stdLexer_lawful (id := 3) (matches_of_eval 9 (by decide +kernel))

/-- C21: something else on the line of an item. -/
example : LineStuck stdLexer [] exA none ⟨c!"a\na b\n", 0⟩ Indent.default Indent.default :=
  C21_lines_refuses stdLexer_lawful (id := 3)
    (refuses_of_eval 9 ⟨⟨3, 0⟩, .expectedNewLine 3⟩ (by decide +kernel))

/-- C22: the first line sets the column, the deeper third line ends the block. -/
example : BlockRun stdLexer [] exA none ⟨c!" a\n a\n  a\n", 0⟩ Indent.default 6
    [⟨⟨1, 1⟩, .bool c!"a" true⟩, ⟨⟨4, 1⟩, .bool c!"a" true⟩] { Indent.default with indent := 1 } :=
  C22_block_matches stdLexer_lawful (id := 3) (matches_of_eval 9 (by decide +kernel))

end Verif.Props
