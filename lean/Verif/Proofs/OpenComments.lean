import Verif.Spec.Cost
import Verif.Proofs.Calls
import Verif.Proofs.Boot
/-
Comments that are opened and never closed.
-/
namespace Verif
open Spec

/-- The call is refused and leaves the arguments as they are, if it returns. -/
def Nope (ev : Ev) (r : Rule) (st : St) (s : Nat) (p : Pos) : Prop :=
  ev r st s p = .timeout ∨ ∃ e, ev r st s p = .ret (.err e) st

/-- The call takes `n` characters and leaves the arguments as they are, if it returns. -/
def Takes (ev : Ev) (r : Rule) (st : St) (s : Nat) (p : Pos) (n : Nat) : Prop :=
  ev r st s p = .timeout ∨ ∃ oe, ev r st s p = .ret (.ok ⟨p.off, n⟩ s oe) st

section
variable {L : Lexer} {refs : List Rule} {n : Nat} {st : St} {s : Nat} {p : Pos}

theorem nope_tag {t inv id} (h : t.isPrefixOf p.src = false) : Nope (eval L refs n) (.tag t false inv none id) st s p := by
  cases n with
  | zero => exact .inl rfl
  | succ n => exact .inr ⟨_, by simp [eval, step, evalTag, Pos.tag, h]; rfl⟩

theorem takes_tag {t inv id} (h : t.isPrefixOf p.src = true) : Takes (eval L refs n) (.tag t false inv none id) st s p t.length := by
  cases n with
  | zero => exact .inl rfl
  | succ n => exact .inr ⟨none, by simp [eval, step, evalTag, Pos.tag, h, emitOpt, pushOpt, Pos.peek]⟩

theorem takes_notTag {t inv id} (h : t.isPrefixOf p.src = false) : Takes (eval L refs n) (.tag t true inv none id) st s p 0 := by
  cases n with
  | zero => exact .inl rfl
  | succ n => exact .inr ⟨none, by simp [eval, step, evalTag, Pos.tag, h, emitOpt, pushOpt, Pos.start]⟩

theorem takes_until {any id} {k : Nat} (h : (p.src.takeWhile fun c => !any.contains c).length = k) :
    Takes (eval L refs n) (.untilAny any true none id) st s p k := by
  cases n with
  | zero => exact .inl rfl
  | succ n => exact .inr ⟨none, by simp at h; simp [eval, step, evalUntilAny, Pos.untilAny, h, emitOpt, pushOpt, Pos.peek]⟩

theorem nope_seq_head {r rs id} (h : ∀ m, Nope (eval L refs m) r st s p) :
    Nope (eval L refs n) (.sequence (r :: rs) id) st s p := by
  cases n with
  | zero => exact .inl rfl
  | succ n =>
    rcases h n with h | ⟨e, h⟩
    · exact .inl (by simp [eval, step, evalSequence, h])
    · exact .inr ⟨_, by simp [eval, step, evalSequence, h]; rfl⟩

theorem nope_node {name ix id r} (hr : refs[ix]? = some r) (h : ∀ m, Nope (eval L refs m) r st s p) :
    Nope (eval L refs n) (.node name none (some ix) id) st s p := by
  cases n with
  | zero => exact .inl rfl
  | succ n =>
    rcases h n with h | ⟨e, h⟩
    · exact .inl (by simp [eval, step, evalNode, pushOpt, hr, h])
    · exact .inr ⟨_, by simp [eval, step, evalNode, pushOpt, hr, h]; rfl⟩

end

/-- Not empty, and without the characters of comments. -/
def Filler (w : Str) : Prop := w ≠ [] ∧ ∀ c ∈ w, c ≠ '*' ∧ c ≠ '/'

/-- First alternative: an asterisk. -/
def commentStar : Rule :=
  .sequence [.tag c!"*/" true false none 7, .tag c!"*" false false none 8, .untilAny c!"*/" true none 9] 6
/-- Second alternative: a comment inside. -/
def commentInner : Rule :=
  .sequence [.node c!"multi_line_comment" none (some 0) 11, .untilAny c!"*/" true none 12] 10
/-- Third alternative: a slash. -/
def commentSlash : Rule :=
  .sequence [.tag c!"/" false false none 14, .untilAny c!"*/" true none 15] 13
/-- What a comment repeats. -/
def commentPart : Rule := .select [commentStar, commentInner, commentSlash] 5
/-- The inside of a comment. -/
def commentBody : Rule := .repeat_ commentPart true 4

theorem multiLineComment_eq : Boot.multiLineComment =
    .sequence [.tag c!"/*" false false none 2, .untilAny c!"*/" true none 3, commentBody, .tag c!"*/" false false none 16] 1 := rfl

theorem openings_head {ws : List Str} : openings ws = [] ∨ ∃ t, openings ws = '/' :: '*' :: t := by
  cases ws with
  | nil => exact .inl rfl
  | cons w ws => exact .inr ⟨_, rfl⟩

theorem filler_until {w : Str} (hw : ∀ c ∈ w, c ≠ '*' ∧ c ≠ '/') (ws : List Str) :
    ((w ++ openings ws).takeWhile fun c => !(c!"*/").contains c).length = w.length := by
  rw [List.takeWhile_append_of_pos]
  · rcases openings_head (ws := ws) with h | ⟨t, h⟩ <;> simp [h]
  · intro c hc
    simp [(hw c hc).1, (hw c hc).2]

section
variable {L : Lexer} {refs : List Rule} {st : St} {s : Nat}

/-- Nothing is found at the end of the text. -/
theorem part_end (hr : refs[0]? = some Boot.multiLineComment) {n off} : Nope (eval L refs n) commentPart st s ⟨[], off⟩ := by
  have h1 : ∀ n, Nope (eval L refs n) commentStar st s ⟨[], off⟩ := by
    intro n
    cases n with
    | zero => exact .inl rfl
    | succ n =>
      rcases takes_notTag (L := L) (refs := refs) (n := n) (st := st) (s := s) (p := ⟨[], off⟩) (t := c!"*/") (inv := false) (id := 7) rfl with h | ⟨oe, h⟩
      · exact .inl (by simp [eval, step, commentStar, evalSequence, h])
      · rcases nope_tag (L := L) (refs := refs) (n := n) (st := st) (s := s) (p := ⟨[], off⟩) (t := c!"*") (inv := false) (id := 8) rfl with h' | ⟨e, h'⟩
        · exact .inl (by simp [eval, step, commentStar, evalSequence, h, h', Pos.consume])
        · exact .inr ⟨_, by simp [eval, step, commentStar, evalSequence, h, h', Pos.consume]; rfl⟩
  have h2 : ∀ n, Nope (eval L refs n) commentInner st s ⟨[], off⟩ := fun n =>
    nope_seq_head fun m => nope_node hr fun m => nope_seq_head fun m => nope_tag rfl
  have h3 : ∀ n, Nope (eval L refs n) commentSlash st s ⟨[], off⟩ := fun n =>
    nope_seq_head fun m => nope_tag rfl
  cases n with
  | zero => exact .inl rfl
  | succ n =>
    rcases h1 n with h | ⟨e, h⟩
    · exact .inl (by simp [eval, step, commentPart, evalSelect, h])
    · rcases h2 n with h' | ⟨e', h'⟩
      · exact .inl (by simp [eval, step, commentPart, evalSelect, h, h'])
      · rcases h3 n with h'' | ⟨e'', h''⟩
        · exact .inl (by simp [eval, step, commentPart, evalSelect, h, h', h''])
        · refine .inr ?_
          simp only [eval, step, commentPart, evalSelect, h, h', h'']
          cases ho : errUpdate (some e'') (errUpdate (some e') (errUpdate (some e) none)) with
          | none => exact ⟨_, by simp [evalSelect]; rfl⟩
          | some e => exact ⟨_, by simp [evalSelect]; rfl⟩

/-- An asterisk is taken with the filler after it. -/
theorem part_star {w : Str} (hw : Filler w) {ws : List Str} {n off} :
    Takes (eval L refs n) commentPart st s ⟨'*' :: (w ++ openings ws), off⟩ (1 + w.length) := by
  have hpre : (c!"*/").isPrefixOf ('*' :: (w ++ openings ws)) = false := by
    obtain ⟨h1, h2⟩ := hw
    cases w with
    | nil => exact absurd rfl h1
    | cons c cs => simp [List.isPrefixOf, ((h2 c (by simp)).2).symm]
  have h1 : ∀ n, Takes (eval L refs n) commentStar st s ⟨'*' :: (w ++ openings ws), off⟩ (1 + w.length) := by
    intro n
    cases n with
    | zero => exact .inl rfl
    | succ n =>
      rcases takes_notTag (L := L) (refs := refs) (n := n) (st := st) (s := s) (p := ⟨'*' :: (w ++ openings ws), off⟩) (t := c!"*/") (inv := false) (id := 7) hpre with h | ⟨oe, h⟩
      · exact .inl (by simp [eval, step, commentStar, evalSequence, h])
      · rcases takes_tag (L := L) (refs := refs) (n := n) (st := st) (s := s) (p := ⟨'*' :: (w ++ openings ws), off⟩) (t := c!"*") (inv := false) (id := 8) (by simp [List.isPrefixOf]) with h' | ⟨oe', h'⟩
        · exact .inl (by simp [eval, step, commentStar, evalSequence, h, h', Pos.consume])
        · rcases takes_until (L := L) (refs := refs) (n := n) (st := st) (s := s) (p := ⟨w ++ openings ws, off + 1⟩) (any := c!"*/") (id := 9) (filler_until hw.2 ws) with h'' | ⟨oe'', h''⟩
          · exact .inl (by simp [eval, step, commentStar, evalSequence, h, h', h'', Pos.consume])
          · exact .inr ⟨_, by simp [eval, step, commentStar, evalSequence, h, h', h'', Pos.consume, Pos.subtract]; exact ⟨by omega, rfl⟩⟩
  cases n with
  | zero => exact .inl rfl
  | succ n =>
    rcases h1 n with h | ⟨e, h⟩
    · exact .inl (by simp [eval, step, commentPart, evalSelect, h])
    · exact .inr ⟨_, by simp [eval, step, commentPart, evalSelect, h, Pos.peek]; rfl⟩

theorem star_slash {ws : List Str} {w : Str} {n off} : Nope (eval L refs n) commentStar st s ⟨openings (w :: ws), off⟩ := by
  cases n with
  | zero => exact .inl rfl
  | succ n =>
    rcases takes_notTag (L := L) (refs := refs) (n := n) (st := st) (s := s) (p := ⟨openings (w :: ws), off⟩) (t := c!"*/") (inv := false) (id := 7) (by simp [openings, List.isPrefixOf]) with h | ⟨oe, h⟩
    · exact .inl (by simp [eval, step, commentStar, evalSequence, h])
    · rcases nope_tag (L := L) (refs := refs) (n := n) (st := st) (s := s) (p := ⟨openings (w :: ws), off⟩) (t := c!"*") (inv := false) (id := 8) (by simp [openings, List.isPrefixOf]) with h' | ⟨e, h'⟩
      · exact .inl (by simp [eval, step, commentStar, evalSequence, h, h', Pos.consume])
      · exact .inr ⟨_, by simp [eval, step, commentStar, evalSequence, h, h', Pos.consume]; rfl⟩

/-- Once no comment is found at a slash, the slash is taken alone. -/
theorem part_slash {ws : List Str} {w : Str} {n off} (h2 : ∀ n, Nope (eval L refs n) commentInner st s ⟨openings (w :: ws), off⟩) :
    Takes (eval L refs n) commentPart st s ⟨openings (w :: ws), off⟩ 1 := by
  have h3 : ∀ n, Takes (eval L refs n) commentSlash st s ⟨openings (w :: ws), off⟩ 1 := by
    intro n
    cases n with
    | zero => exact .inl rfl
    | succ n =>
      rcases takes_tag (L := L) (refs := refs) (n := n) (st := st) (s := s) (p := ⟨openings (w :: ws), off⟩) (t := c!"/") (inv := false) (id := 14) (by simp [openings, List.isPrefixOf]) with h | ⟨oe, h⟩
      · exact .inl (by simp [eval, step, commentSlash, evalSequence, h])
      · rcases takes_until (L := L) (refs := refs) (n := n) (st := st) (s := s) (p := ⟨'*' :: (w ++ openings ws), off + 1⟩) (any := c!"*/") (id := 15) (k := 0) (by simp) with h' | ⟨oe', h'⟩
        · exact .inl (by simp [openings] at h; simp [eval, step, commentSlash, evalSequence, h, h', Pos.consume, openings])
        · exact .inr ⟨_, by simp [openings] at h; simp [eval, step, commentSlash, evalSequence, h, h', Pos.consume, openings, Pos.subtract]; rfl⟩
  cases n with
  | zero => exact .inl rfl
  | succ n =>
    rcases star_slash (L := L) (refs := refs) (st := st) (s := s) (ws := ws) (w := w) (n := n) (off := off) with h | ⟨e, h⟩
    · exact .inl (by simp [eval, step, commentPart, evalSelect, h])
    · rcases h2 n with h' | ⟨e', h'⟩
      · exact .inl (by simp [eval, step, commentPart, evalSelect, h, h'])
      · rcases h3 n with h'' | ⟨oe, h''⟩
        · exact .inl (by simp [eval, step, commentPart, evalSelect, h, h', h''])
        · exact .inr ⟨_, by simp [eval, step, commentPart, evalSelect, h, h', h'', Pos.peek]; rfl⟩

/-- The inside of a comment goes to the end of the text. -/
theorem body_rest (hr : refs[0]? = some Boot.multiLineComment) {n : Nat} {start : Pos} (k : Nat) : ∀ {ws : List Str}, ws.length = k → (∀ w ∈ ws, Filler w) →
    (∀ v vs, vs.length < k → (∀ w ∈ v :: vs, Filler w) → ∀ n off, Nope (eval L refs n) Boot.multiLineComment st s ⟨openings (v :: vs), off⟩) →
    ∀ {fuel first off oe},
    evalRepeat (eval L refs n) commentPart true start fuel first ⟨openings ws, off⟩ s oe st = .timeout ∨
      ∃ oe', evalRepeat (eval L refs n) commentPart true start fuel first ⟨openings ws, off⟩ s oe st =
        .ret (.ok (Pos.subtract ⟨[], off + (openings ws).length⟩ start) s oe') st := by
  induction k with
  | zero =>
    intro ws hl _ _ fuel first off oe
    cases ws with
    | cons _ _ => simp at hl
    | nil =>
      cases fuel with
      | zero => exact .inl rfl
      | succ fuel =>
        rcases part_end (L := L) (st := st) (s := s) hr (n := n) (off := off) with h | ⟨e, h⟩
        · exact .inl (by simp [evalRepeat, openings, h])
        · exact .inr ⟨_, by simp [evalRepeat, openings, h]; rfl⟩
  | succ k ih =>
    intro ws hl hf hc fuel first off oe
    cases ws with
    | nil => simp at hl
    | cons w ws =>
      simp only [List.length_cons, Nat.add_right_cancel_iff] at hl
      cases fuel with
      | zero => exact .inl rfl
      | succ fuel =>
        have hin : ∀ n, Nope (eval L refs n) commentInner st s ⟨openings (w :: ws), off⟩ := fun n =>
          nope_seq_head fun m => nope_node hr fun m => hc w ws (by omega) hf m off
        rcases part_slash (n := n) hin with h | ⟨oe1, h⟩
        · exact .inl (by simp only [evalRepeat, h])
        · cases fuel with
          | zero => exact .inl (by simp only [evalRepeat, h])
          | succ fuel =>
            have hcons : Pos.consume ⟨openings (w :: ws), off⟩ 1 = ⟨'*' :: (w ++ openings ws), off + 1⟩ := rfl
            rcases part_star (L := L) (refs := refs) (st := st) (s := s) (hf w (by simp)) (ws := ws) (n := n) (off := off + 1) with h' | ⟨oe2, h'⟩
            · exact .inl (by simp only [evalRepeat, h, hcons, h'])
            · have hcons' : Pos.consume ⟨'*' :: (w ++ openings ws), off + 1⟩ (1 + w.length) =
                  ⟨openings ws, off + 2 + w.length⟩ := by
                simp only [Pos.consume, Pos.mk.injEq]
                refine ⟨?_, by omega⟩
                rw [Nat.add_comm 1, List.drop_succ_cons]
                simp
              have hlen : off + (openings (w :: ws)).length = off + 2 + w.length + (openings ws).length := by
                simp [openings]; omega
              simp only [evalRepeat, h, hcons, h', hcons', hlen]
              exact ih hl (fun v hv => hf v (by simp [hv])) (fun v vs hv => hc v vs (by omega))

/-- A comment that is not closed is refused. -/
theorem comment_open (hr : refs[0]? = some Boot.multiLineComment) (k : Nat) : ∀ {w : Str} {ws : List Str}, ws.length = k → (∀ v ∈ w :: ws, Filler v) →
    ∀ n off, Nope (eval L refs n) Boot.multiLineComment st s ⟨openings (w :: ws), off⟩ := by
  induction k using Nat.strongRecOn with
  | _ k ih =>
    intro w ws hl hf n off
    cases n with
    | zero => exact .inl rfl
    | succ n =>
      simp only [multiLineComment_eq, eval, step, Nope]
      rcases takes_tag (L := L) (refs := refs) (n := n) (st := st) (s := s) (p := ⟨openings (w :: ws), off⟩) (t := c!"/*") (inv := false) (id := 2) (by simp [openings, List.isPrefixOf]) with h | ⟨oe, h⟩
      · exact .inl (by simp only [evalSequence, h])
      · have hcons : Pos.consume ⟨openings (w :: ws), off⟩ 2 = ⟨w ++ openings ws, off + 2⟩ := rfl
        rcases takes_until (L := L) (refs := refs) (n := n) (st := st) (s := s) (p := ⟨w ++ openings ws, off + 2⟩) (any := c!"*/") (id := 3) (filler_until (hf w (by simp)).2 ws) with h' | ⟨oe', h'⟩
        · exact .inl (by simp only [evalSequence, h]; simp [hcons, h'])
        · have hcons' : Pos.consume ⟨w ++ openings ws, off + 2⟩ w.length = ⟨openings ws, off + 2 + w.length⟩ := by
            simp [Pos.consume]
          cases n with
          | zero => simp [eval] at h
          | succ n =>
            have hb : eval L refs (n + 1) commentBody st s ⟨openings ws, off + 2 + w.length⟩ =
              evalRepeat (eval L refs n) commentPart true ⟨openings ws, off + 2 + w.length⟩ n true ⟨openings ws, off + 2 + w.length⟩ s none st := rfl
            rcases body_rest (L := L) (st := st) (s := s) hr (n := n) (start := ⟨openings ws, off + 2 + w.length⟩) k hl (fun v hv => hf v (by simp [hv]))
              (fun v vs hv hw n off => ih vs.length hv rfl hw n off) (fuel := n) (first := true) (off := off + 2 + w.length) (oe := none) with h'' | ⟨oe'', h''⟩
            · exact .inl (by simp only [evalSequence, h]; simp [hcons, h', hcons', hb, h''])
            · rcases nope_tag (L := L) (refs := refs) (n := n + 1) (st := st) (s := s) (p := ⟨[], off + 2 + w.length + (openings ws).length⟩) (t := c!"*/") (inv := false) (id := 16) rfl with h3 | ⟨e, h3⟩
              · exact .inl (by simp only [evalSequence, h]; simp [hcons, h', hcons', hb, h'', Pos.subtract]; simp [Pos.consume, h3])
              · exact .inr ⟨_, by simp only [evalSequence, h]; simp [hcons, h', hcons', hb, h'', Pos.subtract]; simp [Pos.consume, h3]; rfl⟩

end

theorem sum_mem_le {l : List Nat} {a : Nat} (h : a ∈ l) : a ≤ l.sum := by
  induction l with
  | nil => simp at h
  | cons b l ih =>
    simp only [List.sum_cons]
    rcases List.mem_cons.1 h with rfl | h
    · omega
    · have := ih h; omega

theorem max_mem_le {l : List Nat} {a : Nat} (h : a ∈ l) : a ≤ l.foldr max 0 := by
  induction l with
  | nil => simp at h
  | cons b l ih =>
    simp only [List.foldr_cons]
    rcases List.mem_cons.1 h with rfl | h
    · omega
    · have := ih h; omega

/-- The call `c'` is made in the course of `c`: it costs less, and is `k` levels less deep. -/
def Within (L : Lexer) (refs : List Rule) (k : Nat) (m : Nat) (c' : Call) (n : Nat) (c : Call) : Prop :=
  c'.run (eval L refs m) ≠ .timeout ∧ callCount L refs m c' + k ≤ callCount L refs n c ∧
    callDepth L refs m c' + k ≤ callDepth L refs n c

section
variable {L : Lexer} {refs : List Rule}

theorem Within.trans {a b : Nat} {n₁ n₂ n₃ : Nat} {c₁ c₂ c₃ : Call} (h : Within L refs a n₁ c₁ n₂ c₂)
    (h' : Within L refs b n₂ c₂ n₃ c₃) : Within L refs (a + b) n₁ c₁ n₃ c₃ := by
  obtain ⟨h1, h2, h3⟩ := h
  obtain ⟨-, h5, h6⟩ := h'
  exact ⟨h1, by omega, by omega⟩

/-- A call that is made is within the call that makes it. -/
theorem within_sub {n : Nat} {c c' : Call} (hne : c.run (eval L refs (n + 1)) ≠ .timeout)
    (h : c' ∈ subcalls L refs (eval L refs n) n c) : Within L refs 1 n c' (n + 1) c := by
  refine ⟨fun ht => hne (subcalls_strict h ht), ?_, ?_⟩
  · have := sum_mem_le (List.mem_map_of_mem (f := callCount L refs n) h)
    simp only [callCount]
    omega
  · have := max_mem_le (List.mem_map_of_mem (f := callDepth L refs n) h)
    simp only [callDepth]
    omega

theorem ne_zero_of_run {n : Nat} {c : Call} (hne : c.run (eval L refs n) ≠ .timeout) : ∃ m, n = m + 1 := by
  cases n with
  | zero => exact absurd rfl hne
  | succ n => exact ⟨n, rfl⟩

variable {st : St} {s : Nat}

/-- Inside an unclosed comment its body is read. -/
theorem body_within {w : Str} {ws : List Str} (hw : Filler w) {n off}
    (hne : Call.run (eval L refs n) ⟨Boot.multiLineComment, st, s, ⟨openings (w :: ws), off⟩⟩ ≠ .timeout) :
    ∃ m, Within L refs 1 m ⟨commentBody, st, s, ⟨openings ws, off + 2 + w.length⟩⟩ n ⟨Boot.multiLineComment, st, s, ⟨openings (w :: ws), off⟩⟩ := by
  obtain ⟨n, rfl⟩ := ne_zero_of_run hne
  have hs : ∀ c', c' ∈ sequenceCalls (eval L refs n) [.tag c!"/*" false false none 2, .untilAny c!"*/" true none 3, commentBody, .tag c!"*/" false false none 16] ⟨openings (w :: ws), off⟩ s st →
      Within L refs 1 n c' (n + 1) ⟨Boot.multiLineComment, st, s, ⟨openings (w :: ws), off⟩⟩ := fun c' h => within_sub hne h
  refine ⟨n, hs _ ?_⟩
  have h1 := hs ⟨.tag c!"/*" false false none 2, st, s, ⟨openings (w :: ws), off⟩⟩ (by simp [sequenceCalls])
  rcases takes_tag (L := L) (refs := refs) (n := n) (st := st) (s := s) (p := ⟨openings (w :: ws), off⟩) (t := c!"/*") (inv := false) (id := 2) (by simp [openings, List.isPrefixOf]) with h | ⟨oe, h⟩
  · exact absurd h h1.1
  · have hcons : Pos.consume ⟨openings (w :: ws), off⟩ 2 = ⟨w ++ openings ws, off + 2⟩ := rfl
    have hcons' : Pos.consume ⟨w ++ openings ws, off + 2⟩ w.length = ⟨openings ws, off + 2 + w.length⟩ := by
      simp [Pos.consume]
    have h2 := hs ⟨.untilAny c!"*/" true none 3, st, s, ⟨w ++ openings ws, off + 2⟩⟩ (by
      simp only [sequenceCalls, h]
      simp [hcons])
    rcases takes_until (L := L) (refs := refs) (n := n) (st := st) (s := s) (p := ⟨w ++ openings ws, off + 2⟩) (any := c!"*/") (id := 3) (filler_until hw.2 ws) with h' | ⟨oe', h'⟩
    · exact absurd h' h2.1
    · simp only [sequenceCalls, h]
      simp [hcons, h', hcons']

/-- Where a comment is opened inside a comment, it is tried. -/
theorem comment_within (hr : refs[0]? = some Boot.multiLineComment) {w : Str} {ws : List Str} {n off}
    (hne : Call.run (eval L refs n) ⟨commentPart, st, s, ⟨openings (w :: ws), off⟩⟩ ≠ .timeout) :
    ∃ m, Within L refs 3 m ⟨Boot.multiLineComment, st, s, ⟨openings (w :: ws), off⟩⟩ n ⟨commentPart, st, s, ⟨openings (w :: ws), off⟩⟩ := by
  obtain ⟨n, rfl⟩ := ne_zero_of_run hne
  have hs : ∀ c', c' ∈ selectCalls (eval L refs n) s ⟨openings (w :: ws), off⟩ [commentStar, commentInner, commentSlash] st →
      Within L refs 1 n c' (n + 1) ⟨commentPart, st, s, ⟨openings (w :: ws), off⟩⟩ := fun c' h => within_sub hne h
  have h1 := hs ⟨commentStar, st, s, ⟨openings (w :: ws), off⟩⟩ (by simp [selectCalls])
  rcases star_slash (L := L) (refs := refs) (st := st) (s := s) (ws := ws) (w := w) (n := n) (off := off) with h | ⟨e, h⟩
  · exact absurd h h1.1
  · have h2 := hs ⟨commentInner, st, s, ⟨openings (w :: ws), off⟩⟩ (by simp [selectCalls, h])
    obtain ⟨n, rfl⟩ := ne_zero_of_run h2.1
    have h3 : Within L refs 1 n ⟨.node c!"multi_line_comment" none (some 0) 11, st, s, ⟨openings (w :: ws), off⟩⟩ (n + 1)
        ⟨commentInner, st, s, ⟨openings (w :: ws), off⟩⟩ := within_sub h2.1 (by simp [subcalls, commentInner, sequenceCalls])
    obtain ⟨n, rfl⟩ := ne_zero_of_run h3.1
    have h4 : Within L refs 1 n ⟨Boot.multiLineComment, st, s, ⟨openings (w :: ws), off⟩⟩ (n + 1)
        ⟨.node c!"multi_line_comment" none (some 0) 11, st, s, ⟨openings (w :: ws), off⟩⟩ :=
      within_sub h3.1 (by simp [subcalls, nodeCalls, hr, pushOpt])
    exact ⟨n, (h4.trans h3).trans h2⟩

/-- Every level is gone through twice: once as a comment, once as characters of the comment around it. -/
theorem body_count (hr : refs[0]? = some Boot.multiLineComment) (k : Nat) : ∀ {ws : List Str}, ws.length = k → (∀ w ∈ ws, Filler w) →
    ∀ {n fuel start first off oe},
    evalRepeat (eval L refs n) commentPart true start fuel first ⟨openings ws, off⟩ s oe st ≠ .timeout →
    2 ^ (k + 1) ≤ ((repeatCalls (eval L refs n) commentPart fuel ⟨openings ws, off⟩ s st).map (callCount L refs n)).sum := by
  induction k with
  | zero =>
    intro ws hl hf n fuel start first off oe hne
    cases fuel with
    | zero => exact absurd rfl hne
    | succ fuel =>
      have h1 : Call.run (eval L refs n) ⟨commentPart, st, s, ⟨openings ws, off⟩⟩ ≠ .timeout := by
        intro ht
        have ht : eval L refs n commentPart st s ⟨openings ws, off⟩ = .timeout := ht
        exact hne (by simp [evalRepeat, ht])
      obtain ⟨n, rfl⟩ := ne_zero_of_run h1
      have h2 : Within L refs 1 n ⟨commentStar, st, s, ⟨openings ws, off⟩⟩ (n + 1) ⟨commentPart, st, s, ⟨openings ws, off⟩⟩ :=
        within_sub h1 (by simp [subcalls, commentPart, selectCalls])
      obtain ⟨n, rfl⟩ := ne_zero_of_run h2.1
      have h3 := h2.2.1
      have h4 : 1 ≤ callCount L refs (n + 1) ⟨commentStar, st, s, ⟨openings ws, off⟩⟩ := by simp [callCount]
      simp only [repeatCalls, List.map_cons, List.sum_cons]
      omega
  | succ k ih =>
    intro ws hl hf n fuel start first off oe hne
    cases ws with
    | nil => simp at hl
    | cons w ws =>
      simp only [List.length_cons, Nat.add_right_cancel_iff] at hl
      have hf' : ∀ v ∈ ws, Filler v := fun v hv => hf v (by simp [hv])
      cases fuel with
      | zero => exact absurd rfl hne
      | succ fuel =>
        have h1 : Call.run (eval L refs n) ⟨commentPart, st, s, ⟨openings (w :: ws), off⟩⟩ ≠ .timeout := by
          intro ht
          have ht : eval L refs n commentPart st s ⟨openings (w :: ws), off⟩ = .timeout := ht
          exact hne (by simp [evalRepeat, ht])
        -- as a comment
        obtain ⟨m, h2⟩ := comment_within hr h1
        obtain ⟨m', h3⟩ := body_within (hf w (by simp)) h2.1
        obtain ⟨m', rfl⟩ := ne_zero_of_run h3.1
        have h4 := ih hl hf' (n := m') (fuel := m') (start := ⟨openings ws, off + 2 + w.length⟩) (first := true)
          (off := off + 2 + w.length) (oe := none) h3.1
        have h5 : callCount L refs (m' + 1) ⟨commentBody, st, s, ⟨openings ws, off + 2 + w.length⟩⟩ =
          1 + ((repeatCalls (eval L refs m') commentPart m' ⟨openings ws, off + 2 + w.length⟩ s st).map (callCount L refs m')).sum := rfl
        -- as characters
        have hin : ∀ n, Nope (eval L refs n) commentInner st s ⟨openings (w :: ws), off⟩ := fun n =>
          nope_seq_head fun m => nope_node hr fun m => comment_open hr _ rfl hf m off
        rcases part_slash (n := n) hin with h | ⟨oe1, h⟩
        · exact absurd h h1
        · cases fuel with
          | zero => exact absurd (by simp only [evalRepeat, h]) hne
          | succ fuel =>
            have hcons : Pos.consume ⟨openings (w :: ws), off⟩ 1 = ⟨'*' :: (w ++ openings ws), off + 1⟩ := rfl
            rcases part_star (L := L) (refs := refs) (st := st) (s := s) (hf w (by simp)) (ws := ws) (n := n) (off := off + 1) with h' | ⟨oe2, h'⟩
            · exact absurd (by simp only [evalRepeat, h, hcons, h']) hne
            · have hcons' : Pos.consume ⟨'*' :: (w ++ openings ws), off + 1⟩ (1 + w.length) =
                  ⟨openings ws, off + 2 + w.length⟩ := by
                simp only [Pos.consume, Pos.mk.injEq]
                refine ⟨?_, by omega⟩
                rw [Nat.add_comm 1, List.drop_succ_cons]
                simp
              simp only [evalRepeat, h, hcons, h', hcons'] at hne
              have h6 := ih hl hf' hne
              simp only [repeatCalls, h, hcons, h', hcons', List.map_cons, List.sum_cons]
              have h7 := h2.2.1
              have h8 := h3.2.1
              rw [Nat.pow_succ]
              omega

/-- The comments are nested on the stack. -/
theorem body_depth (hr : refs[0]? = some Boot.multiLineComment) (k : Nat) : ∀ {ws : List Str}, ws.length = k → (∀ w ∈ ws, Filler w) →
    ∀ {n off}, Call.run (eval L refs n) ⟨commentBody, st, s, ⟨openings ws, off⟩⟩ ≠ .timeout →
    5 * k ≤ callDepth L refs n ⟨commentBody, st, s, ⟨openings ws, off⟩⟩ := by
  induction k with
  | zero => intros; omega
  | succ k ih =>
    intro ws hl hf n off hne
    cases ws with
    | nil => simp at hl
    | cons w ws =>
      simp only [List.length_cons, Nat.add_right_cancel_iff] at hl
      obtain ⟨n, rfl⟩ := ne_zero_of_run hne
      have hn : n ≠ 0 := by
        rintro rfl
        exact hne rfl
      obtain ⟨n, rfl⟩ : ∃ m, n = m + 1 := ⟨n - 1, by omega⟩
      have h1 : Within L refs 1 (n + 1) ⟨commentPart, st, s, ⟨openings (w :: ws), off⟩⟩ (n + 1 + 1) ⟨commentBody, st, s, ⟨openings (w :: ws), off⟩⟩ :=
        within_sub hne (by simp [subcalls, commentBody, repeatCalls])
      obtain ⟨m, h2⟩ := comment_within hr h1.1
      obtain ⟨m', h3⟩ := body_within (hf w (by simp)) h2.1
      have h4 := ih hl (fun v hv => hf v (by simp [hv])) h3.1
      have h5 := ((h3.trans h2).trans h1).2.2
      omega

/-- What an unclosed comment costs. -/
theorem comment_cost (hr : refs[0]? = some Boot.multiLineComment) {w : Str} {ws : List Str} (hf : ∀ v ∈ w :: ws, Filler v) {n off}
    (hne : Call.run (eval L refs n) ⟨Boot.multiLineComment, st, s, ⟨openings (w :: ws), off⟩⟩ ≠ .timeout) :
    2 ^ (ws.length + 1) ≤ callCount L refs n ⟨Boot.multiLineComment, st, s, ⟨openings (w :: ws), off⟩⟩ ∧
      5 * ws.length < callDepth L refs n ⟨Boot.multiLineComment, st, s, ⟨openings (w :: ws), off⟩⟩ := by
  have hf' : ∀ v ∈ ws, Filler v := fun v hv => hf v (by simp [hv])
  obtain ⟨m, h⟩ := body_within (hf w (by simp)) hne
  have h1 := body_depth hr _ rfl hf' h.1
  have h2 := h.2.2
  have h4 := h.2.1
  refine ⟨?_, by omega⟩
  obtain ⟨m, rfl⟩ := ne_zero_of_run h.1
  have h3 := body_count (st := st) (s := s) hr _ rfl hf' (n := m) (fuel := m) (start := ⟨openings ws, off + 2 + w.length⟩) (first := true)
    (off := off + 2 + w.length) (oe := none) h.1
  have h5 : callCount L refs (m + 1) ⟨commentBody, st, s, ⟨openings ws, off + 2 + w.length⟩⟩ =
    1 + ((repeatCalls (eval L refs m) commentPart m ⟨openings ws, off + 2 + w.length⟩ s st).map (callCount L refs m)).sum := rfl
  omega

end
end Verif
