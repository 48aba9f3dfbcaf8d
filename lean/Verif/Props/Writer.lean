import Verif.Model.StdLexer
import Verif.Proofs.Writer
import Verif.Props.ErrorHandler
/-
Writers that report errors (C74) and `load_syntax_data` with files (C75).
-/
namespace Verif.Props
open Spec

/-! ### C74 -/

/-- `json::write` gives the writer the JSON text, whatever the writer and however `write!` cuts it;
when the indentation overflows, it panics behind a text that does not depend on the writer either. -/
theorem C74_json (C : Cut) (fmt : F64 → Str) (data : List Tok) :
    (∀ t, writeJson fmt data = .ok t → Delivers (fun _ _ W s => jsonTo W C fmt data s) t) ∧
    (writeJson fmt data = .panic → ∃ t, Delivers (fun _ _ W s => jsonTo W C fmt data s) t true) ∧
    writeJson fmt data ≠ .timeout :=
  writes_json_loop C fmt _ _ _ _

/-- `write_string` gives the writer the JSON string. -/
theorem C74_json_string (C : Cut) (val : Str) : Delivers (fun _ _ W s => stringTo W C val s) (writeString val) :=
  writes_string C val

/-- `ParseErrorHandler::write` gives the writer the report. -/
theorem C74_report (C : Cut) (E : ErrText) (text : Str) (e : RErr) :
    ∃ t, writeErr E (handlerLines text) e = .ok t ∧
      Delivers (fun _ _ W s => errTo W C E (handlerLines text) e s) t := by
  obtain ⟨t, h⟩ := (C36_no_panic E text e []).1
  exact ⟨t, h, writes_err C E _ e h⟩

/-- `ParseErrorHandler::write_msg` gives the writer the message and the excerpt. -/
theorem C74_message (C : Cut) (text : Str) (range : Range) (msg : Str) :
    ∃ t, writeMsg (handlerLines text) range msg = .ok t ∧
      Delivers (fun _ _ W s => msgTo W C (handlerLines text) range msg s) t := by
  obtain ⟨t, h⟩ := (C36_no_panic ⟨fun _ => [], fun _ => []⟩ text ⟨range, .expectedEnd⟩ msg).2
  exact ⟨t, h, writes_msg C _ range msg h⟩

/-- What is in the writer in the end: the whole text if `Ok(())` is returned, the first part of it
if an error is returned.  There is no panic. -/
theorem C74_prefix {f : Writing} {t : Str} (hf : Delivers f t) {σ ε : Type} {W : Writer σ ε} {content : σ → Str}
    (hW : Keeps W content) (s : σ) :
    (∀ s', f σ ε W s = .ok s' → content s' = content s ++ t) ∧
    (∀ e s', f σ ε W s = .err e s' → ∃ q, q <+: t ∧ content s' = content s ++ q) ∧
    ∀ s', f σ ε W s ≠ .panic s' := by
  obtain ⟨ps, rfl, h⟩ := hf
  have e : f σ ε W s = putAll W ps s := by rw [h]; simp [Wrote.andThen_ok]
  rw [e]
  exact putAll_keeps hW ps s

/-- The first error of the writer is returned, and nothing is given to the writer behind it: of the
pieces `n` that a writer without errors gets, one that reports an error at the `k`-th gets `k + 1`. -/
theorem C74_first_error {f : Writing} {t : Str} (hf : Delivers f t) :
    ∃ pieces : List Str, pieces.flatten = t ∧ ∀ k,
      f _ _ (failsAt k) [] = if k < pieces.length then .err k (pieces.take (k + 1)).reverse
        else .ok pieces.reverse := by
  obtain ⟨ps, rfl, h⟩ := hf
  refine ⟨ps, rfl, fun k => ?_⟩
  rw [h]
  simp only [Bool.false_eq_true, if_false, Wrote.andThen_ok]
  have key : ∀ (ps s : List Str), s.length ≤ k → putAll (failsAt k) ps s =
      if k < s.length + ps.length then .err k ((ps.take (k + 1 - s.length)).reverse ++ s)
      else .ok (ps.reverse ++ s) := by
    intro ps
    induction ps with
    | nil => intro s hs; simp [putAll]; omega
    | cons p ps ih =>
      intro s hs
      simp only [putAll]
      by_cases c : s.length = k
      · have e : (failsAt k).put s p = (.error k, p :: s) := by simp only [failsAt, if_pos c]
        rw [e, if_pos (by simp; omega)]
        simp [← c]
      · have e : (failsAt k).put s p = (.ok (), p :: s) := by simp only [failsAt, if_neg c]
        rw [e]
        simp only []
        rw [ih (p :: s) (by simp; omega)]
        have : k + 1 - s.length = (k - s.length) + 1 := by omega
        simp only [List.length_cons, this, List.take_succ_cons, List.reverse_cons, List.append_assoc,
          List.singleton_append, Nat.add_comm 1, Nat.add_assoc, Nat.add_sub_add_right]
  have := key ps [] (by simp)
  simpa using this

/-- A full disk: with room for `k` characters the first `k` of the text are there, and it is an
error exactly if the text is longer. -/
theorem C74_capped {f : Writing} {t : Str} (hf : Delivers f t) (k : Nat) :
    f _ _ (capped k) [] = if t.length ≤ k then .ok t else .err () (t.take k) := by
  obtain ⟨ps, rfl, h⟩ := hf
  rw [h]
  simpa [Wrote.andThen_ok] using putAll_capped k ps [] (by simp)

/-- Writing to a `Vec<u8>`: the text is appended, there is no error for `unwrap` to panic at. -/
theorem C74_vec {f : Writing} {t : Str} (hf : Delivers f t) (s : Str) : (f _ _ growing s).unwrap = .ok (s ++ t) := by
  obtain ⟨ps, rfl, h⟩ := hf
  rw [h, putAll_growing]
  rfl

/-- `print` and `ParseErrorHandler::error`: a writer that reports an error makes them panic, with
the first part of the text written. -/
theorem C74_unwrap {f : Writing} {t : Str} (hf : Delivers f t) {σ ε : Type} {W : Writer σ ε} {content : σ → Str}
    (hW : Keeps W content) (s : σ) :
    (∀ s', (f σ ε W s).unwrap = .ok s' → content s' = content s ++ t) ∧
    (∀ s', (f σ ε W s).unwrap = .panic s' → ∃ q, q <+: t ∧ content s' = content s ++ q) ∧
    ((∃ s', (f σ ε W s).unwrap = .panic s') ↔ ∃ e s', f σ ε W s = .err e s') := by
  obtain ⟨h1, h2, h3⟩ := C74_prefix hf hW s
  cases h : f σ ε W s with
  | ok s1 =>
    refine ⟨fun s' e => ?_, fun s' e => (by cases e), by simp [Wrote.unwrap]⟩
    cases e
    exact h1 _ h
  | err e s1 =>
    refine ⟨fun s' e => (by cases e), fun s' e' => ?_, by simp [Wrote.unwrap]⟩
    cases e'
    exact h2 _ _ h
  | panic s1 => exact absurd h (h3 s1)

/-- `stderr_unwrap` returns the value and writes nothing; for an error it never returns, and the
report is on the standard error output unless that reports an error itself. -/
theorem C74_stderr_unwrap {σ ε α : Type} {W : Writer σ ε} {content : σ → Str} (hW : Keeps W content) (C : Cut)
    (E : ErrText) (source : Str) (s : σ) :
    (∀ a : α, stderrUnwrap W C E source (.ok a) s = .ok a s) ∧
    (∀ e : RErr, ∃ t s', reportErr E source e = .ok t ∧
      stderrUnwrap (α := α) W C E source (.error e) s = .panic s' ∧
      (content s' = content s ++ t ∨
        (∃ x s'', errTo W C E (handlerLines source) e s = .err x s'') ∧ ∃ q, q <+: t ∧ content s' = content s ++ q)) := by
  refine ⟨fun a => rfl, fun e => ?_⟩
  obtain ⟨t, ht, hw⟩ := C74_report C E source e
  obtain ⟨h1, h2, h3⟩ := C74_prefix hw hW s
  cases h : errTo W C E (handlerLines source) e s with
  | ok s1 => exact ⟨t, s1, ht, by simp [stderrUnwrap, errorTo, h, Wrote.unwrap], .inl (h1 _ h)⟩
  | err x s1 =>
    exact ⟨t, s1, ht, by simp [stderrUnwrap, errorTo, h, Wrote.unwrap], .inr ⟨⟨x, s1, rfl⟩, h2 _ _ h⟩⟩
  | panic s1 => exact absurd h (h3 s1)

/-- The two ways of giving a text to `write_all`: at once, and one character at a time. -/
def atOnce : Cut := ⟨fun _ s => [s], fun _ s => by simp⟩
def byChar : Cut := ⟨fun _ s => s.map fun c => [c], fun _ s => by
  rw [← List.flatMap_def]; induction s <;> simp_all⟩

def exFormat : F64 → Str := fun _ => c!"1.5"
def exWritten : List Tok :=
  [⟨⟨0, 1⟩, .startNode c!"a"⟩, ⟨⟨0, 1⟩, .string c!"b" c!"c\n"⟩, ⟨⟨0, 1⟩, .endNode c!"a"⟩, ⟨⟨0, 1⟩, .bool c!"d" true⟩]

-- the text does not fit: 12 characters are written, whichever way it is cut
example : jsonTo (capped 12) atOnce exFormat exWritten [] = .err () c!"\"a\":{\n \"b\":\"" := rfl
example : jsonTo (capped 12) byChar exFormat exWritten [] = .err () c!"\"a\":{\n \"b\":\"" := rfl
example : jsonTo (capped 100) byChar exFormat exWritten [] = .ok c!"\"a\":{\n \"b\":\"c\\n\"\n},\n\"d\":true\n" := rfl
-- the third piece fails: three pieces have been given to the writer
example : jsonTo (failsAt 2) atOnce exFormat exWritten [] = .err 2 [c!"\"", c!"a", c!"\""] := rfl
example : jsonTo (failsAt 2) byChar exFormat exWritten [] = .err 2 [c!"\"", c!"a", c!"\""] := rfl
example : jsonTo (failsAt 3) atOnce exFormat exWritten [] = .err 3 [c!":{", c!"\"", c!"a", c!"\""] := rfl
-- the writer fails before `indent -= 1` would underflow, so there is no panic
def exUnder : List Tok := [⟨⟨0, 1⟩, .bool c!"d" true⟩, ⟨⟨0, 1⟩, .endNode c!"a"⟩, ⟨⟨0, 1⟩, .startNode c!"a"⟩]
example : writeJson exFormat exUnder = .panic := rfl
example : jsonTo (capped 3) byChar exFormat exUnder [] = .err () c!"\"d\"" := rfl
example : jsonTo (capped 100) byChar exFormat exUnder [] = .panic c!"\"d\":true" := rfl
-- an error report on a standard error output that is cut off
example : stderrUnwrap (α := Unit) (capped 25) byChar exErrText c!"é\nab" (.error ⟨⟨1, 7⟩, .expectedEnd⟩) [] =
    .panic c!"Error Expected end\n1,2: é" := rfl

/-! ### C75 -/

section
variable {σ ε : Type} {W : Writer σ ε} {C : Cut} {L : Lexer} {E : ErrText} {n : Nat} {Path : Type}
  {fs : Path → Option Str} {sp dp : Path} {s : σ}

/-- Both files can be read: the outcome is that of the two texts; an error has been reported on the
standard error output. -/
theorem C75_texts {t d : Str} (ht : fs sp = some t) (hd : fs dp = some d) :
    (∀ tokens, loadSyntaxData L E n t d = .ok (.ok tokens) →
      loadFiles W C L E n fs sp dp s = (.ok tokens s, [dp, sp])) ∧
    (∀ w, loadSyntaxData L E n t d = .ok (.error w) →
      ∃ f : Writing, Delivers f w ∧ (loadFiles W C L E n fs sp dp s).1 =
        match f σ ε W s with
        | .ok s' => .panic s'
        | .err _ s' => .panic s'
        | .panic s' => .panic s') ∧
    (loadSyntaxData L E n t d = .panic → (loadFiles W C L E n fs sp dp s).1 = .panic s) ∧
    (loadSyntaxData L E n t d = .timeout → (loadFiles W C L E n fs sp dp s).1 = .timeout) := by
  have rep : ∀ (src : Str) (e : RErr) (w : Str), reportErr E src e = .ok w →
      Delivers (fun _ _ W s => errTo W C E (handlerLines src) e s) w := fun src e w h => writes_err C E _ e h
  have un : ∀ {α : Type} (src : Str) (e : RErr), (stderrUnwrap (α := α) W C E src (.error e) s) =
      match errTo W C E (handlerLines src) e s with
      | .ok s' => .panic s'
      | .err _ s' => .panic s'
      | .panic s' => .panic s' := by
    intro α src e
    simp only [stderrUnwrap, errorTo]
    cases errTo W C E (handlerLines src) e s <;> rfl
  have sorted : ∀ {α : Type} (src : Str) (e : RErr), ∃ s', stderrUnwrap (α := α) W C E src (.error e) s = .panic s' := by
    intro α src e
    rw [un]
    cases errTo W C E (handlerLines src) e s <;> exact ⟨_, rfl⟩
  have noPanic : ∀ (src : Str) (e : RErr), ∃ w, reportErr E src e = .ok w := fun src e => (C36_no_panic E src e []).1
  simp only [loadSyntaxData, loadFiles, ht, hd]
  cases hr : readSyntax L n t with
  | timeout => exact ⟨fun _ h => (by cases h), fun _ h => (by cases h), fun h => (by cases h), fun _ => rfl⟩
  | panic => exact ⟨fun _ h => (by cases h), fun _ h => (by cases h), fun _ => rfl, fun h => (by cases h)⟩
  | ok res =>
    cases res with
    | error e =>
      obtain ⟨w, hw⟩ := noPanic t e
      obtain ⟨s', hs⟩ := sorted (α := Syntax) t e
      simp only [bind_ok, hw]
      refine ⟨fun _ h => (by cases h), fun w' h => ?_, fun h => (by cases h), fun h => (by cases h)⟩
      cases h
      refine ⟨_, rep t e w hw, ?_⟩
      rw [hs]
      have := un (α := Syntax) t e
      rw [hs] at this
      revert this
      cases errTo W C E (handlerLines t) e s <;> (intro h; cases h; rfl)
    | ok rules =>
      simp only [bind_ok, stderrUnwrap]
      cases hp : parse L n rules d [] with
      | timeout => exact ⟨fun _ h => (by cases h), fun _ h => (by cases h), fun h => (by cases h), fun _ => rfl⟩
      | panic => exact ⟨fun _ h => (by cases h), fun _ h => (by cases h), fun _ => rfl, fun h => (by cases h)⟩
      | ok tokens =>
        refine ⟨fun _ h => ?_, fun _ h => (by cases h), fun h => (by cases h), fun h => (by cases h)⟩
        cases h
        rfl
      | err e toks =>
        obtain ⟨w, hw⟩ := noPanic d e
        simp only [bind_ok, hw]
        refine ⟨fun _ h => (by cases h), fun w' h => ?_, fun h => (by cases h), fun h => (by cases h)⟩
        cases h
        exact ⟨_, rep d e w hw, un (α := List Tok) d e⟩

/-- What is on the standard error output when `load_syntax_data` panics at an error of the rules or
of the data: the report, or the first part of it. -/
theorem C75_reported {content : σ → Str} (hW : Keeps W content) {t d w : Str} (ht : fs sp = some t)
    (hd : fs dp = some d) (h : loadSyntaxData L E n t d = .ok (.error w)) :
    ∃ s' q, (loadFiles W C L E n fs sp dp s).1 = .panic s' ∧ content s' = content s ++ q ∧ q <+: w ∧
      ((∀ s p, (W.put s p).1 = .ok ()) → q = w) := by
  obtain ⟨f, hf, e⟩ := (C75_texts (W := W) (C := C) (s := s) ht hd).2.1 w h
  obtain ⟨h1, h2, h3⟩ := C74_prefix hf hW s
  rw [e]
  cases hx : f σ ε W s with
  | ok s' => exact ⟨s', w, rfl, h1 s' hx, List.prefix_refl w, fun _ => rfl⟩
  | err x s' =>
    obtain ⟨q, hq, hc⟩ := h2 x s' hx
    refine ⟨s', q, rfl, hc, hq, fun hok => ?_⟩
    obtain ⟨ps, _, h⟩ := hf
    have key : ∀ (ps : List Str) (s s' : σ) (x : ε), putAll W ps s ≠ .err x s' := by
      intro ps
      induction ps with
      | nil => intro s s' x h; cases h
      | cons p ps ih =>
        intro s s' x h
        simp only [putAll] at h
        have := hok s p
        cases hp : W.put s p with
        | mk r s1 =>
          rw [hp] at h this
          simp only [] at this
          subst this
          exact ih s1 s' x h
    rw [h] at hx
    simp only [Bool.false_eq_true, if_false, Wrote.andThen_ok] at hx
    exact absurd hx (key _ _ _ _)
  | panic s' => exact absurd hx (h3 s')

/-- Data is returned only if both files can be read and are accepted; then nothing has been written
to the standard error output. -/
theorem C75_returns_iff {tokens : List Tok} :
    (∃ s' o, loadFiles W C L E n fs sp dp s = (.ok tokens s', o)) ↔
      ∃ t d, fs sp = some t ∧ fs dp = some d ∧ loadSyntaxData L E n t d = .ok (.ok tokens) := by
  constructor
  · rintro ⟨s', o, h⟩
    cases ht : fs sp with
    | none => simp [loadFiles, ht] at h
    | some t =>
      simp only [loadFiles, ht] at h
      cases hr : readSyntax L n t with
      | timeout => simp [hr] at h
      | panic => simp [hr] at h
      | ok res =>
        cases res with
        | error e =>
          simp only [hr, stderrUnwrap] at h
          cases hx : errorTo W C E (handlerLines t) e s <;> simp [hx] at h
        | ok rules =>
          simp only [hr, stderrUnwrap] at h
          cases hd : fs dp with
          | none => simp [hd] at h
          | some d =>
            simp only [hd] at h
            refine ⟨t, d, rfl, rfl, ?_⟩
            simp only [loadSyntaxData, hr, bind_ok]
            cases hp : parse L n rules d [] with
            | timeout => simp [hp] at h
            | panic => simp [hp] at h
            | ok tokens' => simp [hp] at h; simp [h]; rfl
            | err e toks =>
              simp only [hp] at h
              cases hx : errorTo W C E (handlerLines d) e s <;> simp [hx] at h
  · rintro ⟨t, d, ht, hd, h⟩
    exact ⟨_, _, (C75_texts ht hd).1 tokens h⟩

/-- A file of rules that cannot be read: nothing else is opened, nothing is written, it panics. -/
theorem C75_no_rules (h : fs sp = none) : loadFiles W C L E n fs sp dp s = (.panic s, [sp]) := by
  simp [loadFiles, h]

/-- Rules with an error: the file of the data is not opened, so it need not exist; what is reported
does not depend on it. -/
theorem C75_wrong_rules {t : Str} {e : RErr} (ht : fs sp = some t) (he : readSyntax L n t = .ok (.error e)) :
    ∃ s', loadFiles W C L E n fs sp dp s = (.panic s', [sp]) ∧
      stderrUnwrap (α := Syntax) W C E t (.error e) s = .panic s' := by
  simp only [loadFiles, ht, he]
  simp only [stderrUnwrap]
  cases errorTo W C E (handlerLines t) e s <;> exact ⟨_, rfl, rfl⟩

/-- Correct rules and no file of data: it panics and nothing is written. -/
theorem C75_no_data {t : Str} {rules : Syntax} (ht : fs sp = some t) (hr : readSyntax L n t = .ok (.ok rules))
    (hd : fs dp = none) : loadFiles W C L E n fs sp dp s = (.panic s, [dp, sp]) := by
  simp [loadFiles, ht, hr, hd, stderrUnwrap]

/-- The file of data is opened exactly if the rules are correct. -/
theorem C75_opened : ((loadFiles W C L E n fs sp dp s).2 = [dp, sp] ∧
      ∃ t rules, fs sp = some t ∧ readSyntax L n t = .ok (.ok rules)) ∨
    ((loadFiles W C L E n fs sp dp s).2 = [sp] ∧
      ¬ ∃ t rules, fs sp = some t ∧ readSyntax L n t = .ok (.ok rules)) := by
  cases ht : fs sp with
  | none => exact .inr ⟨by simp [loadFiles, ht], by simp⟩
  | some t =>
    cases hr : readSyntax L n t with
    | timeout => exact .inr ⟨by simp [loadFiles, ht, hr], by simp [hr]⟩
    | panic => exact .inr ⟨by simp [loadFiles, ht, hr], by simp [hr]⟩
    | ok res =>
      cases res with
      | error e =>
        refine .inr ⟨?_, by simp [hr]⟩
        simp only [loadFiles, ht, hr, stderrUnwrap]
        cases errorTo W C E (handlerLines t) e s <;> rfl
      | ok rules =>
        refine .inl ⟨?_, t, rules, rfl, hr⟩
        simp only [loadFiles, ht, hr, stderrUnwrap]
        cases hd : fs dp with
        | none => rfl
        | some d => simp only []; cases parse L n rules d [] <;> rfl

end

-- files 0, 1, 2 and 4 can be read; the rules of file 2 are wrong
def exFiles : Nat → Option Str
  | 0 => some c!"1 doc = \"a\""
  | 1 => some c!"b"
  | 2 => some c!"1 doc = "
  | 4 => some c!"a"
  | _ => none
set_option maxRecDepth 100000 in
example : loadFiles (capped 100) byChar stdLexer exErrText 22 exFiles 0 1 [] =
  (.panic c!"Error #1001, Expected: `a`\n1,1: b\n1,1: ^\n", [1, 0]) := by decide +kernel
set_option maxRecDepth 100000 in
example : loadFiles (capped 100) byChar stdLexer exErrText 22 exFiles 2 3 [] =
  (.panic c!"Error #15002, Expected: `!`\n1,9: 1 doc = \n1,9:         ^\n", [2]) := by decide +kernel
set_option maxRecDepth 100000 in
example : loadFiles (capped 100) byChar stdLexer exErrText 22 exFiles 0 3 [] = (.panic [], [3, 0]) := by decide +kernel
set_option maxRecDepth 100000 in
example : loadFiles (capped 100) byChar stdLexer exErrText 22 exFiles 0 4 [] = (.ok [] [], [4, 0]) := by decide +kernel

end Verif.Props
