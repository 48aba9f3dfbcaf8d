import Verif.Proofs.NearStd
import Verif.Proofs.NearOpt
import Verif.Proofs.StdLexer
import Verif.Proofs.Relink
import Verif.Props.Syntax
/-
C86: what comes after an error does not matter.
-/
namespace Verif.Props
open Spec

section
variable {L : Lexer} {m : Nat} {syn : Syntax}

/-- C86: without texts, lines and `not`, an error is settled by the text up to where it ends and `m` characters
more, where `m` is the length of the longest token, and at least how far beyond its end a number is looked at. -/
theorem C86_same (hm : 1 ≤ m) (hL : NearNumbers L m) (hs : ∀ r ∈ syn.rules, Near m r) {text text' : Str} {toks toks' : List Tok}
    {ind : Indent} {e : RErr} (h : Parses L syn text toks ind (.err e toks'))
    (ha : text'.take (e.range.next + m) = text.take (e.range.next + m)) :
    ∃ toks'', Parses L syn text' toks ind (.err e toks'') := by
  obtain ⟨tr, hr, hd⟩ := parses_err_run.1 ⟨_, h⟩
  refine parses_err_run.2 ⟨tr, ?_, hd⟩
  have hD : ∀ x ∈ tr, x.depth ≤ e.range.next := by
    obtain ⟨a, b, rfl, h1, h2⟩ := hd
    intro x hx
    rcases List.mem_append.1 hx with hx | hx
    · exact h1 x hx
    · rcases List.mem_cons.1 hx with rfl | hx
      · exact Nat.le_refl _
      · exact Nat.le_of_lt (h2 x hx)
  have hag : Agree m e.range.next ⟨text, 0⟩ ⟨text', 0⟩ := ⟨Nat.zero_le _, rfl, ha⟩
  cases hr with
  | noRules h => exact .noRules h
  | fails hr h =>
    exact .fails hr (run_near hm hL hs h (goalNear_rule.2 (hs _ (List.mem_of_getLast? hr))) _ _ hD (by rintro _ _ ⟨⟩) hag)
  | @short r n ts j tr hr h hn =>
    have hn' : n ≤ e.range.next := by simpa [RErr.depth, Range.next] using hD ⟨⟨n, 0⟩, .expectedEnd⟩ (by simp)
    refine .short hr (run_near hm hL hs h (goalNear_rule.2 (hs _ (List.mem_of_getLast? hr))) _ _
      (fun x hx => hD x (List.mem_append_left _ hx)) (by rintro _ _ ⟨⟩; simpa using hn') hag) ?_
    have := congrArg List.length ha
    simp only [List.length_take] at this
    omega

/-- C86: once a text goes on for `m` characters after the error, the error is final: every way to go on from there
is rejected with the same error. -/
theorem C86_final (hm : 1 ≤ m) (hL : NearNumbers L m) (hs : ∀ r ∈ syn.rules, Near m r) {text : Str} {toks toks' : List Tok}
    {ind : Indent} {e : RErr} (h : Parses L syn text toks ind (.err e toks')) {k : Nat} (hk : e.range.next + m ≤ k)
    (hl : k ≤ text.length) (more : Str) : ∃ toks'', Parses L syn (text.take k ++ more) toks ind (.err e toks'') := by
  refine C86_same hm hL hs h ?_
  rw [List.take_append_of_le_length (by rw [List.length_take]; omega), List.take_take, Nat.min_eq_left hk]

/-- C86: the same holds for the optimized syntax. -/
theorem C86_optimized {o : Syntax} (ho : Optimizes syn o) (hm : 1 ≤ m) (hL : NearNumbers L m) (hs : ∀ r ∈ syn.rules, Near m r)
    {text text' : Str} {toks toks' : List Tok} {ind : Indent} {e : RErr} (h : Parses L o text toks ind (.err e toks'))
    (ha : text'.take (e.range.next + m) = text.take (e.range.next + m)) :
    ∃ toks'', Parses L o text' toks ind (.err e toks'') := by
  refine C86_same hm hL (fun r hr => ?_) h ha
  obtain ⟨n, hn⟩ := ho
  obtain ⟨k, hk⟩ := List.getElem?_of_mem hr
  have := optimize_get hn k
  rw [hk] at this
  cases hq : syn.rules[k]? with
  | none => simp [hq] at this
  | some q =>
    simp only [hq, Option.map_some, Option.some.injEq] at this
    exact opt_near this (hs q (List.mem_of_getElem? hq))

/-- C86: numbers are looked at no more than three characters beyond their end. -/
theorem C86_numbers : NearNumbers stdLexer 3 := Std.num_near

/-- C86: two are not enough. -/
theorem C86_numbers_refuted : ¬ NearNumbers stdLexer 2 := by
  intro h
  have := ((h false c!"1e+" c!"1e+5").2 1 (by decide) (by decide)).1
  exact absurd this (by decide)

end

/-- `Near`, as a check of every part. -/
def nearBy (m : Nat) : Rule → Bool
  | .tag t .. => decide (t.length ≤ m)
  | .text .. => false
  | .lines .. => false
  | .not .. => false
  | _ => true

theorem near_by {m : Nat} {r : Rule} (h : r.all (nearBy m) = true) : Near m r where
  token _ _ _ _ _ ho := by simpa [nearBy] using Rule.all_occurs ho h
  text _ _ _ ho := by simpa [nearBy] using Rule.all_occurs ho h
  lines _ _ _ ho := by simpa [nearBy] using Rule.all_occurs ho h
  not _ _ ho := by simpa [nearBy] using Rule.all_occurs ho h

/-- `doc = ["let" .w! .._;!:"name" .w? "=" .w? .$:"num" ";"]`. -/
def exLet : Syntax := ⟨[.sequence [.tag c!"let" false false none 1, .whitespace false 2, .untilAnyOrWs c!"=;" false (some c!"name") 3,
  .whitespace true 4, .tag c!"=" false false none 5, .whitespace true 6, .number (some c!"num") false 7,
  .tag c!";" false false none 8] 9], [c!"doc"]⟩

/-- `let x = 1e+;` is rejected at the `e`, and whatever follows. -/
example (more : Str) : ∃ toks, Parses stdLexer exLet (c!"let x = 1e+;" ++ more) [] Indent.default
    (.err ⟨⟨9, 0⟩, .expectedTag c!";" 8⟩ toks) := by
  have h : Parses stdLexer exLet c!"let x = 1e+;" [] Indent.default (.err ⟨⟨9, 0⟩, .expectedTag c!";" 8⟩
      [⟨⟨4, 1⟩, .string c!"name" c!"x"⟩, ⟨⟨8, 1⟩, .f64 c!"num" ⟨0x3FF0000000000000⟩⟩]) := ⟨by simp, 20, by decide +kernel⟩
  exact C86_final (m := 3) (by decide) C86_numbers (by
    intro r hr
    obtain rfl := List.mem_singleton.1 hr
    exact near_by rfl) h (k := 12) (by decide) (by decide) more

/-- A token of `m + 1` characters. -/
def exLong (m : Nat) : Syntax := ⟨[.tag (List.replicate m 'a' ++ ['b']) false false none 1], [c!"doc"]⟩

/-- C86: `m` characters are not enough for a token of `m + 1`. -/
theorem C86_token_refuted (m : Nat) : ∃ syn text text' e toks toks',
    (∀ r ∈ syn.rules, Near (m + 1) r) ∧ Parses stdLexer syn text [] Indent.default (.err e toks) ∧
    text'.take (e.range.next + m) = text.take (e.range.next + m) ∧ Parses stdLexer syn text' [] Indent.default (.ok toks') := by
  obtain ⟨toks, h⟩ := (parses_err_run (L := stdLexer) (syn := exLong m) (text := List.replicate m 'a') (toks := [])
    (ind := Indent.default)).2 ⟨_, .fails rfl (.tag_fail fun h => by
      have := h.length_le
      simp only [List.length_append, List.length_replicate, List.length_cons, List.length_nil] at this
      omega), [], [], rfl, by simp, by simp⟩
  refine ⟨exLong m, List.replicate m 'a', List.replicate m 'a' ++ ['b'], _, toks, [], ?_, h, ?_,
    parses_ok_run.2 ⟨_, _, [], _, _, rfl, .tag_ok (List.prefix_refl _), Nat.le_refl _, rfl⟩⟩
  · intro r hr
    obtain rfl := List.mem_singleton.1 hr
    refine .of_children (fun c hc => by cases hc) ?_ (by simp) (by simp) (by simp)
    intro t neg inv prop id h
    cases h
    simp
  · simp [Range.next]

theorem str_open (m : Nat) : Std.str ('"' :: List.replicate m 'a') = none := by
  have : ∀ m, Std.scanStr (List.replicate m 'a') false = none := by
    intro m
    induction m with
    | zero => rfl
    | succ m ih => simp [List.replicate_succ, Std.scanStr, ih]
  simp [Std.str, this]

theorem str_closed (m : Nat) : Std.str ('"' :: List.replicate m 'a' ++ ['"']) = some (m + 2) ∧
    Std.parseStr ('"' :: List.replicate m 'a' ++ ['"']) (m + 2) = .ok (List.replicate m 'a') := by
  have h1 : ∀ m, Std.scanStr (List.replicate m 'a' ++ ['"']) false = some (m + 1) := by
    intro m
    induction m with
    | zero => rfl
    | succ m ih => simp [List.replicate_succ, Std.scanStr, ih]
  have h2 : ∀ m k, Std.decode (List.replicate m 'a') k = .ok (List.replicate m 'a') := by
    intro m
    induction m with
    | zero => intro k; rfl
    | succ m ih =>
      intro k
      rw [List.replicate_succ, Std.decode, ih]
      · rfl
      · simp
  refine ⟨by simp [Std.str, h1], ?_⟩
  simp [Std.parseStr, h2]

/-- C86: with texts, no number of characters is enough: what is missing is a quote at the end. -/
theorem C86_text_refuted (m : Nat) : ∃ syn text text' e toks toks', (∀ r ∈ syn.rules, ∃ prop id, r = .text true prop id) ∧
    Parses stdLexer syn text [] Indent.default (.err e toks) ∧
    text'.take (e.range.next + m) = text.take (e.range.next + m) ∧ Parses stdLexer syn text' [] Indent.default (.ok toks') := by
  obtain ⟨toks, h⟩ := (parses_err_run (L := stdLexer) (syn := ⟨[.text true none 1], [c!"doc"]⟩)
    (text := '"' :: List.replicate m 'a') (toks := []) (ind := Indent.default)).2
    ⟨_, .fails rfl (.text_none (str_open m)), [], [], rfl, by simp, by simp⟩
  refine ⟨_, _, '"' :: List.replicate m 'a' ++ ['"'], _, toks, [], ?_, h, ?_,
    parses_ok_run.2 ⟨_, _, [], _, _, rfl, .text_ok (str_closed m).1 (fun _ => rfl) (str_closed m).2, by simp, rfl⟩⟩
  · simp
  · exact List.take_append_of_le_length (by simp [Range.next])

/-- C86: nor with lines: what is missing is that the rest of the line is blank. -/
theorem C86_lines_refuted (m : Nat) : ∃ syn text text' e toks toks',
    (∀ r ∈ syn.rules, ∃ prop id id', r = .lines (.tag c!"a" false false prop id) false id') ∧
    Parses stdLexer syn text [] Indent.default (.err e toks) ∧
    text'.take (e.range.next + m) = text.take (e.range.next + m) ∧ Parses stdLexer syn text' [] Indent.default (.ok toks') := by
  have h1 : Std.lineNext false c!"a" (List.replicate m ' ' ++ c!"b") = .fail 0 := by
    have : (List.replicate m ' ' ++ c!"b").takeWhile isWs = List.replicate m ' ' := by
      rw [List.takeWhile_append_of_pos (fun c hc => by rw [List.eq_of_mem_replicate hc]; decide)]
      simp
      decide
    have h0 : Std.afterLastNl (List.replicate m ' ') = 0 := by
      clear this
      induction m with
      | zero => rfl
      | succ m ih => rw [List.replicate_succ, Std.afterLastNl, ih]; rfl
    simp only [Std.lineNext, this, h0]
    simp
    decide
  have h2 : Std.lineNext false c!"a" (List.replicate m ' ') = .done m := by
    have : (List.replicate m ' ').takeWhile isWs = List.replicate m ' ' := by
      rw [List.takeWhile_replicate]; rfl
    simp [Std.lineNext, this]
  have h3 : ∀ rest, Std.lineNext true [] ('a' :: rest) = .call 0 := by
    intro rest
    rw [Std.lineNext, List.takeWhile_cons_of_neg (by decide)]
    simp [Std.afterLastNl]
  obtain ⟨toks, h⟩ := (parses_err_run (L := stdLexer) (syn := ⟨[.lines (.tag c!"a" false false none 1) false 2], [c!"doc"]⟩)
    (text := 'a' :: (List.replicate m ' ' ++ c!"b")) (toks := []) (ind := Indent.default)).2
    ⟨_, .fails rfl (.lines (.lines_more (n := 1) (ts := []) (o := none) (h3 (List.replicate m ' ' ++ c!"b")) (.line_plain (.tag_ok (by simp [adv])))
      (.lines_fail h1))), [], [], rfl, by simp, by simp⟩
  have h' : Parses stdLexer ⟨[.lines (.tag c!"a" false false none 1) false 2], [c!"doc"]⟩ ('a' :: List.replicate m ' ') []
      Indent.default (.ok []) :=
    parses_ok_run.2 ⟨_, _, [], _, _, rfl, .lines (.lines_more (n := 1) (ts := []) (o := some (m, [])) (h3 (List.replicate m ' '))
      (.line_plain (.tag_ok (by simp [adv]))) (.lines_done h2)), by simp; omega, rfl⟩
  refine ⟨_, _, 'a' :: List.replicate m ' ', _, toks, [], ?_, h, ?_, h'⟩
  · simp
  · exact (List.take_append_of_le_length (l₁ := 'a' :: List.replicate m ' ') (by simp [Range.next, adv]; omega)).symm

/-- `doc = [!!["a" ...";" ";"] ...";" ";"]`. -/
def exAhead : Syntax := ⟨[.sequence [.not (.not (.sequence [.untilAny c!";" false none 1, .tag c!";" false false none 2] 3) 4) 5,
  .untilAny c!";" false none 6, .tag c!";" false false none 7] 8], [c!"doc"]⟩

/-- C86: nor with `not`: where the rule inside fails is not told. -/
theorem C86_not_refuted (m : Nat) : ∃ text text' e toks toks', Parses stdLexer exAhead text [] Indent.default (.err e toks) ∧
    text'.take (e.range.next + m) = text.take (e.range.next + m) ∧
    Parses stdLexer exAhead text' [] Indent.default (.ok toks') := by
  have e1 : Longest (fun c => c ∉ c!";") (List.replicate (m + 1) 'a') (m + 1) := by
    refine ⟨by simp, ?_, by simp⟩
    intro c hc
    have := List.eq_of_mem_replicate (List.mem_of_mem_take hc)
    simp [this]
  have e2 : Longest (fun c => c ∉ c!";") (List.replicate (m + 1) 'a' ++ c!";") (m + 1) := by
    refine ⟨by simp, ?_, by simp⟩
    intro c hc
    rw [List.take_left' (by simp)] at hc
    have := List.eq_of_mem_replicate hc
    simp [this]
  have hu : ∀ id : DebugId, Run (envOf stdLexer exAhead.rules Indent.default) (.seq [.untilAny c!";" false none id,
      .tag c!";" false false none (id + 1)]) ⟨List.replicate (m + 1) 'a' ++ c!";", 0⟩ 0 (some (m + 2, [])) 0 [] := fun id =>
    .seq_cons (o := some (1, [])) (.until_ok e2 (by simp))
      (.seq_cons (o := some (0, [])) (.tag_ok (by simp [adv])) .seq_nil)
  obtain ⟨toks, h⟩ := (parses_err_run (L := stdLexer) (syn := exAhead) (text := List.replicate (m + 1) 'a') (toks := [])
    (ind := Indent.default)).2 ⟨_, .fails rfl (.sequence (.seq_fail (.not_fail (.not_ok (.sequence
      (.seq_cons (o := none) (.until_ok e1 (by simp)) (.seq_fail (.tag_fail (by simp [adv]))))))))), [], [], rfl, by simp, by simp⟩
  have h' : Parses stdLexer exAhead (List.replicate (m + 1) 'a' ++ c!";") [] Indent.default (.ok []) :=
    parses_ok_run.2 ⟨_, _, [], _, _, rfl, .sequence (.seq_cons (n := 0) (ts := []) (o := some (m + 2, []))
      (.not_ok (.not_fail (.sequence (hu 1)))) (hu 6)), by simp, rfl⟩
  exact ⟨_, _, _, toks, [], h, List.take_append_of_le_length (by simp [Range.next]), h'⟩

end Verif.Props
