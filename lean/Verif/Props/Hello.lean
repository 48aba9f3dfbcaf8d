import Verif.Props.Examples
/-
The programs examples/hello_world.rs and examples/neg_match.rs: C67.
-/
namespace Verif.Props
open Verif Verif.Spec

/-! ### The programs in terms of the calls they make -/

theorem errstr_at {L : Lexer} {E : ErrText} {rules : Str} {r : Except Str Syntax} (h : ErrstrReturns L E rules r) :
    ∃ n, ∀ m, n ≤ m → readSyntaxErrstr L E m rules = .ok r := by
  rcases C52_errstr.1 h with ⟨syn, h1, rfl⟩ | ⟨e, msg, h1, hm, rfl⟩
  · obtain ⟨n, hn⟩ := readSyntax_at h1
    exact ⟨n, fun m hm => Comp.bind_ok.2 ⟨_, hn m hm, rfl⟩⟩
  · obtain ⟨n, hn⟩ := readSyntax_at h1
    exact ⟨n, fun m hm' => Comp.bind_ok.2 ⟨_, hn m hm', Comp.bind_ok.2 ⟨msg, hm, rfl⟩⟩⟩

theorem parseErrstr_at {L : Lexer} {E : ErrText} {syn : Syntax} {text : Str} {r : Except Str Unit} {toks : List Tok}
    (h : ParseErrstr L E syn text [] Indent.default r toks) :
    ∃ n, ∀ m, n ≤ m → parseErrstr L E m syn text [] = .ok (r, toks) := by
  rcases C65_errstr.1 h with ⟨⟨h0, n, h1⟩, rfl⟩ | ⟨e, msg, ⟨h0, n, h1⟩, hm, rfl⟩
  · refine ⟨n, fun m hm => ?_⟩
    unfold parseErrstr parseErrstrWithIndent
    rw [parse_mono hm (by rw [h1]; exact h0), h1]
    rfl
  · refine ⟨n, fun m hm' => ?_⟩
    unfold parseErrstr parseErrstrWithIndent
    rw [parse_mono hm' (by rw [h1]; exact h0), h1]
    exact Comp.bind_ok.2 ⟨msg, hm, rfl⟩

/-- C67: examples/hello_world.rs and examples/indent.rs, with any rules and text: they write the report about
the rules, or the report about the text, or the JSON of the data. -/
theorem C67_example_iff {L : Lexer} {E : ErrText} {fmt : F64 → Str} {rules text out : Str} :
    ExampleWrites L E fmt rules text out ↔
      (∃ msg, ErrstrReturns L E rules (.error msg) ∧ out = msg ++ ['\n']) ∨
      ∃ syn, ErrstrReturns L E rules (.ok syn) ∧
        ((∃ msg toks, ParseErrstr L E syn text [] Indent.default (.error msg) toks ∧ out = msg ++ ['\n']) ∨
         ∃ data, ParseErrstr L E syn text [] Indent.default (.ok ()) data ∧ writeJson fmt data = .ok out) := by
  constructor
  · rintro ⟨n, h⟩
    obtain ⟨x, h1, h2⟩ := Comp.bind_ok.1 h
    cases x with
    | error msg => exact .inl ⟨msg, ⟨n, h1⟩, (Comp.pure_ok.1 h2).symm⟩
    | ok syn =>
      obtain ⟨⟨r, data⟩, h3, h4⟩ := Comp.bind_ok.1 h2
      cases r with
      | error msg => exact .inr ⟨syn, ⟨n, h1⟩, .inl ⟨msg, data, ⟨n, h3⟩, (Comp.pure_ok.1 h4).symm⟩⟩
      | ok u => exact .inr ⟨syn, ⟨n, h1⟩, .inr ⟨data, ⟨n, h3⟩, h4⟩⟩
  · rintro (⟨msg, h, rfl⟩ | ⟨syn, h, ⟨msg, toks, h', rfl⟩ | ⟨data, h', hj⟩⟩)
    · obtain ⟨n, hn⟩ := errstr_at h
      exact ⟨n, Comp.bind_ok.2 ⟨_, hn n (Nat.le_refl _), rfl⟩⟩
    · obtain ⟨n, hn⟩ := errstr_at h
      obtain ⟨m, hm⟩ := parseErrstr_at h'
      exact ⟨max n m, Comp.bind_ok.2 ⟨_, hn _ (by omega), Comp.bind_ok.2 ⟨_, hm _ (by omega), rfl⟩⟩⟩
    · obtain ⟨n, hn⟩ := errstr_at h
      obtain ⟨m, hm⟩ := parseErrstr_at h'
      exact ⟨max n m, Comp.bind_ok.2 ⟨_, hn _ (by omega), Comp.bind_ok.2 ⟨_, hm _ (by omega), hj⟩⟩⟩

/-- C67: examples/neg_match.rs, with any rules and text: the JSON of the data is written after the report about
the text, too. -/
theorem C67_neg_iff {L : Lexer} {E : ErrText} {fmt : F64 → Str} {rules text out : Str} :
    NegWrites L E fmt rules text out ↔
      (∃ msg, ErrstrReturns L E rules (.error msg) ∧ out = msg ++ ['\n']) ∨
      ∃ syn, ErrstrReturns L E rules (.ok syn) ∧
        ((∃ msg data json, ParseErrstr L E syn text [] Indent.default (.error msg) data ∧
            writeJson fmt data = .ok json ∧ out = msg ++ ['\n'] ++ json) ∨
         ∃ data, ParseErrstr L E syn text [] Indent.default (.ok ()) data ∧ writeJson fmt data = .ok out) := by
  constructor
  · rintro ⟨n, h⟩
    obtain ⟨x, h1, h2⟩ := Comp.bind_ok.1 h
    cases x with
    | error msg => exact .inl ⟨msg, ⟨n, h1⟩, (Comp.pure_ok.1 h2).symm⟩
    | ok syn =>
      obtain ⟨⟨r, data⟩, h3, h4⟩ := Comp.bind_ok.1 h2
      obtain ⟨json, h5, h6⟩ := Comp.bind_ok.1 h4
      cases r with
      | error msg => exact .inr ⟨syn, ⟨n, h1⟩, .inl ⟨msg, data, json, ⟨n, h3⟩, h5, (Comp.pure_ok.1 h6).symm⟩⟩
      | ok u =>
        cases Comp.pure_ok.1 h6
        exact .inr ⟨syn, ⟨n, h1⟩, .inr ⟨data, ⟨n, h3⟩, h5⟩⟩
  · rintro (⟨msg, h, rfl⟩ | ⟨syn, h, ⟨msg, data, json, h', hj, rfl⟩ | ⟨data, h', hj⟩⟩)
    · obtain ⟨n, hn⟩ := errstr_at h
      exact ⟨n, Comp.bind_ok.2 ⟨_, hn n (Nat.le_refl _), rfl⟩⟩
    · obtain ⟨n, hn⟩ := errstr_at h
      obtain ⟨m, hm⟩ := parseErrstr_at h'
      exact ⟨max n m, Comp.bind_ok.2 ⟨_, hn _ (by omega), Comp.bind_ok.2 ⟨_, hm _ (by omega),
        Comp.bind_ok.2 ⟨_, hj, rfl⟩⟩⟩⟩
    · obtain ⟨n, hn⟩ := errstr_at h
      obtain ⟨m, hm⟩ := parseErrstr_at h'
      exact ⟨max n m, Comp.bind_ok.2 ⟨_, hn _ (by omega), Comp.bind_ok.2 ⟨_, hm _ (by omega),
        Comp.bind_ok.2 ⟨_, hj, rfl⟩⟩⟩⟩

/-- `syntax` on a text for which a document is known. -/
theorem syntax_of_doc {L : Lexer} (hL : L.Lawful) (hs : NoSlash L) (hN : ReadsNumbers L) {ss : List (Str × Str)}
    {ns : List (Str × F64 × Str × Desc)} {rules : Str} (he : eatDoc true ss ns rules = true)
    (hsmall : ¬ Doc.Overflows ⟨ss, ns.map (·.2)⟩) {rd : List (Str × Rule)}
    (hread : (Doc.read ss (ns.map (·.2))).1 = some rd) {k : Nat} {syn : Syntax}
    (hopt : (syntaxOf rd).optimize k = .ok syn) (r : Except RErr Syntax) :
    SyntaxReturns L rules r ↔ r = .ok syn := by
  rw [C49_meaning hL hs (eatDoc_text hL hN he) hsmall, hread]
  constructor
  · rintro ⟨syn', ho', rfl⟩
    rw [C31_deterministic ⟨k, hopt⟩ ho']
  · rintro rfl
    exact ⟨syn, ⟨k, hopt⟩, rfl⟩

/-- What the programs write, once the outcome of `syntax` is known. -/
theorem example_of_syntax {L : Lexer} {E : ErrText} {fmt : F64 → Str} {rules text out : Str} {syn : Syntax}
    (h : ∀ r, SyntaxReturns L rules r ↔ r = .ok syn) :
    (ExampleWrites L E fmt rules text out ↔
      (∃ e toks msg, Parses L syn text [] Indent.default (.err e toks) ∧ reportErr E text e = .ok msg ∧
        out = msg ++ ['\n']) ∨
      ∃ data, Parses L syn text [] Indent.default (.ok data) ∧ writeJson fmt data = .ok out) ∧
    (NegWrites L E fmt rules text out ↔
      (∃ e data msg json, Parses L syn text [] Indent.default (.err e data) ∧ reportErr E text e = .ok msg ∧
        writeJson fmt data = .ok json ∧ out = msg ++ ['\n'] ++ json) ∨
      ∃ data, Parses L syn text [] Indent.default (.ok data) ∧ writeJson fmt data = .ok out) := by
  have he : ∀ msg, ¬ ErrstrReturns L E rules (.error msg) := by
    intro msg hm
    rcases C52_errstr.1 hm with ⟨_, _, hm⟩ | ⟨_, _, hm, _⟩
    · cases hm
    · cases (h _).1 hm
  have hk : ∀ s, ErrstrReturns L E rules (.ok s) ↔ s = syn := by
    intro s
    constructor
    · intro hm
      rcases C52_errstr.1 hm with ⟨s', hm, hm'⟩ | ⟨_, _, hm, _⟩
      · cases hm'
        cases (h _).1 hm
        rfl
      · cases (h _).1 hm
    · rintro rfl
      exact C52_errstr.2 (.inl ⟨_, (h _).2 rfl, rfl⟩)
  have hp : ∀ data, ParseErrstr L E syn text [] Indent.default (.ok ()) data ↔
      Parses L syn text [] Indent.default (.ok data) := by
    intro data
    rw [C65_errstr]
    constructor
    · rintro (⟨h, -⟩ | ⟨_, _, _, _, h⟩)
      · exact h
      · cases h
    · intro h; exact .inl ⟨h, rfl⟩
  have hq : ∀ msg data, ParseErrstr L E syn text [] Indent.default (.error msg) data ↔
      ∃ e, Parses L syn text [] Indent.default (.err e data) ∧ reportErr E text e = .ok msg := by
    intro msg data
    rw [C65_errstr]
    constructor
    · rintro (⟨_, h⟩ | ⟨e, _, h, h', h''⟩)
      · cases h
      · cases h''; exact ⟨e, h, h'⟩
    · rintro ⟨e, h, h'⟩; exact .inr ⟨e, msg, h, h', rfl⟩
  rw [C67_example_iff, C67_neg_iff]
  simp only [he, hk, hp, hq, false_and, exists_false, false_or, exists_eq_left]
  constructor
  · constructor
    · rintro (⟨msg, toks, ⟨e, h1, h2⟩, h3⟩ | h)
      · exact .inl ⟨e, toks, msg, h1, h2, h3⟩
      · exact .inr h
    · rintro (⟨e, toks, msg, h1, h2, h3⟩ | h)
      · exact .inl ⟨msg, toks, ⟨e, h1, h2⟩, h3⟩
      · exact .inr h
  · constructor
    · rintro (⟨msg, data, json, ⟨e, h1, h2⟩, h3, h4⟩ | h)
      · exact .inl ⟨e, data, msg, json, h1, h2, h3, h4⟩
      · exact .inr h
    · rintro (⟨e, data, msg, json, h1, h2, h3, h4⟩ | h)
      · exact .inl ⟨msg, data, json, ⟨e, h1, h2⟩, h3, h4⟩
      · exact .inr h

/-! ### neg_match -/

/-- The rules of examples/neg_match.rs, as `syntax` returns them. -/
def negSyntax : Syntax := ⟨[.sequence [.tag c!"hi" true false (some c!"hi_did_not_occured") 1001,
  .untilAny [] true none 1002] 1003], [c!"document"]⟩

theorem neg_syntax {L : Lexer} (hL : L.Lawful) (hs : NoSlash L) (hN : ReadsNumbers L) (r : Except RErr Syntax) :
    SyntaxReturns L negRules r ↔ r = .ok negSyntax :=
  syntax_of_doc hL hs hN (ss := []) (ns := negNodes) (by decide +kernel) (by decide +kernel) rfl (k := 20) rfl r

theorem neg_accepts {L : Lexer} {text : Str} (h : ¬ c!"hi" <+: text) :
    Parses L negSyntax text [] Indent.default (.ok [⟨⟨0, 0⟩, .bool c!"hi_did_not_occured" true⟩]) := by
  refine parses_ok_run.2 ⟨_, 0 + (text.length + 0), _, 0, _, rfl, .sequence
    (.seq_cons (j := 0) (o := some (text.length + 0, [] ++ [])) (.notTag_ok h) (.seq_cons (j := 0) (ts := [])
      (o := some (0, [])) (.until_ok ?_ (fun _ => rfl)) .seq_nil)), by simp, rfl⟩
  simp [adv, Longest]

theorem neg_rejects {L : Lexer} {text : Str} (h : c!"hi" <+: text) :
    Parses L negSyntax text [] Indent.default (.err ⟨⟨0, 2⟩, .didNotExpectTag c!"hi" 1001⟩ []) := by
  obtain ⟨rest, rfl⟩ := h
  refine ⟨by simp, 5, ?_⟩
  rfl

/-- C67: what examples/neg_match.rs writes, for any text. -/
theorem C67_neg_match {L : Lexer} (hL : L.Lawful) (hs : NoSlash L) (hN : ReadsNumbers L) (E : ErrText) (fmt : F64 → Str)
    (text out : Str) : NegWrites L E fmt negRules text out ↔
      (¬ c!"hi" <+: text ∧ out = c!"\"hi_did_not_occured\":true\n") ∨
      (c!"hi" <+: text ∧ ∃ msg, reportErr E text ⟨⟨0, 2⟩, .didNotExpectTag c!"hi" 1001⟩ = .ok msg ∧
        out = msg ++ c!"\n\n") := by
  rw [(example_of_syntax (neg_syntax hL hs hN)).2]
  by_cases h : c!"hi" <+: text
  · have hr := neg_rejects (L := L) h
    constructor
    · rintro (⟨e, data, msg, json, h1, h2, h3, rfl⟩ | ⟨data, h1, -⟩)
      · cases parses_det h1 hr
        cases h3
        exact .inr ⟨h, msg, h2, by simp⟩
      · cases parses_det h1 hr
    · rintro (⟨h', -⟩ | ⟨-, msg, h1, rfl⟩)
      · exact absurd h h'
      · exact .inl ⟨_, _, msg, ['\n'], hr, h1, rfl, by simp⟩
  · have hr := neg_accepts (L := L) h
    constructor
    · rintro (⟨e, data, msg, json, h1, h2, h3, rfl⟩ | ⟨data, h1, h2⟩)
      · cases parses_det h1 hr
      · cases parses_det h1 hr
        cases h2
        exact .inl ⟨h, rfl⟩
    · rintro (⟨-, rfl⟩ | ⟨h', -⟩)
      · exact .inr ⟨_, hr, rfl⟩
      · exact absurd h' h

/-! ### hello_world -/

/-- `J` leads to the first alternative and `P` to the second. -/
def helloTable : Table := fun b => if b = 80 then 1 else if b = 74 then 0 else 255

/-- The alternatives. -/
def helloNames : Rule := .fastSelect helloTable [.tag c!"James" false false (some c!"james") 1003,
  .tag c!"Peter" false false (some c!"peter") 1004] false 1005

/-- The rules of examples/hello_world.rs, as `syntax` returns them. -/
def helloSyntax : Syntax := ⟨[.sequence [.tag c!"hi" false false none 1001, .whitespace true 1002,
    helloNames, .tag c!"!" false false none 1006] 1007,
  .node c!"say_hi" none (some 0) 2001], [c!"say_hi", c!"document"]⟩

theorem hello_syntax {L : Lexer} (hL : L.Lawful) (hs : NoSlash L) (hN : ReadsNumbers L) (r : Except RErr Syntax) :
    SyntaxReturns L helloRules r ↔ r = .ok helloSyntax :=
  syntax_of_doc hL hs hN (ss := []) (ns := helloNodes) (by decide +kernel) (by decide +kernel) rfl (k := 20) rfl r

/-- A byte below 128 is the first byte of one character only. -/
theorem firstByte_ascii {c : Char} {k : Nat} (hk : k < 128) (h : firstByte c = UInt8.ofNat k) : c = Char.ofNat k := by
  have hv : c.val.toNat = k := by
    have h1 := congrArg UInt8.toNat h
    simp only [firstByte, String.utf8EncodeChar] at h1
    have hc : c.toNat = c.val.toNat := rfl
    split at h1
    · simp at h1; omega
    · split at h1
      · simp at h1; omega
      · split at h1
        · simp at h1; omega
        · simp at h1; omega
  subst hv
  exact (Char.ofNat_toNat c).symm

section
variable {L : Lexer}

theorem hello_fails {text : Str} {j : Nat} {e : RErr}
    (h : Run (envOf L helloSyntax.rules Indent.default) (.rule (.node c!"say_hi" none (some 0) 2001)) ⟨text, 0⟩ 0 none j [e]) :
    ∃ toks, Parses L helloSyntax text [] Indent.default (.err e toks) :=
  parses_err_run.2 ⟨[e], .fails rfl h, [], [], rfl, by simp, by simp⟩

/-- After `hi` and space. -/
theorem hello_names {w rest : Str} (hw : ∀ c ∈ w, isWs c = true) (hr : ∀ c, rest.head? = some c → isWs c = false)
    {o : Outcome} {tr : List RErr} (h : Run (envOf L helloSyntax.rules Indent.default)
      (.seq [helloNames, .tag c!"!" false false none 1006]) ⟨rest, 2 + w.length⟩ 0 o 0 tr) :
    Run (envOf L helloSyntax.rules Indent.default) (.rule (.node c!"say_hi" none (some 0) 2001))
      ⟨c!"hi" ++ (w ++ rest), 0⟩ 0 (before (2 + w.length) [] o) 0 tr := by
  have key : Run (envOf L helloSyntax.rules Indent.default) (.rule (helloSyntax.rules[0]!))
      ⟨c!"hi" ++ (w ++ rest), 0⟩ 0 (before 2 [] (before w.length [] o)) 0 tr := by
    refine .sequence (.seq_cons (n := 2) (ts := []) (j := 0) (tr := []) (tr' := tr) (.tag_ok (List.prefix_append _ _))
      (.seq_cons (n := w.length) (ts := []) (j := 0) (tr := []) (tr' := tr) (.ws_ok ?_ (fun _ => rfl)) ?_))
    · simp only [adv, List.drop_succ_cons, List.cons_append, List.nil_append, List.drop_zero]
      refine ⟨by simp, by simpa using hw, fun c hc => ?_⟩
      simp at hc
      simp [hr c hc]
    · have : adv (adv ⟨c!"hi" ++ (w ++ rest), 0⟩ 2) w.length = ⟨rest, 2 + w.length⟩ := by simp [adv]
      rw [this]
      exact h
  cases o with
  | none => exact .node_fail rfl key
  | some x =>
    obtain ⟨n, ts⟩ := x
    have := Run.node_ok (E := envOf L helloSyntax.rules Indent.default) (name := c!"say_hi") (prop := none) (ix := 0)
      (id := 2001) rfl key
    simpa [before, wrapped, Nat.add_assoc] using this

theorem hello_name {w rest name prop : Str} (hn : (name, prop) ∈ greeted) {o : Outcome} {tr : List RErr}
    (h : Run (envOf L helloSyntax.rules Indent.default)
      (.seq [.tag c!"!" false false none 1006]) ⟨rest, 7 + w.length⟩ 0 o 0 tr) :
    Run (envOf L helloSyntax.rules Indent.default)
      (.seq [helloNames, .tag c!"!" false false none 1006]) ⟨name ++ rest, 2 + w.length⟩ 0
      (before 5 [⟨⟨2 + w.length, 5⟩, .bool prop true⟩] o) 0 tr := by
  refine .seq_cons (n := 5) (ts := [⟨⟨2 + w.length, 5⟩, .bool prop true⟩]) (j := 0) (tr := []) (tr' := tr) ?_ ?_
  · simp [greeted] at hn
    rcases hn with ⟨rfl, rfl⟩ | ⟨rfl, rfl⟩
    · exact .fast_hit (b := 74) rfl rfl (by decide) rfl (.tag_ok (t := c!"James") (List.prefix_append _ _))
    · exact .fast_hit (b := 80) rfl rfl (by decide) rfl (.tag_ok (t := c!"Peter") (List.prefix_append _ _))
  · have : adv ⟨name ++ rest, 2 + w.length⟩ 5 = ⟨rest, 7 + w.length⟩ := by
      simp [greeted] at hn
      rcases hn with ⟨rfl, rfl⟩ | ⟨rfl, rfl⟩ <;> simp [adv] <;> omega
    rw [this]
    exact h

theorem greeted_head {name prop rest : Str} (hn : (name, prop) ∈ greeted) :
    ∀ c, (name ++ rest).head? = some c → isWs c = false := by
  intro c hc
  simp [greeted] at hn
  rcases hn with ⟨rfl, rfl⟩ | ⟨rfl, rfl⟩ <;> simp at hc <;> subst hc <;> decide

theorem hello_sound {text : Str} {x : Except RErr (List Tok)} (h : HelloSays text x) :
    (∀ toks, x = .ok toks → Parses L helloSyntax text [] Indent.default (.ok toks)) ∧
    (∀ e, x = .error e → ∃ toks, Parses L helloSyntax text [] Indent.default (.err e toks)) := by
  cases h with
  | noHi h =>
    refine ⟨by simp, fun e he => ?_⟩
    cases he
    exact hello_fails (.node_fail rfl (.sequence (.seq_fail (.tag_fail h))))
  | @noName w rest hw h =>
    refine ⟨by simp, fun e he => ?_⟩
    cases he
    refine hello_fails (hello_names hw (fun c hc => (h c hc).1) (.seq_fail ?_))
    cases rest with
    | nil => exact .fast_end rfl
    | cons c cs =>
      obtain ⟨-, h1, h2⟩ := h c rfl
      obtain ⟨b, bs, hb⟩ := utf8_ne_nil c
      refine .fast_miss rfl hb ?_
      have hf := firstByte_eq hb
      simp only [helloTable]
      split
      · rename_i e
        exact absurd (firstByte_ascii (k := 80) (by omega) (hf.trans e)) h2
      · split
        · rename_i e
          exact absurd (firstByte_ascii (k := 74) (by omega) (hf.trans e)) h1
        · rfl
  | @noJames w rest hw h =>
    refine ⟨by simp, fun e he => ?_⟩
    cases he
    refine hello_fails (hello_names hw (fun c hc => ?_) (.seq_fail ?_))
    · simp at hc; subst hc; decide
    · exact .fast_hit (b := 74) rfl rfl (by decide) rfl (.tag_fail (t := c!"James") (by simpa using h))
  | @noPeter w rest hw h =>
    refine ⟨by simp, fun e he => ?_⟩
    cases he
    refine hello_fails (hello_names hw (fun c hc => ?_) (.seq_fail ?_))
    · simp at hc; subst hc; decide
    · exact .fast_hit (b := 80) rfl rfl (by decide) rfl (.tag_fail (t := c!"Peter") (by simpa using h))
  | @noMark w rest name prop hw hn h =>
    refine ⟨by simp, fun e he => ?_⟩
    cases he
    exact hello_fails (hello_names hw (greeted_head hn) (hello_name hn (.seq_fail (.tag_fail h))))
  | @more w rest name prop hw hn h =>
    refine ⟨by simp, fun e he => ?_⟩
    cases he
    have hr := hello_names (L := L) hw (greeted_head hn) (hello_name (rest := '!' :: rest) hn (.seq_cons (tr := [])
      (tr' := []) (.tag_ok (t := c!"!") (List.prefix_append _ _)) .seq_nil))
    refine parses_err_run.2 ⟨_, .short rfl hr ?_, [], [], ?_, by simp, by simp⟩
    · have := List.length_pos_iff.2 h
      simp [greeted] at hn
      rcases hn with ⟨rfl, rfl⟩ | ⟨rfl, rfl⟩ <;> simp <;> omega
    · simp; omega
  | @greets w name prop hw hn =>
    refine ⟨fun toks he => ?_, by simp⟩
    cases he
    have hr := hello_names (L := L) hw (greeted_head hn) (hello_name (rest := ['!']) hn (.seq_cons (tr := [])
      (tr' := []) (.tag_ok (t := c!"!") (List.prefix_append _ _)) .seq_nil))
    refine parses_ok_run.2 ⟨_, _, _, _, _, rfl, hr, ?_, by simp [named]⟩
    simp [greeted] at hn
    rcases hn with ⟨rfl, rfl⟩ | ⟨rfl, rfl⟩ <;> simp <;> omega

end

/-- Every text is covered. -/
theorem hello_total (text : Str) : ∃ x, HelloSays text x := by
  by_cases h : c!"hi" <+: text
  · obtain ⟨t, rfl⟩ := h
    obtain ⟨w, rest, rfl, hw, hr⟩ : ∃ w rest, t = w ++ rest ∧ (∀ c ∈ w, isWs c = true) ∧
        ∀ c, rest.head? = some c → isWs c = false := by
      refine ⟨t.takeWhile isWs, t.dropWhile isWs, (List.takeWhile_append_dropWhile).symm, ?_, ?_⟩
      · intro c hc
        exact List.all_eq_true.1 (List.all_takeWhile (p := isWs) (l := t)) c hc
      · intro c hc
        have := List.head?_dropWhile_not isWs t
        rw [hc] at this
        simpa using this
    have hname : ∀ name prop, (name, prop) ∈ greeted → name <+: rest →
        ∃ x, HelloSays (c!"hi" ++ (w ++ rest)) x := by
      rintro name prop hn ⟨s, rfl⟩
      by_cases hm : c!"!" <+: s
      · obtain ⟨s, rfl⟩ := hm
        cases s with
        | nil => exact ⟨_, .greets hw hn⟩
        | cons c s => exact ⟨_, .more hw hn (by simp)⟩
      · exact ⟨_, .noMark hw hn hm⟩
    cases rest with
    | nil => exact ⟨_, .noName hw (by simp)⟩
    | cons c s =>
      by_cases hJ : c = 'J'
      · subst hJ
        by_cases hs : c!"ames" <+: s
        · exact hname c!"James" c!"james" (by simp [greeted]) (by simpa using hs)
        · exact ⟨_, .noJames hw hs⟩
      · by_cases hP : c = 'P'
        · subst hP
          by_cases hs : c!"eter" <+: s
          · exact hname c!"Peter" c!"peter" (by simp [greeted]) (by simpa using hs)
          · exact ⟨_, .noPeter hw hs⟩
        · refine ⟨_, .noName hw fun d hd => ?_⟩
          simp at hd
          subst hd
          exact ⟨hr c rfl, hJ, hP⟩
  · exact ⟨_, .noHi h⟩

/-- C67: what the rules of examples/hello_world.rs make of any text. -/
theorem C67_hello_rules {L : Lexer} (hL : L.Lawful) (hs : NoSlash L) (hN : ReadsNumbers L) : ∃ syn : Syntax,
    (∀ r, SyntaxReturns L helloRules r ↔ r = .ok syn) ∧
    (∀ text toks, Parses L syn text [] Indent.default (.ok toks) ↔ HelloSays text (.ok toks)) ∧
    ∀ text e, (∃ toks, Parses L syn text [] Indent.default (.err e toks)) ↔ HelloSays text (.error e) := by
  refine ⟨helloSyntax, hello_syntax hL hs hN, fun text toks => ⟨fun h => ?_, fun h => (hello_sound h).1 _ rfl⟩,
    fun text e => ⟨fun ⟨toks, h⟩ => ?_, fun h => (hello_sound h).2 _ rfl⟩⟩
  · obtain ⟨x, hx⟩ := hello_total text
    cases x with
    | ok toks' =>
      cases parses_det h ((hello_sound hx).1 _ rfl)
      exact hx
    | error e =>
      obtain ⟨t, ht⟩ := (hello_sound (L := L) hx).2 _ rfl
      cases parses_det h ht
  · obtain ⟨x, hx⟩ := hello_total text
    cases x with
    | ok toks' => cases parses_det h ((hello_sound hx).1 _ rfl)
    | error e' =>
      obtain ⟨t, ht⟩ := (hello_sound (L := L) hx).2 _ rfl
      cases parses_det h ht
      exact hx

/-- C67: what examples/hello_world.rs writes, for any text. -/
theorem C67_hello_world {L : Lexer} (hL : L.Lawful) (hs : NoSlash L) (hN : ReadsNumbers L) (E : ErrText)
    (fmt : F64 → Str) (text out : Str) : ExampleWrites L E fmt helloRules text out ↔
      (∃ w name prop, (∀ c ∈ w, isWs c = true) ∧ (name, prop) ∈ greeted ∧ text = c!"hi" ++ (w ++ (name ++ c!"!")) ∧
        out = c!"\"" ++ prop ++ c!"\":true\n") ∨
      ∃ e msg, HelloSays text (.error e) ∧ reportErr E text e = .ok msg ∧ out = msg ++ c!"\n" := by
  obtain ⟨syn, h1, h2, h3⟩ := C67_hello_rules hL hs hN
  rw [(example_of_syntax h1).1]
  have hj : ∀ name prop off, (name, prop) ∈ greeted →
      writeJson fmt [⟨⟨off, 5⟩, .bool prop true⟩] = .ok (c!"\"" ++ prop ++ c!"\":true\n") := by
    intro name prop off hn
    simp [greeted] at hn
    rcases hn with ⟨rfl, rfl⟩ | ⟨rfl, rfl⟩ <;> rfl
  constructor
  · rintro (⟨e, toks, msg, h, hm, rfl⟩ | ⟨data, h, hm⟩)
    · exact .inr ⟨e, msg, (h3 _ _).1 ⟨toks, h⟩, hm, rfl⟩
    · cases (h2 _ _).1 h with
      | @greets w name prop hw hn =>
        rw [hj _ _ _ hn] at hm
        cases hm
        exact .inl ⟨w, name, prop, hw, hn, rfl, rfl⟩
  · rintro (⟨w, name, prop, hw, hn, rfl, rfl⟩ | ⟨e, msg, h, hm, rfl⟩)
    · exact .inr ⟨_, (h2 _ _).2 (.greets hw hn), hj _ _ _ hn⟩
    · obtain ⟨toks, ht⟩ := (h3 _ _).2 h
      exact .inl ⟨e, toks, msg, ht, hm, rfl⟩

/-- C67: examples/hello_world.rs as it stands. -/
example : ExampleWrites stdLexer exErrText (fun _ => []) helloRules helloText c!"\"james\":true\n" :=
  (C67_hello_world stdLexer_lawful stdLexer_noSlash std_readsNumbers _ _ _ _).2
    (.inl ⟨[' '], c!"James", c!"james", by decide, by simp [greeted], rfl, rfl⟩)

/-- C67: a forgotten exclamation mark, with the report in the comment of assets/self-syntax.txt (lines 102-104). -/
example : ExampleWrites stdLexer exErrText (fun _ => []) helloRules c!"hi James"
    c!"Error #1006, Expected: `!`\n1,9: hi James\n1,9:         ^\n\n" :=
  (C67_hello_world stdLexer_lawful stdLexer_noSlash std_readsNumbers _ _ _ _).2
    (.inr ⟨_, c!"Error #1006, Expected: `!`\n1,9: hi James\n1,9:         ^\n", .noMark (w := [' ']) (name := c!"James")
      (prop := c!"james") (rest := []) (by decide) (by simp [greeted]) (by simp), by decide +kernel, rfl⟩)

/-- C67: examples/neg_match.rs as it stands. -/
example : NegWrites stdLexer exErrText (fun _ => []) negRules negText c!"\"hi_did_not_occured\":true\n" :=
  (C67_neg_match stdLexer_lawful stdLexer_noSlash std_readsNumbers _ _ _ _).2 (.inl ⟨by decide, rfl⟩)

end Verif.Props
