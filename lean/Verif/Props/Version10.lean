import Verif.Model.LibTests
import Verif.Proofs.DocCheck
import Verif.Props.Errstr
import Verif.Props.SelfSyntax
/-
Version 1.0 of the meta language, and tests/lib.rs: C76.
-/
namespace Verif.Props
open Verif Verif.Spec

/-! ### The files -/

def nodePieces10 : List (Entry × Str) :=
  (selfRules10.zip (selfNodes.set 20 linesNode10)).map fun p => (.node p.1.2.1 p.1.2.2.1 p.1.2.2.2, p.2)

theorem nodePieces10_text {L : Lexer} (hL : L.Lawful) (hN : ReadsNumbers L) :
    ∀ p ∈ nodePieces10, ∃ a, p.2 = a ++ ['\n'] ∧ ∀ rest, p.1.Text L a rest := by
  have h : ∀ p ∈ selfRules10.zip (selfNodes.set 20 linesNode10),
      eatNode p.1.1 p.1.2.2.1 p.1.2.2.2 p.2 = some ['\n'] := by decide +kernel
  have h' : ∀ p ∈ selfRules10, ∃ q ∈ selfRules, q.1 = p.1 ∧ q.2.1 = p.2.1 := by decide +kernel
  intro p hp
  obtain ⟨q, hq, rfl⟩ := List.mem_map.1 hp
  obtain ⟨x, hx, e1, e2⟩ := h' _ (List.of_mem_zip hq).1
  have := hN x hx
  rw [e1, e2] at this
  exact eatNode_text hL this (h q hq)

/-- A comment, the strings and the nodes. -/
theorem version10_text {L : Lexer} (hL : L.Lawful) (hN : ReadsNumbers L) {body : Str}
    (hb : ∀ c ∈ body, c ≠ '*' ∧ c ≠ '/') :
    selfDoc10.Text L (c!"/*" ++ body ++ c!"*/\n\n" ++ selfStrings.flatten ++ (selfNodes.set 20 linesNode10).flatten) := by
  have hp := entries_text (L := L) (stringPieces ++ nodePieces10) c!"\n\n" (by decide) (by decide) fun p hp => by
    rcases List.mem_append.1 hp with hp | hp
    · exact stringPieces_text hL p hp
    · exact nodePieces10_text hL hN p hp
  have e1 : stringPieces.map (·.2) = selfStrings := by decide +kernel
  have e2 : nodePieces10.map (·.2) = selfNodes.set 20 linesNode10 := by decide +kernel
  rw [List.map_append, List.map_append, e1, e2] at hp
  refine ⟨.comment :: stringPieces.map (·.1), nodePieces10.map (·.1), ?_, ?_, ?_, ?_, ?_⟩
  · simp only [stringPieces, List.map_map, List.mem_cons, List.mem_map]
    rintro e (rfl | ⟨p, -, rfl⟩) <;> rfl
  · simp only [nodePieces10, List.map_map, List.mem_map]
    rintro e ⟨p, -, rfl⟩
    rfl
  · refine ⟨[], _, _, by decide, by decide, .block (plain_body hb), hp, ?_⟩
    simp
  · rfl
  · rfl

/-- C76: both files stand for the document of version 1.0. -/
theorem C76_stands_for {L : Lexer} (hL : L.Lawful) (hN : ReadsNumbers L) :
    selfDoc10.Text L selfText10 ∧ selfDoc10.Text L newSelfText := by
  have hc : ∀ l ∈ selfComment, ∀ c ∈ l, c ≠ '*' ∧ c ≠ '/' := by decide +kernel
  refine ⟨version10_text hL hN ?_, version10_text hL hN (by decide +kernel)⟩
  intro c hc'
  obtain ⟨l, hl, hcl⟩ := List.mem_flatten.1 hc'
  exact hc l hl c hcl

/-! ### The rules -/

/-- The hard-coded rules, but for `lines`. -/
def rules10 : Syntax :=
  ⟨bootstrapRules.rules.set 20 (.sequence [.tag c!".l(" false false none 20002, .whitespace true 20003,
    .node c!"rule" (some c!"rule") (some 21) 20004, .whitespace true 20005, .tag c!")" false false none 20006] 20001),
   bootstrapRules.names⟩

theorem rules10_eq : rules10.rules = Boot.refsOf false := rfl

theorem rules10_wellFormed : wellFormed rules10.rules = true := by decide +kernel

theorem rules10_ok : SyntaxOk rules10 := C26_check_sound (by decide +kernel)

theorem rules10_noIndent : NoIndent rules10.rules := by
  have h : rules10.rules.all (fun r => r.all fun | .lines _ i _ => !i | _ => true) = true := by
    decide +kernel
  intro q hq r id ho
  have := Rule.all_occurs ho (List.all_eq_true.1 h q hq)
  simp at this

theorem rules10_tails {L : Lexer} (hL : L.Lawful) (ind : Indent) : TailsRefused (envOf L rules10.rules ind) :=
  C27_check_sound hL ind (n := 50) rules10_wellFormed rules10_ok (by decide +kernel)

theorem rules10_optimizes : ∃ bs, Optimizes rules10 bs :=
  C31_returns_well_formed (L := stdLexer) (ind := Indent.default)
    (C25_check_sound stdLexer_lawful _ rules10_wellFormed) rules10_ok

/-- The rules that the document of version 1.0 stands for. -/
def selfRead10 : List (Str × Rule) := ((Doc.read selfDoc10.strings selfDoc10.nodes).1).getD []

theorem selfRead10_eq : (Doc.read selfDoc10.strings selfDoc10.nodes).1 = some selfRead10 := by
  have h : (Doc.read selfDoc10.strings selfDoc10.nodes).1.isSome = true := by decide +kernel
  unfold selfRead10
  cases e : (Doc.read selfDoc10.strings selfDoc10.nodes).1 with
  | none => rw [e] at h; cases h
  | some x => rfl

theorem self10_small : ¬ selfDoc10.Overflows := by decide +kernel

/-- C76: the document stands for the hard-coded rules but for `lines`, up to ids. -/
theorem C76_rules : RenumberedL SameRule rules10.rules (syntaxOf selfRead10).rules ∧
    rules10.names = (syntaxOf selfRead10).names :=
  ⟨alikeL_renumbered (by decide +kernel), by decide +kernel⟩

theorem selfRead10_ok : SyntaxOk (syntaxOf selfRead10) := renumber_syntaxOk C76_rules.1 rules10_ok

/-- C76: `syntax` reads both files, and returns these rules, optimized. -/
theorem C76_returns {L : Lexer} (hL : L.Lawful) (hs : NoSlash L) (hN : ReadsNumbers L) {text : Str}
    (ht : text = selfText10 ∨ text = newSelfText) :
    ∃ syn bs, (∀ r, SyntaxReturns L text r ↔ r = .ok syn) ∧ Optimizes rules10 bs ∧
      RenumberedL SameRule bs.rules syn.rules ∧ bs.names = syn.names := by
  have hd : selfDoc10.Text L text := by
    rcases ht with rfl | rfl
    · exact (C76_stands_for hL hN).1
    · exact (C76_stands_for hL hN).2
  obtain ⟨bs, hb⟩ := rules10_optimizes
  obtain ⟨h1, h2⟩ := C76_rules
  obtain ⟨syn, ho, hr⟩ := C61_optimizes h1 hb
  have hm := fun r => C49_meaning hL hs hd self10_small r
  rw [selfRead10_eq] at hm
  refine ⟨syn, bs, fun r => ⟨fun h => ?_, ?_⟩, hb, hr, ?_⟩
  · obtain ⟨s, ho', rfl⟩ := (hm _).1 h
    rw [C31_deterministic ho ho']
  · rintro rfl
    exact (hm _).2 ⟨syn, ho, rfl⟩
  · rw [(C31_result_ok hb rules10_ok).1, (C31_result_ok ho selfRead10_ok).1, h2]

/-- What the returned rules accept is what the rules of version 1.0 accept. -/
theorem accepts10 {L : Lexer} (hL : L.Lawful) (hs : NoSlash L) (hN : ReadsNumbers L) {file : Str}
    (hf : file = selfText10 ∨ file = newSelfText) {syn : Syntax} (h : SyntaxReturns L file (.ok syn))
    (text : Str) (toks toks' : List Tok) (ind : Indent) :
    Parses L syn text toks ind (.ok toks') ↔ Parses L rules10 text toks ind (.ok toks') := by
  obtain ⟨syn', bs, h1, hb, hr, -⟩ := C76_returns hL hs hN hf
  cases (h1 _).1 h
  exact ((C27_accepts_the_same_partial hL hb (rules10_tails hL ind) text toks toks').trans
    (C61_accepts hr text toks toks')).symm

/-! ### Backward compatibility -/

/-- C76: the texts of version 1.0 are those that stand for a document without `.l+`, and their data is
that of the document. -/
theorem C76_exact {L : Lexer} (hL : L.Lawful) (hX : L.Exact) (hN : ReadsNumbers L) {file : Str}
    (hf : file = selfText10 ∨ file = newSelfText) {syn : Syntax} (h : SyntaxReturns L file (.ok syn))
    {text : Str} {doc : Doc} :
    (∃ toks, Parses L syn text [] Indent.default (.ok toks) ∧ toks.map (·.data) = doc.data) ↔
      doc.Text L text ∧ doc.plain = true := by
  constructor
  · rintro ⟨toks, h1, h2⟩
    obtain ⟨doc', h3, h4, h5⟩ := parses_text10 hL hX rules10_eq
      ((accepts10 hL (exact_noSlash hX) hN hf h ..).1 h1)
    cases doc_inj (h2.symm.trans h5)
    exact ⟨h3, h4⟩
  · rintro ⟨h1, h2⟩
    obtain ⟨toks, h3, h4⟩ := text_parses10 hL (exact_noSlash hX) rules10_eq h1 h2
    exact ⟨toks, (accepts10 hL (exact_noSlash hX) hN hf h ..).2 h3, h4⟩

/-- C76: every text of version 1.0 is still accepted, with the same data. -/
theorem C76_still_accepted {L : Lexer} (hL : L.Lawful) (hX : L.Exact) (hN : ReadsNumbers L) {file : Str}
    (hf : file = selfText10 ∨ file = newSelfText) {syn : Syntax} (h : SyntaxReturns L file (.ok syn))
    {text : Str} {toks : List Tok} (hp : Parses L syn text [] Indent.default (.ok toks)) :
    ∃ toks', Parses L bootstrapRules text [] Indent.default (.ok toks') ∧
      toks'.map (·.data) = toks.map (·.data) := by
  obtain ⟨doc, h3, -, h5⟩ := parses_text10 hL hX rules10_eq ((accepts10 hL (exact_noSlash hX) hN hf h ..).1 hp)
  obtain ⟨toks', h6, h7⟩ := text_writes hL (exact_noSlash hX) h3
  exact ⟨toks', h6, h7.trans h5.symm⟩

/-- C76: version 1.0 rejects all other texts; no text makes it run for ever. -/
theorem C76_rejects {L : Lexer} (hL : L.Lawful) (hX : L.Exact) (hN : ReadsNumbers L) {file : Str}
    (hf : file = selfText10 ∨ file = newSelfText) {syn : Syntax} (h : SyntaxReturns L file (.ok syn))
    {text : Str} :
    (∃ e toks, Parses L syn text [] Indent.default (.err e toks)) ↔
      ¬ ∃ doc : Doc, doc.Text L text ∧ doc.plain = true := by
  constructor
  · rintro ⟨e, toks, h1⟩ ⟨doc, h2⟩
    obtain ⟨toks', h3, -⟩ := (C76_exact hL hX hN hf h).2 h2
    cases parses_det h1 h3
  · intro hn
    rcases C25_returns hL (C25_check_sound hL _ rules10_wellFormed) rules10_ok text (ind := Indent.default)
      (.inr rules10_noIndent) [] with ⟨toks, h1⟩ | ⟨e, toks, h1⟩
    · obtain ⟨doc, h3, h4, -⟩ := parses_text10 hL hX rules10_eq h1
      exact absurd ⟨doc, h3, h4⟩ hn
    · obtain ⟨syn', bs, h2, hb, hr, -⟩ := C76_returns hL (exact_noSlash hX) hN hf
      cases (h2 _).1 h
      obtain ⟨e1, t2, h3⟩ := (C27_rejects_the_same_partial hL hb (rules10_tails hL _) text []).1 ⟨e, toks, h1⟩
      obtain ⟨e', -, t, h4⟩ := C61_rejects hr ⟨t2, h3⟩
      exact ⟨e', t, h4⟩

/-! ### tests/lib.rs -/

/-- `use_new_self_syntax(rules, text)` returns the data, or panics with a message. -/
def UsesNew (L : Lexer) (E : ErrText) (rules text : Str) (r : Except Str (List Tok)) : Prop :=
  ∃ n, useNewSelfSyntax L E n newSelfText rules text = .ok r

/-- `use_old_self_syntax(rules, text)` returns the data, or panics with a message. -/
def UsesOld (L : Lexer) (E : ErrText) (rules text : Str) (r : Except Str (List Tok)) : Prop :=
  ∃ n, useOldSelfSyntax L E n rules text = .ok r

/-- C76: `use_old_self_syntax` is `load_syntax_data`, with texts for files. -/
theorem C76_old_loads (L : Lexer) (E : ErrText) (n : Nat) (rules text : Str) :
    useOldSelfSyntax L E n rules text = loadSyntaxData L E n rules text := by
  unfold useOldSelfSyntax loadSyntaxData readSyntaxErrstr parseErrstr parseErrstrWithIndent parse
  cases readSyntax L n rules with
  | ok r =>
    cases r with
    | error e => simp only [Bind.bind, Comp.bind]; cases reportErr E rules e <;> rfl
    | ok syn =>
      simp only [Bind.bind, Comp.bind, pure]
      cases parseWithIndent L n syn text [] Indent.default with
      | err e t => simp only []; cases reportErr E text e <;> rfl
      | _ => rfl
  | _ => rfl

/-- C76: when `use_old_self_syntax` returns, and what. -/
theorem C76_old {L : Lexer} (hL : L.Lawful) (hX : L.Exact) {E : ErrText} {rules text : Str} {data : List Tok} :
    UsesOld L E rules text (.ok data) ↔
      ∃ (doc : Doc) (rs : List (Str × Rule)) (syn : Syntax), doc.Text L rules ∧ ¬ doc.Overflows ∧
        (Doc.read doc.strings doc.nodes).1 = some rs ∧ Optimizes (syntaxOf rs) syn ∧
        Parses L syn text [] Indent.default (.ok data) := by
  have : UsesOld L E rules text (.ok data) ↔ LoadReturns L E rules text (.ok data) := by
    simp only [UsesOld, LoadReturns, C76_old_loads]
  rw [this, C52_load]
  constructor
  · rintro (⟨_, _, _, _, h⟩ | ⟨syn, h1, ⟨toks, h2, h3⟩ | ⟨_, _, _, _, _, h⟩⟩)
    · cases h
    · cases h3
      obtain ⟨doc, rs, h4, h5, h6, h7⟩ := (C53_returns_iff hL hX syn).1 h1
      exact ⟨doc, rs, syn, h4, h5, h6, h7, h2⟩
    · cases h
  · rintro ⟨doc, rs, syn, h4, h5, h6, h7, h2⟩
    exact .inr ⟨syn, (C53_returns_iff hL hX syn).2 ⟨doc, rs, h4, h5, h6, h7⟩, .inl ⟨data, h2, rfl⟩⟩

/-- What is left to do once the rules are read: their data, and the data of a document. -/
theorem convert_doc_iff {doc : Doc} (ho : ¬ doc.Overflows) {data : List Tok} (hd : data.map (·.data) = doc.data)
    {r : Option Syntax} {ig : List Range} (h : Converts data [] r ig) :
    r = (Doc.read doc.strings doc.nodes).1.map syntaxOf := by
  obtain ⟨l, -, h'⟩ := C40_undefined_dropped ho hd []
  obtain ⟨n, h⟩ := h
  obtain ⟨m, h'⟩ := h'
  have e1 := convert_mono (Nat.le_max_left n m) (by rw [h]; simp)
  have e2 := convert_mono (Nat.le_max_right n m) (by rw [h']; simp)
  rw [e1, h, h'] at e2
  cases e2
  rfl

theorem convert_doc_small {doc : Doc} {data : List Tok} (hd : data.map (·.data) = doc.data)
    {r : Option Syntax} {ig : List Range} (h : Converts data [] r ig) : ¬ doc.Overflows := by
  intro ho
  obtain ⟨n, h⟩ := h
  obtain ⟨m, hm⟩ := C40_overflow ho hd []
  have e1 := convert_mono (Nat.le_max_left n m) (by rw [h]; simp)
  have e2 := convert_mono (Nat.le_max_right n m) (by rw [hm]; simp)
  rw [e1, h, hm] at e2
  cases e2

/-- C76: what `use_new_self_syntax` returns or reports. The rules are written without `.l+`, or an error
is reported; unlike `use_old_self_syntax` it does not optimize them. -/
theorem C76_new_iff {L : Lexer} (hL : L.Lawful) (hX : L.Exact) (hN : ReadsNumbers L) {syn : Syntax}
    (hsyn : SyntaxReturns L newSelfText (.ok syn)) {E : ErrText} {rules text : Str} {r : Except Str (List Tok)} :
    UsesNew L E rules text r ↔
      (∃ e toks msg, Parses L syn rules [] Indent.default (.err e toks) ∧ reportErr E rules e = .ok msg ∧
        r = .error msg) ∨
      ∃ doc : Doc, doc.Text L rules ∧ doc.plain = true ∧ ¬ doc.Overflows ∧
        (((Doc.read doc.strings doc.nodes).1 = none ∧
          r = .error c!"called `Result::unwrap()` on an `Err` value: ()") ∨
         ∃ rs, (Doc.read doc.strings doc.nodes).1 = some rs ∧
          ((∃ data, Parses L (syntaxOf rs) text [] Indent.default (.ok data) ∧ r = .ok data) ∨
           ∃ e toks msg, Parses L (syntaxOf rs) text [] Indent.default (.err e toks) ∧
             reportErr E text e = .ok msg ∧ r = .error msg)) := by
  have hu : ∀ r, SyntaxReturns L newSelfText r → r = .ok syn := by
    obtain ⟨syn', -, hs, -⟩ := C76_returns hL (exact_noSlash hX) hN (.inr rfl)
    cases (hs _).1 hsyn
    exact fun r hr => (hs r).1 hr
  constructor
  · rintro ⟨n, h⟩
    unfold useNewSelfSyntax at h
    obtain ⟨x, h1, h⟩ := Comp.bind_ok.1 h
    cases x with
    | error msg =>
      rcases C52_errstr.1 ⟨n, h1⟩ with ⟨s, h2, h3⟩ | ⟨_, _, h2, _, h3⟩
      · cases h3
      · cases hu _ h2
    | ok syn' =>
      rcases C52_errstr.1 ⟨n, h1⟩ with ⟨s, h2, h3⟩ | ⟨_, _, h2, _, h3⟩
      · cases h3
        cases hu _ h2
        obtain ⟨⟨res, docRules⟩, h2, h⟩ := Comp.bind_ok.1 h
        rcases C65_errstr.1 ⟨n, h2⟩ with ⟨hp, rfl⟩ | ⟨e, msg, h3, h4, rfl⟩
        · obtain ⟨doc, hd, hpl, he⟩ := parses_text10 hL hX rules10_eq
            ((accepts10 hL (exact_noSlash hX) hN (.inr rfl) hsyn ..).1 hp)
          obtain ⟨⟨res, ig⟩, h3, h⟩ := Comp.bind_ok.1 h
          have ho := convert_doc_small he ⟨n, h3⟩
          have hr := convert_doc_iff ho he ⟨n, h3⟩
          refine .inr ⟨doc, hd, hpl, ho, ?_⟩
          cases e : (Doc.read doc.strings doc.nodes).1 with
          | none =>
            rw [e] at hr
            cases hr
            exact .inl ⟨rfl, (Comp.pure_ok.1 h).symm⟩
          | some rs =>
            rw [e] at hr
            cases hr
            obtain ⟨⟨res, data⟩, h4, h⟩ := Comp.bind_ok.1 h
            refine .inr ⟨rs, rfl, ?_⟩
            rcases C65_errstr.1 ⟨n, h4⟩ with ⟨hq, rfl⟩ | ⟨e, msg, h5, h6, rfl⟩
            · exact .inl ⟨data, hq, (Comp.pure_ok.1 h).symm⟩
            · exact .inr ⟨e, data, msg, h5, h6, (Comp.pure_ok.1 h).symm⟩
        · exact .inl ⟨e, docRules, msg, h3, h4, (Comp.pure_ok.1 h).symm⟩
      · cases h3
  · obtain ⟨m1, h1⟩ := hsyn
    rintro (⟨e, toks, msg, ⟨-, m2, h2⟩, hm, rfl⟩ | ⟨doc, hd, hpl, ho, h⟩)
    · have e1 := ((readSyntax_le (Nat.le_max_left m1 m2) newSelfText).eq (by rw [h1]; simp)).trans h1
      have e2 := (parse_mono (Nat.le_max_right m1 m2) (by rw [h2]; simp)).trans h2
      refine ⟨max m1 m2, ?_⟩
      unfold useNewSelfSyntax readSyntaxErrstr parseErrstr parseErrstrWithIndent
      simp only [e1, e2, hm, Bind.bind, Comp.bind, pure]
    · obtain ⟨docRules, ⟨-, m2, h2⟩, he⟩ := (C76_exact hL hX hN (.inr rfl) ⟨m1, h1⟩).2 ⟨hd, hpl⟩
      obtain ⟨l, -, m3, h3⟩ := C40_undefined_dropped ho he []
      have key : ∀ m4, m1 ≤ m1 + m2 + m3 + m4 ∧ m2 ≤ m1 + m2 + m3 + m4 ∧ m3 ≤ m1 + m2 + m3 + m4 ∧
          m4 ≤ m1 + m2 + m3 + m4 := by omega
      have e1 := fun m4 => ((readSyntax_le (key m4).1 newSelfText).eq (by rw [h1]; simp)).trans h1
      have e2 := fun m4 => (parse_mono (key m4).2.1 (by rw [h2]; simp)).trans h2
      have e3 := fun m4 => (convert_mono (key m4).2.2.1 (by rw [h3]; simp)).trans h3
      unfold parse at e2
      rcases h with ⟨hr, rfl⟩ | ⟨rs, hr, h⟩
      · refine ⟨m1 + m2 + m3 + 0, ?_⟩
        unfold useNewSelfSyntax readSyntaxErrstr parseErrstr parseErrstrWithIndent
        simp only [e1, e2, e3, hr, Bind.bind, Comp.bind, pure, Option.map_none]
        rfl
      · rcases h with ⟨data, ⟨-, m4, h4⟩, rfl⟩ | ⟨e, toks, msg, ⟨-, m4, h4⟩, hm, rfl⟩
        all_goals
          have e4 := (parse_mono (key m4).2.2.2 (by rw [h4]; simp)).trans h4
          refine ⟨m1 + m2 + m3 + m4, ?_⟩
          unfold useNewSelfSyntax readSyntaxErrstr parseErrstr parseErrstrWithIndent
          simp only [e1, e2, e3, e4, hr, Bind.bind, Comp.bind, pure, Option.map_some]
        simp only [hm]

/-- C76: when `use_new_self_syntax` returns, and what. -/
theorem C76_new {L : Lexer} (hL : L.Lawful) (hX : L.Exact) (hN : ReadsNumbers L) {E : ErrText} {rules text : Str}
    {data : List Tok} :
    UsesNew L E rules text (.ok data) ↔
      ∃ (doc : Doc) (rs : List (Str × Rule)), doc.Text L rules ∧ doc.plain = true ∧ ¬ doc.Overflows ∧
        (Doc.read doc.strings doc.nodes).1 = some rs ∧
        Parses L (syntaxOf rs) text [] Indent.default (.ok data) := by
  obtain ⟨syn, -, hs, -⟩ := C76_returns hL (exact_noSlash hX) hN (.inr rfl)
  rw [C76_new_iff hL hX hN ((hs _).2 rfl)]
  constructor
  · rintro (⟨_, _, _, _, _, h⟩ | ⟨doc, h1, h2, h3, ⟨_, h⟩ | ⟨rs, h4, ⟨_, h5, h⟩ | ⟨_, _, _, _, _, h⟩⟩⟩) <;> cases h
    exact ⟨doc, rs, h1, h2, h3, h4, h5⟩
  · rintro ⟨doc, rs, h1, h2, h3, h4, h5⟩
    exact .inr ⟨doc, h1, h2, h3, .inr ⟨rs, h4, .inl ⟨data, h5, rfl⟩⟩⟩

/-- C76: on rules without `.l+` both functions return the same data, if the optimizer does not
change what the rules accept. -/
theorem C76_agree {L : Lexer} (hL : L.Lawful) (hX : L.Exact) (hN : ReadsNumbers L) {E : ErrText} {rules text : Str}
    {doc : Doc} {rs : List (Str × Rule)} {syn : Syntax} (hd : doc.Text L rules) (hp : doc.plain = true)
    (hr : (Doc.read doc.strings doc.nodes).1 = some rs) (ho : Optimizes (syntaxOf rs) syn)
    (ht : TailsRefused (envOf L (syntaxOf rs).rules Indent.default)) (data : List Tok) :
    UsesNew L E rules text (.ok data) ↔ UsesOld L E rules text (.ok data) := by
  rw [C76_new hL hX hN, C76_old hL hX]
  have hu : ∀ doc' : Doc, doc'.Text L rules → doc' = doc := fun doc' h => C49_unambiguous hL (exact_noSlash hX) h hd
  constructor
  · rintro ⟨doc', rs', h1, -, h2, h3, h4⟩
    cases hu doc' h1
    cases hr.symm.trans h3
    exact ⟨_, rs, syn, h1, h2, hr, ho, (C27_accepts_the_same_partial hL ho ht ..).1 h4⟩
  · rintro ⟨doc', rs', syn', h1, h2, h3, h4, h5⟩
    cases hu doc' h1
    cases hr.symm.trans h3
    cases C31_deterministic ho h4
    exact ⟨_, rs, h1, hp, h2, hr, (C27_accepts_the_same_partial hL ho ht ..).2 h5⟩

/-! ### The tests -/

/-- The end of the rules in tests/lib.rs:50-52, 61-63, 72-74 and 84-86. -/
def testNodes : Str := [
  c!"        1 say_hi = [\"hi\" .w? {\"James\":\"james\" \"Peter\":\"peter\"} \"!\"]\n",
  c!"        2 document = say_hi\n",
  c!"    "].flatten

/-- tests/lib.rs:49, 60 and 71. -/
def testComments : List Str := [
  c!"\n        /* this is an url http://www.piston.rs */\n",
  c!"\n        /* this is a comment with **** and some **** */\n",
  c!"\n        /* this is a nested comment /* hey I think /* this */ works */ */\n"]

/-- tests/lib.rs:83. -/
def testUnclosed : Str := c!"\n        /* this is a nested comment /* hey I think /* this works, no? */ */\n"

/-- The rules in tests/lib.rs:94 and 102. -/
def testNot : Str := c!"0 doc = [![{\"hi\" \"hello\"} .w!] \"there\"]"

/-- The data, if there is no panic. -/
def usedData : Comp (Except Str (List Tok)) → Option (List Tok)
  | .ok (.ok data) => some data
  | _ => none

/-- The message of the panic. -/
def usedMessage : Comp (Except Str (List Tok)) → Option Str
  | .ok (.error msg) => some msg
  | _ => none

/-- C76: the tests in tests/lib.rs:45-75 pass. -/
theorem C76_comments : ∀ c ∈ testComments,
    UsesOld stdLexer exErrText (c ++ testNodes) c!"hi James!" (.ok [⟨⟨3, 5⟩, .bool c!"james" true⟩]) := by
  have h : ∀ c ∈ testComments, usedData (useOldSelfSyntax stdLexer exErrText 40 (c ++ testNodes) c!"hi James!") =
      some [⟨⟨3, 5⟩, .bool c!"james" true⟩] := by decide +kernel
  intro c hc
  refine ⟨40, ?_⟩
  have := h c hc
  cases e : useOldSelfSyntax stdLexer exErrText 40 (c ++ testNodes) c!"hi James!" with
  | ok r => cases r <;> rw [e] at this <;> cases this; rfl
  | _ => rw [e] at this; cases this

theorem used_message {x : Comp (Except Str (List Tok))} {m : Str} (h : usedMessage x = some m) : x = .ok (.error m) := by
  cases x with
  | ok r => cases r <;> cases h; rfl
  | _ => cases h

theorem used_data {x : Comp (Except Str (List Tok))} {m : List Tok} (h : usedData x = some m) : x = .ok (.ok m) := by
  cases x with
  | ok r => cases r <;> cases h; rfl
  | _ => cases h

/-- C76: the test in tests/lib.rs:77-88 panics as it should. -/
theorem C76_unclosed : ∃ a b, UsesOld stdLexer exErrText (testUnclosed ++ testNodes) c!"hi James!"
    (.error (a ++ c!"Expected: `*/`" ++ b)) :=
  ⟨c!"Error #16, ", c!"\n4:         2 document = say_hi\n5,5:     \n5,5:     ^\n", 40,
    used_message (by decide +kernel)⟩

/-- What these rules stand for. -/
def testNotNodes : List (Str × F64 × Str × Desc) := [(c!"0", ⟨0⟩, c!"doc", .sequence [
  .not (.sequence [.select [.tag none (.value c!"hi") none none, .tag none (.value c!"hello") none none],
    .whitespace false]),
  .tag none (.value c!"there") none none])]

/-- The rules. -/
def testNotRead : List (Str × Rule) := ((Doc.read [] (testNotNodes.map (·.2))).1).getD []

theorem testNot_read : (Doc.read [] (testNotNodes.map (·.2))).1 = some testNotRead := by
  have h : (Doc.read [] (testNotNodes.map (·.2))).1.isSome = true := by decide +kernel
  unfold testNotRead
  cases e : (Doc.read [] (testNotNodes.map (·.2))).1 with
  | none => rw [e] at h; cases h
  | some x => rfl

theorem testNot_text {L : Lexer} (hL : L.Lawful) (hN : ReadsNumbers L) :
    Doc.Text L ⟨[], testNotNodes.map (·.2)⟩ testNot :=
  eatDoc_text hL hN (ss := []) (ns := testNotNodes) (by decide +kernel)

theorem testNot_small : ¬ (⟨[], testNotNodes.map (·.2)⟩ : Doc).Overflows := by decide +kernel

/-- What is left of the tests once the rules are read. -/
theorem testNot_uses {E : ErrText} {text : Str} {r : Except Str (List Tok)}
    (h : (∃ data, Parses stdLexer (syntaxOf testNotRead) text [] Indent.default (.ok data) ∧ r = .ok data) ∨
      ∃ e toks msg, Parses stdLexer (syntaxOf testNotRead) text [] Indent.default (.err e toks) ∧
        reportErr E text e = .ok msg ∧ r = .error msg) : UsesNew stdLexer E testNot text r := by
  obtain ⟨syn, -, hs, -⟩ := C76_returns stdLexer_lawful stdLexer_noSlash std_readsNumbers (.inr rfl)
  exact (C76_new_iff stdLexer_lawful stdLexer_exact std_readsNumbers ((hs _).2 rfl)).2 (.inr
    ⟨_, testNot_text stdLexer_lawful std_readsNumbers, by decide +kernel, testNot_small, .inr ⟨_, testNot_read, h⟩⟩)

/-- The data of an accepted text. -/
def okData : POut → Option (List Tok)
  | .ok toks => some toks
  | _ => none

/-- The error of a rejected text. -/
def errOf : POut → Option (RErr × List Tok)
  | .err e toks => some (e, toks)
  | _ => none

theorem parses_okData {L : Lexer} {n : Nat} {syn : Syntax} {text : Str} {toks : List Tok}
    (h : okData (parse L n syn text []) = some toks) : Parses L syn text [] Indent.default (.ok toks) := by
  refine ⟨by simp, n, ?_⟩
  unfold parse at h
  cases e : parseWithIndent L n syn text [] Indent.default <;> rw [e] at h <;> cases h
  rfl

theorem parses_errOf {L : Lexer} {n : Nat} {syn : Syntax} {text : Str} {e : RErr} {toks : List Tok}
    (h : errOf (parse L n syn text []) = some (e, toks)) : Parses L syn text [] Indent.default (.err e toks) := by
  refine ⟨by simp, n, ?_⟩
  unfold parse at h
  cases e : parseWithIndent L n syn text [] Indent.default <;> rw [e] at h <;> cases h
  rfl

/-- C76: the test in tests/lib.rs:90-95 passes. -/
theorem C76_not_pass (E : ErrText) : UsesNew stdLexer E testNot c!"there" (.ok []) :=
  testNot_uses (.inl ⟨[], parses_okData (n := 9) (by decide +kernel), rfl⟩)

/-- C76: the test in tests/lib.rs:97-103 panics as it should. -/
theorem C76_not_stop (E : ErrText) : ∃ a b, UsesNew stdLexer E testNot c!"hi there"
    (.error (a ++ c!"Did not expect: `hi `" ++ b)) :=
  ⟨c!"Error #6, ", c!"\n1,1: hi there\n1,1: ^\n", testNot_uses (.inr ⟨⟨⟨0, 3⟩, .didNotExpectTag c!"hi " 6⟩, [], _,
    parses_errOf (n := 9) (by decide +kernel), by rfl, rfl⟩)⟩

/-- The document of a node with `.l+`. -/
def plusNodes : List (Str × F64 × Str × Desc) :=
  [(c!"0", ⟨0⟩, c!"doc", .lines (some true) (.tag none (.value c!"a") none none))]

/-- `.l+` is a mistake in version 1.0, but not now. -/
example : (∃ data, UsesOld stdLexer exErrText c!"0 doc = .l+(\"a\")" c!"a\na" (.ok data)) ∧
    ∀ data, ¬ UsesNew stdLexer exErrText c!"0 doc = .l+(\"a\")" c!"a\na" (.ok data) := by
  refine ⟨⟨[], 40, used_data (by decide +kernel)⟩, fun data h => ?_⟩
  obtain ⟨doc, rs, h1, h2, -⟩ := (C76_new stdLexer_lawful stdLexer_exact std_readsNumbers).1 h
  have h3 : Doc.Text stdLexer ⟨[], plusNodes.map (·.2)⟩ c!"0 doc = .l+(\"a\")" :=
    eatDoc_text stdLexer_lawful std_readsNumbers (ss := []) (ns := plusNodes) (by decide +kernel)
  cases C49_unambiguous stdLexer_lawful stdLexer_noSlash h1 h3
  exact absurd h2 (by decide)

end Verif.Props
