import Verif.Proofs.NotationExact
import Verif.Proofs.Print
import Verif.Props.Syntax
/-
Property of `syntax` on texts in the notation of the meta language: C49, C53.
-/
namespace Verif.Props
open Verif Verif.Spec

/-- No number begins with a slash, so that a comment is not mistaken for a node. -/
def NoSlash (L : Lexer) : Prop := ∀ s, L.num false ('/' :: s) = none

theorem stdLexer_noSlash : NoSlash stdLexer := fun _ => rfl

/-- Every text in the notation is accepted by the hard-coded rules, and the data says what the text
stands for. -/
theorem C49_reads_notation {L : Lexer} (hL : L.Lawful) (hs : NoSlash L) {doc : Doc} {text : Str}
    (h : doc.Text L text) : Writes L text doc := text_writes hL hs h

theorem writes_unique {L : Lexer} {doc doc' : Doc} {text : Str} (h : Writes L text doc) (h' : Writes L text doc') :
    doc = doc' := by
  obtain ⟨toks, h, e⟩ := h
  obtain ⟨toks', h', e'⟩ := h'
  cases parses_det h h'
  exact doc_inj (e.symm.trans e')

/-- A text stands for one document at most. -/
theorem C49_unambiguous {L : Lexer} (hL : L.Lawful) (hs : NoSlash L) {doc doc' : Doc} {text : Str}
    (h : doc.Text L text) (h' : doc'.Text L text) : doc = doc' :=
  writes_unique (text_writes hL hs h) (text_writes hL hs h')

/-- What `syntax` returns for a text in the notation: an error if the rule of a node depends on an
undefined string, else the rules it stands for, optimized. -/
theorem C49_meaning {L : Lexer} (hL : L.Lawful) (hs : NoSlash L) {doc : Doc} {text : Str}
    (h : doc.Text L text) (ht : ¬ doc.Overflows) (r : Except RErr Syntax) :
    SyntaxReturns L text r ↔
      match (Doc.read doc.strings doc.nodes).1 with
      | none => r = .error ⟨⟨0, 0⟩, .conversion c!"Bootstrapping rules are incorrect"⟩
      | some rs => ∃ syn, Optimizes (syntaxOf rs) syn ∧ r = .ok syn :=
  C46_meaning hL (text_writes hL hs h) ht r

/-- Rule trees that are printed are read back: `syntax` returns the same rules under the same names,
optimized; only the ids differ.  It returns unless a rule is left recursive. -/
theorem C49_rule_trees {L : Lexer} (hL : L.Lawful) (hs : NoSlash L) {ns : List Numbered} (h : ∀ n ∈ ns, n.Ok L)
    (ht : ¬ (describeDoc ns).Overflows) :
    ∃ rs : List (Str × Rule), rs.map (fun x => (x.1, bare x.2)) = ns.map (fun n => (n.name, bare n.rule)) ∧
      (∀ r, SyntaxReturns L (printDoc ns) r ↔ ∃ syn, Optimizes (syntaxOf rs) syn ∧ r = .ok syn) ∧
      (¬ LeftRecursive (syntaxOf rs) → ∃ syn, SyntaxReturns L (printDoc ns) (.ok syn)) := by
  obtain ⟨rs, e, hb⟩ := describeDoc_read ns fun n hn => (h n hn).2.2
  have hm := C49_meaning hL hs (printed_doc hL h) ht
  rw [e] at hm
  refine ⟨rs, hb, hm, fun hl => ?_⟩
  obtain ⟨syn, ho⟩ := C31_returns (syn := syntaxOf rs) (fun x hx hc => hl ⟨x, hx, hc⟩)
    (syntaxOf_ok (s := (describeDoc ns).strings) (ns := (describeDoc ns).nodes) (by rw [e]))
  exact ⟨syn, (hm _).2 ⟨syn, ho, rfl⟩⟩

/-- Two printed lists of rules are the same text only if they are the same, up to ids. -/
theorem C49_print_injective {L : Lexer} (hL : L.Lawful) (hs : NoSlash L) {ns ns' : List Numbered}
    (h : ∀ n ∈ ns, n.Ok L) (h' : ∀ n ∈ ns', n.Ok L) (e : printDoc ns = printDoc ns') :
    ns.map (fun n => (n.name, bare n.rule)) = ns'.map (fun n => (n.name, bare n.rule)) := by
  have hd : describeDoc ns = describeDoc ns' :=
    C49_unambiguous hL hs (printed_doc hL h) (by rw [e]; exact printed_doc hL h')
  obtain ⟨rs, e1, hb⟩ := describeDoc_read ns fun n hn => (h n hn).2.2
  obtain ⟨rs', e2, hb'⟩ := describeDoc_read ns' fun n hn => (h' n hn).2.2
  rw [hd, e2] at e1
  cases e1
  exact hb.symm.trans hb'

/-! ### The other direction -/

theorem exact_noSlash {L : Lexer} (hX : L.Exact) : NoSlash L := by
  intro s
  cases h : L.num false ('/' :: s) with
  | none => rfl
  | some n => exact absurd rfl (hX.num_head h).2.2

/-- The hard-coded rules accept the notation and nothing else: that a text is accepted with the data
of a document is the same as that it stands for the document. -/
theorem C53_exact {L : Lexer} (hL : L.Lawful) (hX : L.Exact) {doc : Doc} {text : Str} :
    Writes L text doc ↔ doc.Text L text :=
  ⟨writes_text hL hX, text_writes hL (exact_noSlash hX)⟩

/-- The texts that are accepted are those that stand for a document. -/
theorem C53_accepted_iff {L : Lexer} (hL : L.Lawful) (hX : L.Exact) {text : Str} :
    (∃ toks, Parses L bootstrapRules text [] Indent.default (.ok toks)) ↔ ∃ doc : Doc, doc.Text L text := by
  constructor
  · rintro ⟨toks, h⟩
    obtain ⟨doc, h, -⟩ := parses_text hL hX h
    exact ⟨doc, h⟩
  · rintro ⟨doc, h⟩
    obtain ⟨toks, h, -⟩ := text_writes hL (exact_noSlash hX) h
    exact ⟨toks, h⟩

/-- `syntax` returns an error for a text that is not in the notation. -/
theorem C53_rejects_others {L : Lexer} (hL : L.Lawful) (hX : L.Exact) {text : Str}
    (h : ¬ ∃ doc : Doc, doc.Text L text) : ∃ e, SyntaxReturns L text (.error e) := by
  rcases C46_bootstrap_returns hL text [] Indent.default with ⟨toks, h'⟩ | ⟨e, toks, h'⟩
  · exact absurd ((C53_accepted_iff hL hX).1 ⟨toks, h'⟩) h
  · obtain ⟨e', h', -⟩ := C46_rejected hL h'
    exact ⟨e', h'⟩

/-- When `syntax` returns rules, and which: the text stands for a document whose rules depend on
strings that are defined only and whose ids are not too large, and what is returned is those rules, optimized. -/
theorem C53_returns_iff {L : Lexer} (hL : L.Lawful) (hX : L.Exact) {text : Str} (syn : Syntax) :
    SyntaxReturns L text (.ok syn) ↔
      ∃ (doc : Doc) (rs : List (Str × Rule)), doc.Text L text ∧ ¬ doc.Overflows ∧ (Doc.read doc.strings doc.nodes).1 = some rs ∧
        Optimizes (syntaxOf rs) syn := by
  constructor
  · intro h
    obtain ⟨doc, h1, -, ho, rs, h2, h3⟩ := C46_result hL h
    exact ⟨doc, rs, writes_text hL hX h1, ho, h2, h3⟩
  · rintro ⟨doc, rs, h1, ho, h2, h3⟩
    have := C49_meaning hL (exact_noSlash hX) h1 ho (.ok syn)
    rw [h2] at this
    exact this.2 ⟨syn, h3, rfl⟩

/-- The text is rejected. -/
def rejects : POut → Bool
  | .err _ _ => true
  | _ => false

/-- A text that is rejected by the hard-coded rules stands for nothing. -/
theorem not_text {L : Lexer} (hL : L.Lawful) (hX : L.Exact) {text : Str}
    (h : ∃ n, rejects (parse L n bootstrapRules text []) = true) : ¬ ∃ doc : Doc, doc.Text L text := by
  rintro ⟨doc, hd⟩
  obtain ⟨toks, h', -⟩ := text_writes hL (exact_noSlash hX) hd
  obtain ⟨n, h⟩ := h
  cases e : parse L n bootstrapRules text [] with
  | err x y => cases parses_det h' (o' := .err x y) ⟨by simp, n, e⟩
  | _ => rw [e] at h; cases h

/-- A node needs whitespace around its name; a string cannot follow a node; a comment cannot follow
a node on its line. -/
example : ∀ text ∈ [c!"0list = .w?", c!"0 list= .w?", c!"0 a = .w?\n_s: \"b\"", c!"0 a = .w? // b"],
    ¬ ∃ doc : Doc, doc.Text stdLexer text := by
  intro text h
  refine not_text stdLexer_lawful stdLexer_exact ⟨200, ?_⟩
  revert text
  decide +kernel

/-! ### Numbers of the concrete lexer -/

theorem takeWhile_digits {s : Str} {c : Char} {rest : Str} (h : ∀ x ∈ s, Std.isDigit x = true)
    (hc : Std.isDigit c = false) : Std.digits false (s ++ c :: rest) = s.length := by
  unfold Std.digits
  congr 1
  induction s with
  | nil => simp [hc]
  | cons x s ih => simpa [h x (by simp)] using ih fun y hy => h y (by simp [hy])

theorem digit_ne {c x : Char} (h : Std.isDigit c = true) (hx : Std.isDigit x = false) : c ≠ x := by
  rintro rfl
  rw [h] at hx
  cases hx

theorem digit_notWs {c : Char} (h : Std.isDigit c = true) : isWs c = false := by
  simp only [Std.isDigit, Bool.and_eq_true, decide_eq_true_eq] at h
  simp [isWs]
  omega

/-- Digits are a number. -/
theorem std_isNumber {s : Str} {v : F64} (h0 : s ≠ []) (h : ∀ x ∈ s, Std.isDigit x = true)
    (hv : (stdLexer.parseNum false s s.length).toOption = some v) (c : Char) (rest : Str) (hc : isWs c = true) :
    IsNumber stdLexer v s (c :: rest) := by
  replace hv : stdLexer.parseNum false s s.length = .ok v := by
    cases e : stdLexer.parseNum false s s.length <;> rw [e] at hv <;> cases hv
    rfl
  refine ⟨?_, ?_⟩
  · intro c hc
    have hd := h c (List.mem_of_mem_head? hc)
    exact ⟨digit_notWs hd, digit_ne hd (by decide), digit_ne hd (by decide)⟩
  · have hd : Std.isDigit c = false := by
      cases hd : Std.isDigit c with
      | false => rfl
      | true => rw [digit_notWs hd] at hc; cases hc
    have hn : ∀ x, isWs x = false → c ≠ x := by
      rintro x hx rfl
      rw [hx] at hc
      cases hc
    constructor
    · cases s with
      | nil => exact absurd rfl h0
      | cons x s =>
        have hx := h x (by simp)
        have h1 : Std.numSign (x :: s ++ c :: rest) = 0 := by
          have := digit_ne hx (x := '-') (by decide)
          simp only [Std.numSign, List.cons_append]
          split
          · rename_i e
            cases e
            exact absurd rfl this
          · rfl
        have h2 : Std.digits false (x :: s ++ c :: rest) = (x :: s).length := takeWhile_digits h hd
        have h3 : Std.numFrac false (c :: rest) = 0 := by
          have := hn '.' (by decide)
          unfold Std.numFrac
          split
          · rename_i e
            cases e
            exact absurd rfl this
          · rfl
        have h4 : Std.numExp (c :: rest) = 0 := by
          simp [Std.numExp, hn 'e' (by decide), hn 'E' (by decide)]
        show Std.num false _ = _
        simp only [Std.num, h1, List.drop_zero, h2, Nat.zero_add, List.drop_left, h3, h4, Nat.add_zero]
        simp [hx]
    · rw [← hv]
      show Std.parseNum false _ _ = Std.parseNum false _ _
      simp [Std.parseNum]

/-! ### Examples -/

instance : DecidablePred NameChar := fun _ => inferInstanceAs (Decidable (_ ∧ _))
instance : DecidablePred IsName := fun _ => inferInstanceAs (Decidable (_ ∧ _))
instance : DecidablePred Space := fun _ => inferInstanceAs (Decidable (∀ _ ∈ _, _))

/-- A comment, a string, a node over two lines, a comment. -/
example : Doc.Text stdLexer
    ⟨[(c!"s", c!"ab")], [(⟨0⟩, c!"list", .sequence [.whitespace true,
      .separatedBy (some true) (some true) (.tag none (.ref c!"s") none none) (.text (some false) (some (.value c!"x")))])]⟩
    c!"/* a */\n_s: \"ab\"\n\n0 list = [ .w?\n  .s?.(_s .t!:\"x\") ]\n// b" := by
  have hx : IsLit stdLexer c!"x" c!"\"x\"" := quoted_lit stdLexer_lawful c!"x"
  have hab : IsLit stdLexer c!"ab" c!"\"ab\"" := quoted_lit stdLexer_lawful c!"ab"
  refine ⟨[.comment, .string c!"s" c!"ab"], [.node ⟨0⟩ c!"list" _, .comment], by decide, by simp [Entry.isString],
    ⟨[], _, _, by decide, by decide, .block (b := c!" a ") ?_,
    ⟨c!"\n", _, _, by decide, by decide, ⟨c!" ", _, by decide, by decide, hab, rfl⟩,
    ⟨c!"\n\n", _, _, by decide, by decide,
      ⟨c!"0", c!" ", c!" ", c!" ", c!"[ .w?\n  .s?.(_s .t!:\"x\") ]", std_isNumber (by decide) (by decide) (by decide +kernel) _ _ (by decide), by decide, by decide,
        by decide, by decide, by decide, by decide, by decide, ?_, rfl⟩,
    ⟨c!"\n", _, [], by decide, by decide, .line (b := c!" b") (by decide) (.inl rfl), by simp [EntriesText, Space], rfl⟩, rfl⟩, rfl⟩, rfl⟩,
    rfl, rfl⟩
  · exact .plain (by decide) (by decide) (.plain (by decide) (by decide) (.plain (by decide) (by decide) .nil))
  · refine ⟨by simp, c!" .w?\n  .s?.(_s .t!:\"x\") ", ?_, rfl⟩
    refine ⟨c!" ", c!".w?", _, by decide, rfl, ?_, fun _ => ⟨'\n', rfl, by decide⟩, rfl⟩
    refine ⟨c!"\n  ", c!".s?.(_s .t!:\"x\")", c!" ", by decide, ?_, by simp [Desc.TextL, Space]; decide, by simp, rfl⟩
    exact ⟨true, c!".", [], c!"_s", c!" ", c!".t!:\"x\"", [], rfl, ⟨rfl, rfl⟩, by decide,
      ⟨[], _, rfl, ⟨by decide, rfl⟩, rfl, rfl⟩, by decide, by decide, ⟨false, _, rfl, ⟨_, ⟨hx, by decide⟩, rfl⟩, rfl⟩,
      by decide, rfl⟩

/-- Two rules that can be printed, and their text. -/
def sample : List Numbered :=
  [⟨⟨0⟩, c!"0", c!"value", .select
      [.number (some c!"num") true 0, .text false (some c!"str") 0, .node c!"list" none none 0] 0⟩,
   ⟨⟨0x3FF0000000000000⟩, c!"1", c!"list", .sequence
      [.tag c!"[" false false none 0,
       .separateBy (.node c!"value" (some c!"item") none 0) (.sequence [.tag c!"," false false none 0, .whitespace true 0] 0)
         true true 0,
       .not (.optional (.tag c!"\n" true false none 0) 0) 0,
       .tag c!"]" false true (some c!"open") 0] 0⟩]

example : printDoc sample = c!"0 value = {.$_:\"num\" .t!:\"str\" list }
1 list = [\"[\" .s?.([\",\" .w? ] value:\"item\") !?!\"\\n\" \"]\":!\"open\" ]
" := by decide

theorem sample_ok : ∀ n ∈ sample, n.Ok stdLexer := by
  have key : ∀ n ∈ sample, ∀ c rest, isWs c = true → IsNumber stdLexer n.number n.digits (c :: rest) := by
    intro n hn
    simp only [sample, List.mem_cons, List.not_mem_nil, or_false] at hn
    rcases hn with rfl | rfl
    all_goals exact std_isNumber (by decide) (by decide) (by decide +kernel)
  intro n hn
  refine ⟨key n hn, ?_⟩
  simp only [sample, List.mem_cons, List.not_mem_nil, or_false] at hn
  rcases hn with rfl | rfl
  · exact ⟨⟨by decide, by decide⟩, by simp [Printable, PrintableAll, GoodName]; decide⟩
  · exact ⟨⟨by decide, by decide⟩, by simp [Printable, PrintableAll, GoodName]; decide⟩

theorem sample_small : ¬ (describeDoc sample).Overflows := by decide +kernel

/-- The rules printed above are read back. -/
example : ∃ rs : List (Str × Rule), rs.map (fun x => (x.1, bare x.2)) = sample.map (fun n => (n.name, bare n.rule)) ∧
    ∀ r, SyntaxReturns stdLexer (printDoc sample) r ↔ ∃ syn, Optimizes (syntaxOf rs) syn ∧ r = .ok syn :=
  let ⟨rs, h, h', _⟩ := C49_rule_trees stdLexer_lawful stdLexer_noSlash sample_ok sample_small
  ⟨rs, h, h'⟩

end Verif.Props
