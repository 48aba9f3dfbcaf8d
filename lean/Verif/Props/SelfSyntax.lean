import Verif.Model.SelfSyntax
import Verif.Proofs.NotationCheck
import Verif.Props.Notation
import Verif.Props.Renumber
import Verif.Spec.SelfDoc
/-
Property of assets/self-syntax.txt: C63.
-/
namespace Verif.Props
open Verif Verif.Spec

/-! ### The text stands for the document -/

theorem plain_body {b rest : Str} (h : ∀ c ∈ b, c ≠ '*' ∧ c ≠ '/') : CommentBody b rest := by
  induction b with
  | nil => exact .nil
  | cons c b ih =>
    have := h c (by simp)
    exact .plain this.1 this.2 (ih fun d hd => h d (by simp [hd]))

/-- Entries that end with a new line, one after the other. -/
theorem entries_text {L : Lexer} : ∀ (ps : List (Entry × Str)) (w : Str), Space w → '\n' ∈ w →
    (∀ p ∈ ps, ∃ a, p.2 = a ++ ['\n'] ∧ ∀ rest, p.1.Text L a rest) →
    EntriesText L false (ps.map (·.1)) (w ++ (ps.map (·.2)).flatten)
  | [], w, hw, _, _ => by simpa [EntriesText] using hw
  | p :: ps, w, hw, hn, h => by
    obtain ⟨a, e, ha⟩ := h p (by simp)
    have ih := entries_text ps ['\n'] (by decide) (by decide) fun q hq => h q (by simp [hq])
    exact ⟨w, a, _, hw, fun _ => hn, ha _, ih, by simp [e]⟩

/-- The numbers 0 to 22 are read as these numbers before whitespace. -/
def ReadsNumbers (L : Lexer) : Prop :=
  ∀ x ∈ selfRules, ∀ c rest, isWs c = true → IsNumber L x.2.1 x.1 (c :: rest)

theorem std_readsNumbers : ReadsNumbers stdLexer := by
  have h : ∀ x ∈ selfRules, x.1 ≠ [] ∧ (∀ c ∈ x.1, Std.isDigit c = true) ∧
      (stdLexer.parseNum false x.1 x.1.length).toOption = some x.2.1 := by decide +kernel
  intro x hx
  obtain ⟨h0, h1, h2⟩ := h x hx
  exact std_isNumber h0 h1 h2

def stringPieces : List (Entry × Str) :=
  (selfDefs.zip selfStrings).map fun p => (.string p.1.1 p.1.2, p.2)

def nodePieces : List (Entry × Str) :=
  (selfRules.zip selfNodes).map fun p => (.node p.1.2.1 p.1.2.2.1 p.1.2.2.2, p.2)

theorem stringPieces_text {L : Lexer} (hL : L.Lawful) :
    ∀ p ∈ stringPieces, ∃ a, p.2 = a ++ ['\n'] ∧ ∀ rest, p.1.Text L a rest := by
  have h : ∀ p ∈ selfDefs.zip selfStrings, eatString p.1.1 p.1.2 p.2 = some ['\n'] := by decide +kernel
  intro p hp
  obtain ⟨q, hq, rfl⟩ := List.mem_map.1 hp
  exact eatString_text hL (h q hq)

theorem nodePieces_text {L : Lexer} (hL : L.Lawful) (hN : ReadsNumbers L) :
    ∀ p ∈ nodePieces, ∃ a, p.2 = a ++ ['\n'] ∧ ∀ rest, p.1.Text L a rest := by
  have h : ∀ p ∈ selfRules.zip selfNodes, eatNode p.1.1 p.1.2.2.1 p.1.2.2.2 p.2 = some ['\n'] := by
    decide +kernel
  intro p hp
  obtain ⟨q, hq, rfl⟩ := List.mem_map.1 hp
  exact eatNode_text hL (hN q.1 (List.of_mem_zip hq).1) (h q hq)

/-- C63: the text stands for the document in Spec/SelfDoc.lean. -/
theorem C63_stands_for {L : Lexer} (hL : L.Lawful) (hN : ReadsNumbers L) : selfDoc.Text L selfText := by
  have hc : ∀ l ∈ selfComment, ∀ c ∈ l, c ≠ '*' ∧ c ≠ '/' := by decide +kernel
  have hp := entries_text (L := L) (stringPieces ++ nodePieces) c!"\n\n" (by decide) (by decide) fun p hp => by
    rcases List.mem_append.1 hp with hp | hp
    · exact stringPieces_text hL p hp
    · exact nodePieces_text hL hN p hp
  have e1 : stringPieces.map (·.2) = selfStrings := by decide +kernel
  have e2 : nodePieces.map (·.2) = selfNodes := by decide +kernel
  rw [List.map_append, List.map_append, e1, e2] at hp
  refine ⟨.comment :: stringPieces.map (·.1), nodePieces.map (·.1), ?_, ?_, ?_, ?_, ?_⟩
  · simp only [stringPieces, List.map_map, List.mem_cons, List.mem_map]
    rintro e (rfl | ⟨p, -, rfl⟩) <;> rfl
  · simp only [nodePieces, List.map_map, List.mem_map]
    rintro e ⟨p, -, rfl⟩
    rfl
  · refine ⟨[], _, _, by decide, by decide, .block (plain_body (b := selfComment.flatten) ?_), hp, ?_⟩
    · intro c hc'
      obtain ⟨l, hl, hcl⟩ := List.mem_flatten.1 hc'
      exact hc l hl c hcl
    · simp [selfText]
  · rfl
  · rfl

/-! ### The rules are the hard-coded rules -/

/-- The ids belong to the same rule: the id of a part of rule number `n` is `1000 * n + 1`,
`1000 * n + 2` and so on. -/
def SameRule (a b : DebugId) : Prop := a / 1000 = b / 1000

instance (a b : DebugId) : Decidable (SameRule a b) := inferInstanceAs (Decidable (_ = _))

mutual
/-- The rules are the same but for ids, which belong to the same rule. -/
def alike : Rule → Rule → Bool
  | .whitespace a i, .whitespace a' i' => a == a' && decide (SameRule i i')
  | .tag a b c d i, .tag a' b' c' d' i' => a == a' && b == b' && c == c' && d == d' && decide (SameRule i i')
  | .untilAny a b c i, .untilAny a' b' c' i' => a == a' && b == b' && c == c' && decide (SameRule i i')
  | .untilAnyOrWs a b c i, .untilAnyOrWs a' b' c' i' => a == a' && b == b' && c == c' && decide (SameRule i i')
  | .text a b i, .text a' b' i' => a == a' && b == b' && decide (SameRule i i')
  | .number a b i, .number a' b' i' => a == a' && b == b' && decide (SameRule i i')
  | .node n b c i, .node n' b' c' i' => n == n' && b == b' && c == c' && decide (SameRule i i')
  | .select rs i, .select rs' i' => alikeL rs rs' && decide (SameRule i i')
  | .sequence rs i, .sequence rs' i' => alikeL rs rs' && decide (SameRule i i')
  | .separateBy r b o t i, .separateBy r' b' o' t' i' =>
    alike r r' && alike b b' && o == o' && t == t' && decide (SameRule i i')
  | .repeat_ r o i, .repeat_ r' o' i' => alike r r' && o == o' && decide (SameRule i i')
  | .lines r o i, .lines r' o' i' => alike r r' && o == o' && decide (SameRule i i')
  | .optional r i, .optional r' i' => alike r r' && decide (SameRule i i')
  | .not r i, .not r' i' => alike r r' && decide (SameRule i i')
  | _, _ => false
def alikeL : List Rule → List Rule → Bool
  | [], [] => true
  | r :: rs, r' :: rs' => alike r r' && alikeL rs rs'
  | _, _ => false
end

mutual
theorem alike_renumbered : ∀ {r r' : Rule}, alike r r' = true → Renumbered SameRule r r' := by
  intro r r' h
  match r, r', h with
  | .whitespace .., .whitespace .., h => simp [alike] at h; obtain ⟨rfl, hi⟩ := h; exact .whitespace hi
  | .tag .., .tag .., h => simp [alike] at h; obtain ⟨⟨⟨⟨rfl, rfl⟩, rfl⟩, rfl⟩, hi⟩ := h; exact .tag hi
  | .untilAny .., .untilAny .., h => simp [alike] at h; obtain ⟨⟨⟨rfl, rfl⟩, rfl⟩, hi⟩ := h; exact .untilAny hi
  | .untilAnyOrWs .., .untilAnyOrWs .., h =>
    simp [alike] at h; obtain ⟨⟨⟨rfl, rfl⟩, rfl⟩, hi⟩ := h; exact .untilAnyOrWs hi
  | .text .., .text .., h => simp [alike] at h; obtain ⟨⟨rfl, rfl⟩, hi⟩ := h; exact .text hi
  | .number .., .number .., h => simp [alike] at h; obtain ⟨⟨rfl, rfl⟩, hi⟩ := h; exact .number hi
  | .node .., .node .., h => simp [alike] at h; obtain ⟨⟨⟨rfl, rfl⟩, rfl⟩, hi⟩ := h; exact .node hi
  | .select .., .select .., h => simp [alike] at h; exact .select h.2 (alikeL_renumbered h.1)
  | .sequence .., .sequence .., h => simp [alike] at h; exact .sequence h.2 (alikeL_renumbered h.1)
  | .separateBy .., .separateBy .., h =>
    simp [alike] at h
    obtain ⟨⟨⟨⟨h1, h2⟩, rfl⟩, rfl⟩, hi⟩ := h
    exact .separateBy hi (alike_renumbered h1) (alike_renumbered h2)
  | .repeat_ .., .repeat_ .., h =>
    simp [alike] at h; obtain ⟨⟨h1, rfl⟩, hi⟩ := h; exact .repeat_ hi (alike_renumbered h1)
  | .lines .., .lines .., h =>
    simp [alike] at h; obtain ⟨⟨h1, rfl⟩, hi⟩ := h; exact .lines hi (alike_renumbered h1)
  | .optional .., .optional .., h => simp [alike] at h; exact .optional h.2 (alike_renumbered h.1)
  | .not .., .not .., h => simp [alike] at h; exact .not h.2 (alike_renumbered h.1)
theorem alikeL_renumbered : ∀ {rs rs' : List Rule}, alikeL rs rs' = true →
    RenumberedL SameRule rs rs' := by
  intro rs rs' h
  match rs, rs', h with
  | [], [], _ => exact .nil
  | r :: rs, r' :: rs', h =>
    simp [alikeL] at h
    exact .cons (alike_renumbered h.1) (alikeL_renumbered h.2)
end

/-- The rules that the document stands for. -/
def selfRead : List (Str × Rule) := ((Doc.read selfDoc.strings selfDoc.nodes).1).getD []

theorem selfRead_eq : (Doc.read selfDoc.strings selfDoc.nodes).1 = some selfRead := by
  have h : (Doc.read selfDoc.strings selfDoc.nodes).1.isSome = true := by decide +kernel
  unfold selfRead
  cases e : (Doc.read selfDoc.strings selfDoc.nodes).1 with
  | none => rw [e] at h; cases h
  | some x => rfl

theorem self_small : ¬ selfDoc.Overflows := by decide +kernel

/-- C63: the document stands for the hard-coded rules, under the same names. Only the ids differ, and
they belong to the same rule. -/
theorem C63_hard_coded : RenumberedL SameRule bootstrapRules.rules (syntaxOf selfRead).rules ∧
    bootstrapRules.names = (syntaxOf selfRead).names :=
  ⟨alikeL_renumbered (by decide +kernel), by decide +kernel⟩

theorem selfRead_ok : SyntaxOk (syntaxOf selfRead) := renumber_syntaxOk C63_hard_coded.1 boot_ok

/-- C63: `syntax` reads the text and returns the rules with which it reads, but for ids: the rules are
as many, with the same names and in the same order, and each is the same up to ids of the same rule. -/
theorem C63_fixpoint {L : Lexer} (hL : L.Lawful) (hs : NoSlash L) (hN : ReadsNumbers L) :
    ∃ syn bs, SyntaxReturns L selfText (.ok syn) ∧ Optimizes bootstrapRules bs ∧
      RenumberedL SameRule bs.rules syn.rules ∧ bs.names = syn.names := by
  obtain ⟨bs, hb⟩ := boot_optimizes
  obtain ⟨h1, h2⟩ := C63_hard_coded
  obtain ⟨syn, ho, hr⟩ := C61_optimizes h1 hb
  have hm := C49_meaning hL hs (C63_stands_for hL hN) self_small (.ok syn)
  rw [selfRead_eq] at hm
  refine ⟨syn, bs, hm.2 ⟨syn, ho, rfl⟩, hb, hr, ?_⟩
  rw [(C31_result_ok hb boot_ok).1, (C31_result_ok ho selfRead_ok).1, h2]

/-- C63: whatever `syntax` returns for the text, it is that. -/
theorem C63_returns_only {L : Lexer} (hL : L.Lawful) (hs : NoSlash L) (hN : ReadsNumbers L)
    {r : Except RErr Syntax} (h : SyntaxReturns L selfText r) :
    ∃ syn bs, r = .ok syn ∧ Optimizes bootstrapRules bs ∧
      RenumberedL SameRule bs.rules syn.rules ∧ bs.names = syn.names := by
  obtain ⟨syn, bs, h1, hb⟩ := C63_fixpoint hL hs hN
  have hm := fun r => C49_meaning hL hs (C63_stands_for hL hN) self_small r
  rw [selfRead_eq] at hm
  obtain ⟨s1, ho1, e1⟩ := (hm _).1 h1
  obtain ⟨s2, ho2, rfl⟩ := (hm _).1 h
  cases e1
  cases C31_deterministic ho1 ho2
  exact ⟨_, bs, rfl, hb⟩

/-- C63: the returned rules accept the texts that the hard-coded rules accept, with the same data:
they can take the place of the hard-coded rules. -/
theorem C63_accepts {L : Lexer} (hL : L.Lawful) (hs : NoSlash L) (hN : ReadsNumbers L) {syn : Syntax}
    (h : SyntaxReturns L selfText (.ok syn)) (ind : Indent) (text : Str) (toks toks' : List Tok) :
    Parses L bootstrapRules text toks ind (.ok toks') ↔ Parses L syn text toks ind (.ok toks') := by
  obtain ⟨_, bs, e, hb, hr, -⟩ := C63_returns_only hL hs hN h
  cases e
  exact (C27_accepts_the_same_partial hL hb (boot_tails hL ind) text toks toks').trans
    (C61_accepts hr text toks toks')

/-- C63: they reject the texts that the hard-coded rules reject, and the error ends at the same place. -/
theorem C63_rejects {L : Lexer} (hL : L.Lawful) (hs : NoSlash L) (hN : ReadsNumbers L) {syn : Syntax}
    (h : SyntaxReturns L selfText (.ok syn)) {ind : Indent} {text : Str} {toks : List Tok} {e : RErr}
    (hp : ∃ toks', Parses L bootstrapRules text toks ind (.err e toks')) :
    ∃ e', (∃ toks', Parses L syn text toks ind (.err e' toks')) ∧ e'.range.next = e.range.next := by
  obtain ⟨_, bs, e0, hb, hr, -⟩ := C63_returns_only hL hs hN h
  cases e0
  obtain ⟨t1, hp⟩ := hp
  obtain ⟨e1, t2, h2⟩ := (C27_rejects_the_same_partial hL hb (boot_tails hL ind) text toks).1 ⟨e, t1, hp⟩
  have hn := C28_same_error_place hL hb (boot_tails hL ind) hp h2
  obtain ⟨e', hl, h3⟩ := C61_rejects hr ⟨t2, h2⟩
  exact ⟨e', h3, by rw [← hl.1, hn]⟩

/-- C63: the error of `syntax` for a text that is not in the notation is the error of the returned rules,
but for its id, which belongs to the same rule. -/
theorem C63_same_error {L : Lexer} (hL : L.Lawful) (hs : NoSlash L) (hN : ReadsNumbers L) {syn : Syntax}
    (h : SyntaxReturns L selfText (.ok syn)) {text : Str} {e : RErr} {toks : List Tok}
    (hp : Parses L syn text [] Indent.default (.err e toks)) :
    ∃ e', SyntaxReturns L text (.error e') ∧ RErrLike SameRule e' e := by
  obtain ⟨_, bs, e0, hb, hr, -⟩ := C63_returns_only hL hs hN h
  cases e0
  obtain ⟨e', hl, t, h1⟩ := C61_rejects hr.flip ⟨toks, hp⟩
  exact ⟨e', readSyntax_of_err hb h1, RErrLike_flip hl⟩

/-- C63: examples/bootstrap.rs succeeds. The hard-coded rules read the text, the data is converted to
rules without ignoring an item; these rules read the text with the same data, which is
converted to the same rules. -/
theorem C63_bootstrapping {L : Lexer} (hL : L.Lawful) (hs : NoSlash L) (hN : ReadsNumbers L) :
    ∃ rules1 data, Parses L bootstrapRules selfText [] Indent.default (.ok data) ∧
      Converts data [] (some rules1) [] ∧
      Parses L rules1 selfText [] Indent.default (.ok data) ∧
      RenumberedL SameRule bootstrapRules.rules rules1.rules ∧ bootstrapRules.names = rules1.names := by
  obtain ⟨data, hp, hd⟩ := text_writes hL hs (C63_stands_for hL hN)
  obtain ⟨l, hl, hc⟩ := C40_undefined_dropped self_small hd []
  have e : (Doc.read selfDoc.strings selfDoc.nodes).2 = 0 := by decide +kernel
  rw [e] at hl
  cases List.eq_nil_of_length_eq_zero hl
  rw [selfRead_eq] at hc
  obtain ⟨h1, h2⟩ := C63_hard_coded
  exact ⟨_, data, hp, hc, (C61_accepts h1 _ _ _).1 hp, h1, h2⟩

/-- There are 23 rules, from `multi_line_comment` to `document`. -/
example : ∃ syn, SyntaxReturns stdLexer selfText (.ok syn) ∧ syn.rules.length = 23 ∧
    syn.names.head? = some c!"multi_line_comment" ∧ syn.names.getLast? = some c!"document" := by
  obtain ⟨syn, bs, h, hb, hr, hn⟩ := C63_fixpoint stdLexer_lawful stdLexer_noSlash std_readsNumbers
  obtain ⟨h1, h2, -⟩ := C31_result_ok hb boot_ok
  refine ⟨syn, h, ?_, ?_, ?_⟩
  · rw [← hr.length, h2]; decide
  · rw [← hn, h1]; decide
  · rw [← hn, h1]; decide

end Verif.Props
