import Verif.Proofs.BootEmits
import Verif.Proofs.DescRead
import Verif.Proofs.Emits
import Verif.Proofs.OptPanic
import Verif.Proofs.SyntaxFuel
import Verif.Props.ConvertRead
import Verif.Props.ErrorHandler
import Verif.Props.Optimize
import Verif.Spec.Syntax
/-
Properties of `syntax`: C41, C46, C51, C52.
-/
namespace Verif.Props
open Verif Verif.Spec

/-! ### C51 -/

/-- The data of an accepted text is data of the last rule, whatever the text. -/
theorem C51_shape_of_data {L : Lexer} {syn : Syntax} {text toks ind toks'}
    (h : Parses L syn text toks ind (.ok toks')) :
    ∃ r ts, syn.rules.getLast? = some r ∧ toks' = toks ++ ts ∧ Emits syn.rules r (ts.map (·.data)) := by
  obtain ⟨r, n, ts, j, tr, hr, h1, _, h2⟩ := parses_ok_run.1 h
  exact ⟨r, ts, hr, h2, run_emits h1 n ts rfl⟩

/-! ### C46: the hard-coded rules -/

theorem boot_wellFormed : wellFormed bootstrapRules.rules = true := by decide +kernel

theorem boot_ok : SyntaxOk bootstrapRules := C26_check_sound (by decide +kernel)

theorem boot_noIndent : NoIndent bootstrapRules.rules := by
  have h : bootstrapRules.rules.all (fun r => r.all fun | .lines _ i _ => !i | _ => true) = true := by
    decide +kernel
  intro q hq r id ho
  have := Rule.all_occurs ho (List.all_eq_true.1 h q hq)
  simp at this

theorem boot_tails {L : Lexer} (hL : L.Lawful) (ind : Indent) :
    TailsRefused (envOf L bootstrapRules.rules ind) :=
  C27_check_sound hL ind (n := 50) boot_wellFormed boot_ok (by decide +kernel)

theorem boot_optimizes : ∃ bs, Optimizes bootstrapRules bs :=
  C31_returns_well_formed (L := stdLexer) (ind := Indent.default)
    (C25_check_sound stdLexer_lawful _ boot_wellFormed) boot_ok

/-- Every text is accepted or rejected by the hard-coded rules; they do not run for ever. -/
theorem C46_bootstrap_returns {L : Lexer} (hL : L.Lawful) (text : Str) (toks : List Tok) (ind : Indent) :
    (∃ toks', Parses L bootstrapRules text toks ind (.ok toks')) ∨
      ∃ e toks', Parses L bootstrapRules text toks ind (.err e toks') :=
  C25_returns hL (C25_check_sound hL ind boot_wellFormed) boot_ok text (.inr boot_noIndent) toks

/-- An accepted text stands for a document, and one that can be written. -/
theorem C46_accepted_is_document {L : Lexer} {text : Str} {ind : Indent} {toks : List Tok}
    (h : Parses L bootstrapRules text [] ind (.ok toks)) :
    ∃ doc : Doc, doc.Written ∧ toks.map (·.data) = doc.data := by
  obtain ⟨r, ts, hr, rfl, he⟩ := C51_shape_of_data h
  have hr' : bootstrapRules.rules.getLast? = some Boot.document := rfl
  rw [hr'] at hr
  cases hr
  exact Boot.document_emits he

/-! ### C46: `syntax` -/

/-- `syntax` has one outcome. -/
theorem C46_one_outcome {L : Lexer} {text : Str} :
    (∀ r r', SyntaxReturns L text r → SyntaxReturns L text r' → r = r') ∧
    (∀ r, SyntaxReturns L text r → ¬ SyntaxPanics L text) ∧
    (∀ r, SyntaxReturns L text r → ¬ SyntaxRuns L text) ∧
    (SyntaxPanics L text → ¬ SyntaxRuns L text) ∧
    ((∃ r, SyntaxReturns L text r) ∨ SyntaxPanics L text ∨ SyntaxRuns L text) := by
  have key : ∀ {n m}, readSyntax L n text ≠ .timeout → readSyntax L m text ≠ .timeout →
      readSyntax L n text = readSyntax L m text := by
    intro n m hn hm
    rcases Nat.le_total n m with h | h
    · exact ((readSyntax_le h text).eq hn).symm
    · exact (readSyntax_le h text).eq hm
  refine ⟨?_, ?_, ?_, ?_, ?_⟩
  · rintro r r' ⟨n, h⟩ ⟨m, h'⟩
    have := key (n := n) (m := m) (by simp [h]) (by simp [h'])
    rw [h, h'] at this
    exact Comp.ok.inj this
  · rintro r ⟨n, h⟩ ⟨m, h'⟩
    have := key (n := n) (m := m) (by simp [h]) (by simp [h'])
    rw [h, h'] at this
    cases this
  · rintro r ⟨n, h⟩ h'
    rw [h' n] at h
    cases h
  · rintro ⟨n, h⟩ h'
    rw [h' n] at h
    cases h
  · by_cases hr : ∃ r, SyntaxReturns L text r
    · exact .inl hr
    · by_cases hp : SyntaxPanics L text
      · exact .inr (.inl hp)
      · refine .inr (.inr fun n => ?_)
        cases h : readSyntax L n text with
        | ok r => exact absurd ⟨r, n, h⟩ hr
        | panic => exact absurd ⟨n, h⟩ hp
        | timeout => rfl

theorem parses_det {L : Lexer} {syn text toks ind o o'} (h : Parses L syn text toks ind o)
    (h' : Parses L syn text toks ind o') : o = o' := by
  obtain ⟨ho, n, rfl⟩ := h
  obtain ⟨ho', m, rfl⟩ := h'
  rcases Nat.le_total n m with h | h
  · exact (parse_mono h ho).symm
  · exact parse_mono h ho'

theorem readSyntax_of_err {L : Lexer} {text : Str} {bs e toks} (hb : Optimizes bootstrapRules bs)
    (h : Parses L bs text [] Indent.default (.err e toks)) : SyntaxReturns L text (.error e) := by
  obtain ⟨n, hb⟩ := hb
  obtain ⟨_, m, h⟩ := h
  refine ⟨max n m, Comp.bind_ok.2 ⟨bs, optimize_mono (Nat.le_max_left n m) hb, ?_⟩⟩
  have : parse L (max n m) bs text [] = .err e toks := by
    rw [parse, parse_mono (Nat.le_max_right n m) (by rw [h]; simp), h]
  rw [this]
  rfl

theorem readSyntax_of_ok {L : Lexer} {text : Str} {bs toks o ig} (hb : Optimizes bootstrapRules bs)
    (h : Parses L bs text [] Indent.default (.ok toks)) (hc : Converts toks [] o ig) :
    (o = none → SyntaxReturns L text (.error conversionError)) ∧
    (∀ res syn, o = some res → Optimizes res syn → SyntaxReturns L text (.ok syn)) ∧
    (∀ res, o = some res → SyntaxOk res → ¬ SyntaxPanics L text) := by
  obtain ⟨n, hb⟩ := hb
  obtain ⟨_, m, h⟩ := h
  obtain ⟨k, hc⟩ := hc
  have h1 : ∀ N, n ≤ N → bootstrapRules.optimize N = .ok bs := fun N hN => optimize_mono hN hb
  have h2 : ∀ N, m ≤ N → parse L N bs text [] = .ok toks := fun N hN => by
    rw [parse, parse_mono hN (by rw [h]; simp), h]
  have h3 : ∀ N, k ≤ N → convert N toks [] = .ok (o, ig) := fun N hN => by
    rw [convert_mono hN (by rw [hc]; simp), hc]
  refine ⟨?_, ?_, ?_⟩
  · rintro rfl
    refine ⟨max n (max m k), Comp.bind_ok.2 ⟨bs, h1 _ (by omega), ?_⟩⟩
    rw [h2 _ (by omega)]
    exact Comp.bind_ok.2 ⟨_, h3 _ (by omega), rfl⟩
  · rintro res syn rfl ⟨l, ho⟩
    refine ⟨max n (max m (max k l)), Comp.bind_ok.2 ⟨bs, h1 _ (by omega), ?_⟩⟩
    rw [h2 _ (by omega)]
    exact Comp.bind_ok.2 ⟨_, h3 _ (by omega), Comp.bind_ok.2 ⟨syn, optimize_mono (by omega) ho, rfl⟩⟩
  · rintro res rfl hs ⟨l, hp⟩
    have hp : readSyntax L (max n (max m (max k l))) text = .panic := by
      rw [(readSyntax_le (n := l) (by omega) text).eq (by rw [hp]; simp), hp]
    revert hp
    unfold readSyntax
    rw [h1 _ (by omega)]
    show (match parse L _ bs text [] with | .timeout => _ | .panic => _ | .err e _ => _ | .ok tokens => _) ≠ _
    rw [h2 _ (by omega)]
    show (convert _ toks [] >>= _) ≠ _
    rw [h3 _ (by omega)]
    show (res.optimize _ >>= _) ≠ _
    exact Comp.bind_ne_panic (optimize_ne_panic hs _) fun _ => by simp [pure]

/-- A rejected text is an error, at the place where the rules reject it. -/
theorem C46_rejected {L : Lexer} (hL : L.Lawful) {text : Str} {e toks}
    (h : Parses L bootstrapRules text [] Indent.default (.err e toks)) :
    ∃ e', SyntaxReturns L text (.error e') ∧ e'.range.next = e.range.next := by
  obtain ⟨bs, hb⟩ := boot_optimizes
  obtain ⟨e', toks', h'⟩ := (C27_rejects_the_same_partial hL hb (boot_tails hL _) text []).1 ⟨e, toks, h⟩
  exact ⟨e', readSyntax_of_err hb h', (C28_same_error_place hL hb (boot_tails hL _) h h').symm⟩

theorem syntaxOf_resolved {w : Bool} {s : List (Str × Str)} {ns : List (F64 × Str × Desc)} {rs : List (Str × Rule)}
    (hw : w = true → ∀ n ∈ ns, n.2.2.Written) (h : (Doc.read s ns).1 = some rs) :
    ∀ r ∈ (syntaxOf rs).rules, Rule.all (resolved w (syntaxOf rs).rules.length) r = true := by
  intro r hr
  obtain ⟨x, hx, rfl⟩ := List.mem_map.1 hr
  have := updateRefs_resolved (names := rs.map (·.1)) x.2 (Doc.read_plain s w hw h x hx)
  simpa [syntaxOf] using this

theorem syntaxOf_ok {s : List (Str × Str)} {ns : List (F64 × Str × Desc)} {rs : List (Str × Rule)}
    (h : (Doc.read s ns).1 = some rs) : SyntaxOk (syntaxOf rs) := by
  intro r hr x hx
  exact resolved_indexOk (Rule.all_occurs hx (syntaxOf_resolved (w := false) (by simp) h r hr))

theorem converts_doc {doc : Doc} (ht : ¬ doc.Overflows) {toks : List Tok} (hd : toks.map (·.data) = doc.data) :
    ∃ ig, Converts toks [] ((Doc.read doc.strings doc.nodes).1.map syntaxOf) ig := by
  obtain ⟨l, _, h⟩ := C40_undefined_dropped ht hd []
  exact ⟨_, h⟩

/-- Ids are only too large in a node with a number near `2 ^ 64 / 1000` or more. -/
theorem C46_overflow_large {doc : Doc} (h : doc.Overflows) : doc.TooLarge := by
  obtain ⟨x, hx, h⟩ := h.exists
  have h1 := Desc.read_id_le doc.strings x.2.2 (x.1.toUsize * 1000)
  exact ⟨x, hx, Nat.le_trans h h1⟩

/-- `syntax` panics on a text that stands for a document with too large ids. -/
theorem writes_panics {L : Lexer} (hL : L.Lawful) {text : Str} {doc : Doc} (h : Writes L text doc)
    (ht : doc.Overflows) : SyntaxPanics L text := by
  obtain ⟨toks, h, hd⟩ := h
  obtain ⟨bs, n, hb⟩ := boot_optimizes
  obtain ⟨_, m, h'⟩ := (C27_accepts_the_same_partial hL ⟨n, hb⟩ (boot_tails hL _) text [] toks).1 h
  obtain ⟨k, hc⟩ := C40_overflow ht hd []
  refine ⟨max n (max m k), ?_⟩
  have h2 : parse L (max n (max m k)) bs text [] = .ok toks := by
    rw [parse, parse_mono (n := m) (by omega) (by rw [h']; simp), h']
  have h3 : convert (max n (max m k)) toks [] = .panic := by
    rw [convert_mono (n := k) (by omega) (by rw [hc]; simp), hc]
  unfold readSyntax
  rw [optimize_mono (n := n) (by omega) hb]
  show (match parse L _ bs text [] with | .timeout => _ | .panic => _ | .err e _ => _ | .ok tokens => _) = _
  rw [h2]
  show (convert _ toks [] >>= _) = _
  rw [h3]
  rfl

/-- What `syntax` gives for a text that stands for a document: what the document means, optimized,
or an error if it means nothing because a string is undefined. -/
theorem C46_meaning {L : Lexer} (hL : L.Lawful) {text : Str} {doc : Doc} (h : Writes L text doc)
    (ht : ¬ doc.Overflows) (r : Except RErr Syntax) :
    SyntaxReturns L text r ↔
      match (Doc.read doc.strings doc.nodes).1 with
      | none => r = .error ⟨⟨0, 0⟩, .conversion c!"Bootstrapping rules are incorrect"⟩
      | some rs => ∃ syn, Optimizes (syntaxOf rs) syn ∧ r = .ok syn := by
  obtain ⟨toks, h, hd⟩ := h
  obtain ⟨bs, hb⟩ := boot_optimizes
  have h' := (C27_accepts_the_same_partial hL hb (boot_tails hL _) text [] toks).1 h
  obtain ⟨ig, hc⟩ := converts_doc ht hd
  obtain ⟨h1, h2, -⟩ := readSyntax_of_ok hb h' hc
  constructor
  · intro hr
    split
    · rename_i e
      exact C46_one_outcome.1 _ _ hr (h1 (by rw [e]; rfl))
    · rename_i rs e
      obtain ⟨n, hr⟩ := hr
      obtain ⟨bs', hb1, hr⟩ := Comp.bind_ok.1 hr
      cases C31_deterministic hb ⟨n, hb1⟩
      cases hp : parse L n bs text [] with
      | timeout => rw [hp] at hr; cases hr
      | panic => rw [hp] at hr; cases hr
      | err e' _ =>
        have := parses_det h' ⟨by simp, n, hp⟩
        cases this
      | ok toks' =>
        have := parses_det h' ⟨by simp, n, hp⟩
        cases this
        rw [hp] at hr
        obtain ⟨⟨o, ig'⟩, hc1, hr⟩ := Comp.bind_ok.1 hr
        obtain ⟨rfl, _⟩ := C37_one_outcome.1 _ _ _ _ hc ⟨n, hc1⟩
        rw [e] at hr
        obtain ⟨syn, ho, hr⟩ := Comp.bind_ok.1 hr
        exact ⟨syn, ⟨n, ho⟩, (Comp.pure_ok.1 hr).symm⟩
  · intro hr
    split at hr
    · rename_i e
      rw [hr]
      exact h1 (by rw [e]; rfl)
    · rename_i rs e
      obtain ⟨syn, ho, rfl⟩ := hr
      exact h2 _ syn (by rw [e]; rfl) ho

/-- `unique_byte` calls itself without end on a part of a rule. -/
def LeftRecursive (syn : Syntax) : Prop :=
  ∃ x, Part syn.rules x ∧ Relation.TransGen (ByteCall syn.rules) x x

/-- `syntax` returns for every text, except when the text stands for a document with a left
recursive rule, or with too large ids. -/
theorem C46_returns {L : Lexer} (hL : L.Lawful) (text : Str) :
    (∃ r, SyntaxReturns L text r) ∨
    ∃ doc, Writes L text doc ∧ doc.Written ∧ (doc.Overflows ∨
      ∃ rs, (Doc.read doc.strings doc.nodes).1 = some rs ∧ LeftRecursive (syntaxOf rs)) := by
  rcases C46_bootstrap_returns hL text [] Indent.default with ⟨toks, h⟩ | ⟨e, toks, h⟩
  · obtain ⟨doc, hw, hd⟩ := C46_accepted_is_document h
    by_cases ht : doc.Overflows
    · exact .inr ⟨doc, ⟨toks, h, hd⟩, hw, .inl ht⟩
    · have hm := C46_meaning hL ⟨toks, h, hd⟩ ht
      cases e : (Doc.read doc.strings doc.nodes).1 with
      | none =>
        rw [e] at hm
        exact .inl ⟨_, (hm _).2 rfl⟩
      | some rs =>
        rw [e] at hm
        by_cases hl : LeftRecursive (syntaxOf rs)
        · exact .inr ⟨doc, ⟨toks, h, hd⟩, hw, .inr ⟨rs, e, hl⟩⟩
        · obtain ⟨syn, ho⟩ := C31_returns (syn := syntaxOf rs) (fun x hx hc => hl ⟨x, hx, hc⟩) (syntaxOf_ok e)
          exact .inl ⟨_, (hm _).2 ⟨syn, ho, rfl⟩⟩
  · obtain ⟨e', h', _⟩ := C46_rejected hL h
    exact .inl ⟨_, h'⟩

theorem writes_no_panic {L : Lexer} (hL : L.Lawful) {text : Str} {doc : Doc} (h : Writes L text doc)
    (ht : ¬ doc.Overflows) : ¬ SyntaxPanics L text := by
  obtain ⟨toks, h', hd⟩ := h
  obtain ⟨bs, hb⟩ := boot_optimizes
  have h'' := (C27_accepts_the_same_partial hL hb (boot_tails hL _) text [] toks).1 h'
  obtain ⟨ig, hc⟩ := converts_doc ht hd
  obtain ⟨h1, -, h3⟩ := readSyntax_of_ok hb h'' hc
  cases e : (Doc.read doc.strings doc.nodes).1 with
  | none => exact C46_one_outcome.2.1 _ (h1 (by rw [e]; rfl))
  | some rs => exact h3 (syntaxOf rs) (by rw [e]; rfl) (syntaxOf_ok e)

/-- `syntax` panics exactly on the texts that stand for a document with too large ids. -/
theorem C46_panics_iff {L : Lexer} (hL : L.Lawful) {text : Str} :
    SyntaxPanics L text ↔ ∃ doc, Writes L text doc ∧ doc.Written ∧ doc.Overflows := by
  constructor
  · intro h
    rcases C46_bootstrap_returns hL text [] Indent.default with ⟨toks, h'⟩ | ⟨e, toks, h'⟩
    · obtain ⟨doc, hw, hd⟩ := C46_accepted_is_document h'
      exact ⟨doc, ⟨toks, h', hd⟩, hw, Classical.byContradiction fun ht =>
        writes_no_panic hL ⟨toks, h', hd⟩ ht h⟩
    · obtain ⟨e', h', _⟩ := C46_rejected hL h'
      exact absurd h (C46_one_outcome.2.1 _ h')
  · rintro ⟨doc, h, _, ho⟩
    exact writes_panics hL h ho

/-- In particular not without a number near `2 ^ 64 / 1000` or more. -/
theorem C46_no_panic {L : Lexer} (hL : L.Lawful) {text : Str} (h : SyntaxPanics L text) :
    ∃ doc, Writes L text doc ∧ doc.Written ∧ doc.TooLarge := by
  obtain ⟨doc, h1, h2, h3⟩ := (C46_panics_iff hL).1 h
  exact ⟨doc, h1, h2, C46_overflow_large h3⟩

/-- `18446744073709552 a = "x"`: the number times 1000 is less than `2 ^ 64 + 1000`. -/
theorem exPanics : SyntaxPanics stdLexer c!"18446744073709552 a = \"x\"" := by
  let doc : Doc := ⟨[], [(⟨0x4350624DD2F1A9FC⟩, c!"a", .tag none (.value c!"x") none none)]⟩
  refine writes_panics stdLexer_lawful (doc := doc) ?_ (by decide +kernel)
  have h : (match parse stdLexer 200 bootstrapRules c!"18446744073709552 a = \"x\"" [] with
      | .ok toks => decide (toks.map (·.data) = doc.data)
      | _ => false) = true := by decide +kernel
  split at h
  · rename_i toks e
    exact ⟨toks, ⟨by simp, 200, e⟩, of_decide_eq_true h⟩
  · cases h

/-- A text on which `syntax` runs for ever. -/
theorem exRuns : SyntaxRuns stdLexer c!"0 a = [a \"x\"]\n1 b = {a \"y\"}\n" := by
  let doc : Doc := ⟨[], [
    (⟨0⟩, c!"a", .sequence [.reference c!"a" none, .tag none (.value c!"x") none none]),
    (⟨0x3FF0000000000000⟩, c!"b", .select [.reference c!"a" none, .tag none (.value c!"y") none none])]⟩
  have hw : Writes stdLexer c!"0 a = [a \"x\"]\n1 b = {a \"y\"}\n" doc := by
    have h : (match parse stdLexer 200 bootstrapRules c!"0 a = [a \"x\"]\n1 b = {a \"y\"}\n" [] with
        | .ok toks => decide (toks.map (·.data) = doc.data)
        | _ => false) = true := by decide +kernel
    split at h
    · rename_i toks e
      exact ⟨toks, ⟨by simp, 200, e⟩, of_decide_eq_true h⟩
    · cases h
  have ht : ¬ doc.Overflows := by decide +kernel
  rcases C46_one_outcome (L := stdLexer) (text := c!"0 a = [a \"x\"]\n1 b = {a \"y\"}\n") |>.2.2.2.2 with ⟨r, h⟩ | h | h
  · have e₀ : (⟨0⟩ : F64).toUsize = 0 := by decide +kernel
    have e₁ : (⟨0x3FF0000000000000⟩ : F64).toUsize = 1 := by decide +kernel
    have h := (C46_meaning stdLexer_lawful hw ht r).1 h
    simp only [doc, Doc.read, e₀, e₁] at h
    obtain ⟨syn, ho, -⟩ := h
    refine absurd ⟨syn, ho⟩ (C31_optimize_runs_for_ever (S := fun r =>
      r = .node c!"a" none (some 0) 1 ∨ r = .node c!"a" none (some 0) 1001 ∨
      r = .sequence [.node c!"a" none (some 0) 1, .tag c!"x" false false none 2] 3) ?_
      (r := .node c!"a" none (some 0) 1001) (.inr (.inl rfl))
      (rs := [.tag c!"y" false false none 1002]) (id := 1003) (.tail _ (.head _)))
    rintro r (rfl | rfl | rfl)
    · exact ⟨_, .inr (.inr rfl), .node rfl⟩
    · exact ⟨_, .inr (.inr rfl), .node rfl⟩
    · exact ⟨_, .inl rfl, .sequence⟩
  · exact absurd h (writes_no_panic stdLexer_lawful hw ht)
  · exact h

/-- An error other than that of the conversion is the error of parsing. -/
theorem C46_error {L : Lexer} (hL : L.Lawful) {text : Str} {e : RErr}
    (h : SyntaxReturns L text (.error e)) :
    (∃ e' toks, Parses L bootstrapRules text [] Indent.default (.err e' toks) ∧ e.range.next = e'.range.next) ∨
    (∃ doc, Writes L text doc ∧ doc.Written) ∧
      e = ⟨⟨0, 0⟩, .conversion c!"Bootstrapping rules are incorrect"⟩ := by
  rcases C46_bootstrap_returns hL text [] Indent.default with ⟨toks, h'⟩ | ⟨e', toks, h'⟩
  · obtain ⟨doc, hw, hd⟩ := C46_accepted_is_document h'
    refine .inr ⟨⟨doc, ⟨toks, h', hd⟩, hw⟩, ?_⟩
    obtain ⟨bs, hb⟩ := boot_optimizes
    have h'' := (C27_accepts_the_same_partial hL hb (boot_tails hL _) text [] toks).1 h'
    obtain ⟨n, hr⟩ := h
    obtain ⟨bs', hb1, hr⟩ := Comp.bind_ok.1 hr
    cases C31_deterministic hb ⟨n, hb1⟩
    cases hp : parse L n bs text [] with
    | timeout => rw [hp] at hr; cases hr
    | panic => rw [hp] at hr; cases hr
    | err e' _ =>
      have := parses_det h'' ⟨by simp, n, hp⟩
      cases this
    | ok toks' =>
      rw [hp] at hr
      obtain ⟨⟨o, ig'⟩, hc1, hr⟩ := Comp.bind_ok.1 hr
      cases o with
      | none => cases Comp.pure_ok.1 hr; rfl
      | some res =>
        obtain ⟨syn, ho, hr⟩ := Comp.bind_ok.1 hr
        cases Comp.pure_ok.1 hr
  · obtain ⟨e'', h1, h2⟩ := C46_rejected hL h'
    cases C46_one_outcome.1 _ _ h h1
    exact .inl ⟨e', toks, h', h2⟩

/-- What is read is the optimization of what the document means. -/
theorem C46_result {L : Lexer} (hL : L.Lawful) {text : Str} {syn : Syntax} (h : SyntaxReturns L text (.ok syn)) :
    ∃ doc, Writes L text doc ∧ doc.Written ∧ ¬ doc.Overflows ∧
      ∃ rs, (Doc.read doc.strings doc.nodes).1 = some rs ∧ Optimizes (syntaxOf rs) syn := by
  rcases C46_bootstrap_returns hL text [] Indent.default with ⟨toks, h'⟩ | ⟨e', toks, h'⟩
  · obtain ⟨doc, hw, hd⟩ := C46_accepted_is_document h'
    have ht : ¬ doc.Overflows := fun ht =>
      C46_one_outcome.2.1 _ h (writes_panics hL ⟨toks, h', hd⟩ ht)
    refine ⟨doc, ⟨toks, h', hd⟩, hw, ht, ?_⟩
    have := (C46_meaning hL ⟨toks, h', hd⟩ ht _).1 h
    split at this
    · cases this
    · rename_i rs e
      obtain ⟨syn', ho, hs⟩ := this
      cases hs
      exact ⟨rs, e, ho⟩
  · obtain ⟨e'', h1, h2⟩ := C46_rejected hL h'
    cases C46_one_outcome.1 _ _ h h1

/-- A text, and what is read from it. -/
def exText : Str := c!"_x: \"y\"\n1 item = .s!(\",\" .t?:_x)\n2 document = [.w? ?item .w?]\n"

def exDocument : Doc :=
  ⟨[(c!"x", c!"y")], [
    (⟨0x3FF0000000000000⟩, c!"item",
      .separatedBy (some false) none (.tag none (.value c!",") none none) (.text (some true) (some (.ref c!"x")))),
    (⟨0x4000000000000000⟩, c!"document",
      .sequence [.whitespace true, .optional (.reference c!"item" none), .whitespace true])]⟩

theorem exText_writes : Writes stdLexer exText exDocument := by
  have h : (match parse stdLexer 200 bootstrapRules exText [] with
      | .ok toks => decide (toks.map (·.data) = exDocument.data)
      | _ => false) = true := by decide +kernel
  split at h
  · rename_i toks e
    exact ⟨toks, ⟨by simp, 200, e⟩, of_decide_eq_true h⟩
  · cases h

theorem exDocument_fits : ¬ exDocument.Overflows := by decide +kernel

example : SyntaxReturns stdLexer exText (.ok ⟨[
    .separateBy (.text true (some c!"y") 1002) (.tag c!"," false false none 1001) false true 1003,
    .sequence [.whitespace true 2001, .optional (.node c!"item" none (some 0) 2002) 2003, .whitespace true 2004] 2005],
    [c!"item", c!"document"]⟩) := by
  have e₁ : (⟨0x3FF0000000000000⟩ : F64).toUsize = 1 := by decide +kernel
  have e₂ : (⟨0x4000000000000000⟩ : F64).toUsize = 2 := by decide +kernel
  refine (C46_meaning stdLexer_lawful exText_writes exDocument_fits _).2 ?_
  simp only [exDocument, Doc.read, e₁, e₂]
  exact ⟨_, ⟨5, rfl⟩, rfl⟩

/-- The indices of the syntax that is read are in range: it cannot make the parser panic. -/
theorem C46_result_ok {L : Lexer} (hL : L.Lawful) {text : Str} {syn : Syntax}
    (h : SyntaxReturns L text (.ok syn)) : SyntaxOk syn := by
  obtain ⟨doc, _, _, _, rs, h2, h3⟩ := C46_result hL h
  exact (C31_result_ok h3 (syntaxOf_ok h2)).2.2

/-! ### C41 -/

/-- Every list in a syntax read from text allows a trailing separator, so that the dot in `.s?.(`
has no effect; README.md:74 and src/lib.rs:76 say that without it a trailing separator is not
allowed. -/
theorem C41_trailing_refuted {L : Lexer} (hL : L.Lawful) {text : Str} {syn : Syntax}
    (h : SyntaxReturns L text (.ok syn)) {q r b : Rule} {o t id} (hq : q ∈ syn.rules)
    (ho : Occurs (.separateBy r b o t id) q) : t = true := by
  obtain ⟨doc, _, hw, _, rs, h2, n, h3⟩ := C46_result hL h
  obtain ⟨rules, h4, h5⟩ := Comp.bind_ok.1 h3
  cases h5
  have hsim : SimL (syntaxOf rs).rules n (fun _ => True) (syntaxOf rs).rules rules :=
    opt_simL (syntaxOf rs).rules (by simp) (by rw [optimizeRules_eq]; exact h4)
  have h6 : Rule.allL trails (syntaxOf rs).rules = true := Rule.allL_iff.2 fun r hr =>
    Rule.all_imp (fun _ => resolved_trails) r (syntaxOf_resolved (w := true) (fun _ => hw) h2 r hr)
  have h7 := Rule.all_occurs ho (Rule.allL_iff.1 (simL_trails hsim h6) q hq)
  exact h7

/-- A list without the dot, and a trailing separator that is accepted. -/
def exList : Str := c!"0 a = .s!(\",\" \"x\")"

example : (match readSyntax stdLexer 200 exList with
    | .ok (.ok syn) => parse stdLexer 100 syn c!"x,x," []
    | _ => .timeout) = .ok [] := by decide +kernel

/-! ### C52 -/

/-- `syntax_errstr` returns the syntax, or the report of the error. -/
theorem C52_errstr {L : Lexer} {E : ErrText} {text : Str} {r : Except Str Syntax} :
    ErrstrReturns L E text r ↔
      (∃ syn, SyntaxReturns L text (.ok syn) ∧ r = .ok syn) ∨
      ∃ e msg, SyntaxReturns L text (.error e) ∧ reportErr E text e = .ok msg ∧ r = .error msg := by
  constructor
  · rintro ⟨n, h⟩
    obtain ⟨x, h1, h2⟩ := Comp.bind_ok.1 h
    cases x with
    | ok syn => exact .inl ⟨syn, ⟨n, h1⟩, (Comp.pure_ok.1 h2).symm⟩
    | error e =>
      obtain ⟨msg, h3, h4⟩ := Comp.bind_ok.1 h2
      exact .inr ⟨e, msg, ⟨n, h1⟩, h3, (Comp.pure_ok.1 h4).symm⟩
  · rintro (⟨syn, ⟨n, h⟩, rfl⟩ | ⟨e, msg, ⟨n, h⟩, h', rfl⟩)
    · exact ⟨n, Comp.bind_ok.2 ⟨_, h, rfl⟩⟩
    · exact ⟨n, Comp.bind_ok.2 ⟨_, h, Comp.bind_ok.2 ⟨msg, h', rfl⟩⟩⟩

/-- It returns whenever `syntax` does, and panics only when `syntax` does. -/
theorem C52_errstr_returns {L : Lexer} (E : ErrText) {text : Str} :
    ((∃ r, SyntaxReturns L text r) ↔ ∃ r, ErrstrReturns L E text r) ∧
    ((∃ n, readSyntaxErrstr L E n text = .panic) → SyntaxPanics L text) := by
  constructor
  · constructor
    · rintro ⟨r, h⟩
      cases r with
      | ok syn => exact ⟨_, C52_errstr.2 (.inl ⟨syn, h, rfl⟩)⟩
      | error e =>
        obtain ⟨msg, hm⟩ := writeErr_ok E (handlerLines text) e
        exact ⟨_, C52_errstr.2 (.inr ⟨e, msg, h, hm, rfl⟩)⟩
    · rintro ⟨r, h⟩
      rcases C52_errstr.1 h with ⟨syn, h, _⟩ | ⟨e, _, h, _⟩ <;> exact ⟨_, h⟩
  · rintro ⟨n, h⟩
    refine ⟨n, Classical.byContradiction fun hp => Comp.bind_ne_panic hp (fun x => ?_) h⟩
    cases x with
    | ok syn => simp [pure]
    | error e =>
      obtain ⟨msg, hm⟩ := writeErr_ok E (handlerLines text) e
      exact Comp.bind_ne_panic (by rw [reportErr, hm]; simp) fun _ => by simp [pure]

/-- `load_syntax_data` reads the syntax, then the data with it; the first error is reported with the
text it is in. -/
theorem C52_load {L : Lexer} {E : ErrText} {s d : Str} {r : Except Str (List Tok)} :
    LoadReturns L E s d r ↔
      (∃ e msg, SyntaxReturns L s (.error e) ∧ reportErr E s e = .ok msg ∧ r = .error msg) ∨
      ∃ syn, SyntaxReturns L s (.ok syn) ∧
        ((∃ toks, Parses L syn d [] Indent.default (.ok toks) ∧ r = .ok toks) ∨
         ∃ e toks msg, Parses L syn d [] Indent.default (.err e toks) ∧ reportErr E d e = .ok msg ∧
           r = .error msg) := by
  constructor
  · rintro ⟨n, h⟩
    obtain ⟨x, h1, h2⟩ := Comp.bind_ok.1 h
    cases x with
    | error e =>
      obtain ⟨msg, h3, h4⟩ := Comp.bind_ok.1 h2
      exact .inl ⟨e, msg, ⟨n, h1⟩, h3, (Comp.pure_ok.1 h4).symm⟩
    | ok syn =>
      refine .inr ⟨syn, ⟨n, h1⟩, ?_⟩
      cases hp : parse L n syn d [] with
      | timeout => simp [hp] at h2
      | panic => simp [hp] at h2
      | ok toks =>
        simp only [hp] at h2
        exact .inl ⟨toks, ⟨by simp, n, hp⟩, (Comp.pure_ok.1 h2).symm⟩
      | err e toks =>
        simp only [hp] at h2
        obtain ⟨msg, h3, h4⟩ := Comp.bind_ok.1 h2
        exact .inr ⟨e, toks, msg, ⟨by simp, n, hp⟩, h3, (Comp.pure_ok.1 h4).symm⟩
  · rintro (⟨e, msg, ⟨n, h⟩, h', rfl⟩ | ⟨syn, ⟨n, h⟩, ⟨toks, ⟨_, m, h1⟩, rfl⟩ | ⟨e, toks, msg, ⟨_, m, h1⟩, h2, rfl⟩⟩)
    · exact ⟨n, Comp.bind_ok.2 ⟨_, h, Comp.bind_ok.2 ⟨msg, h', rfl⟩⟩⟩
    · have e1 := (readSyntax_le (Nat.le_max_left n m) s).eq (by rw [h]; simp)
      have e2 := parse_mono (Nat.le_max_right n m) (by rw [h1]; simp)
      refine ⟨max n m, Comp.bind_ok.2 ⟨_, e1.trans h, ?_⟩⟩
      simp only [parse, e2.trans h1]
      rfl
    · have e1 := (readSyntax_le (Nat.le_max_left n m) s).eq (by rw [h]; simp)
      have e2 := parse_mono (Nat.le_max_right n m) (by rw [h1]; simp)
      refine ⟨max n m, Comp.bind_ok.2 ⟨_, e1.trans h, ?_⟩⟩
      simp only [parse, e2.trans h1]
      exact Comp.bind_ok.2 ⟨msg, h2, rfl⟩

/-- A list of two texts, and an error in each of the files. -/
def loaded : Comp (Except Str (List Tok)) → Option (Str ⊕ List Tok)
  | .ok (.ok toks) => some (.inr toks)
  | .ok (.error msg) => some (.inl msg)
  | _ => none

example : loaded (loadSyntaxData stdLexer exErrText 200 exText c!"\"a\",\"b\"") =
    some (.inr [⟨⟨0, 3⟩, .string c!"y" c!"a"⟩, ⟨⟨4, 3⟩, .string c!"y" c!"b"⟩]) := by decide +kernel
example : loaded (loadSyntaxData stdLexer exErrText 200 exText c!"\"a\", \"b\"") =
    some (.inl c!"Error Expected end\n1,6: \"a\", \"b\"\n1,6:      ^\n") := by decide +kernel
example : loaded (loadSyntaxData stdLexer exErrText 200 c!"1 a = .q" c!"") =
    some (.inl c!"Error #9003, Did not expect: `.`\n1,7: 1 a = .q\n1,7:       ^\n") := by decide +kernel

end Verif.Props
