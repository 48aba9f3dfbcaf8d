import Verif.Proofs.SayAny
import Verif.Props.Notation
/-
C83: what the notation of the meta language can say.
-/
namespace Verif.Props
open Spec

/-- The two syntaxes accept the same texts with the same data, reject the same texts, and run for ever
on the same texts. -/
def SameLanguage (L : Lexer) (syn syn' : Syntax) : Prop :=
  ∀ (ind : Indent) (text : Str) (toks : List Tok),
    (∀ toks', Parses L syn text toks ind (.ok toks') ↔ Parses L syn' text toks ind (.ok toks')) ∧
    ((∃ e toks', Parses L syn text toks ind (.err e toks')) ↔ ∃ e toks', Parses L syn' text toks ind (.err e toks')) ∧
    (ShortFor ind.tabSpaces text → (ParseDiverges L syn text toks ind ↔ ParseDiverges L syn' text toks ind))

/-- They also report the same errors at the same places, but for debug ids. -/
def SameErrors (L : Lexer) (syn syn' : Syntax) : Prop :=
  ∀ (ind : Indent) (text : Str) (toks : List Tok) (e : RErr), (∃ toks', Parses L syn text toks ind (.err e toks')) →
    ∃ e', RErrLike (fun _ _ => True) e e' ∧ ∃ toks', Parses L syn' text toks ind (.err e' toks')

section
variable {L : Lexer}

/-- C83: a text that says rules is read as these rules, optimized, and as nothing else. -/
theorem C83_read (hL : L.Lawful) (hX : L.Exact) {text : Str} {rs : List (Str × Rule)} (h : Says L text rs)
    (r : Except RErr Syntax) : SyntaxReturns L text r ↔ ∃ syn, Optimizes (syntaxOf rs) syn ∧ r = .ok syn := by
  obtain ⟨doc, h1, h2, h3⟩ := h
  have := C49_meaning hL (exact_noSlash hX) h1 h2 r
  rw [h3] at this
  exact this

/-- C83: `syntax` returns nothing but what is said: rules without tables, under names of the notation,
where `not` is not around a token and lists allow a separator at the end; and these optimized. -/
theorem C83_only (hL : L.Lawful) (hX : L.Exact) {text : Str} {syn : Syntax} (h : SyntaxReturns L text (.ok syn)) :
    ∃ rs, Says L text rs ∧ (∀ x ∈ rs, GoodName x.1 ∧ Sayable x.2) ∧ Optimizes (syntaxOf rs) syn := by
  obtain ⟨doc, rs, h1, h2, h3, h4⟩ := (C53_returns_iff hL hX syn).1 h
  have hs : Says L text rs := ⟨doc, h1, h2, h3⟩
  exact ⟨rs, hs, says_sayable hL hs, h4⟩

/-- C83: these rules, and no others, can be said, up to debug ids. -/
theorem C83_exact (hL : L.Lawful) (hz : ReadsZero L) {rs : List (Str × Rule)}
    (hn : ∀ x ∈ rs, (Rule.ids x.2).length < 2 ^ 64) :
    (∃ text rs', Says L text rs' ∧ rs'.map (fun x => (x.1, bare x.2)) = rs.map fun x => (x.1, bare x.2)) ↔
      ∀ x ∈ rs, GoodName x.1 ∧ Sayable x.2 := by
  constructor
  · rintro ⟨text, rs', h, e⟩ x hx
    have hm : (x.1, bare x.2) ∈ rs'.map fun x => (x.1, bare x.2) := by
      rw [e]
      exact List.mem_map.2 ⟨x, hx, rfl⟩
    obtain ⟨y, hy, e'⟩ := List.mem_map.1 hm
    simp only [Prod.mk.injEq] at e'
    obtain ⟨h1, h2⟩ := says_sayable hL h y hy
    exact ⟨e'.1 ▸ h1, sayable_bare e'.2 h2⟩
  · intro h
    obtain ⟨text, rs', h1, h2⟩ := sayable_says hL hz h hn
    exact ⟨text, rs', h1, map_bare_of h2⟩

theorem sameErrors_language {syn syn' : Syntax} (ho : SyntaxOk syn) (ho' : SyntaxOk syn')
    (ha : ∀ (ind : Indent) (text : Str) (toks toks' : List Tok),
      Parses L syn text toks ind (.ok toks') ↔ Parses L syn' text toks ind (.ok toks'))
    (hr : ∀ (ind : Indent) (text : Str) (toks : List Tok),
      (∃ e toks', Parses L syn text toks ind (.err e toks')) ↔ ∃ e toks', Parses L syn' text toks ind (.err e toks')) :
    SameLanguage L syn syn' := by
  intro ind text toks
  refine ⟨ha ind text toks, hr ind text toks, fun hsh => ?_⟩
  rw [diverges_iff ho hsh, diverges_iff ho' hsh]
  simp only [ha, hr]

theorem speakable_index {refs : List Rule} : {r : Rule} → Speakable refs.length r → IndexOk refs r
  | .node _ _ none _, _ => trivial
  | .node _ _ (some _) _, h => h
  | .fastSelect .., h => h.elim
  | .whitespace .., _ => trivial
  | .untilAnyOrWs .., _ => trivial
  | .untilAny .., _ => trivial
  | .tag .., _ => trivial
  | .text .., _ => trivial
  | .number .., _ => trivial
  | .sequence .., _ => trivial
  | .select .., _ => trivial
  | .optional .., _ => trivial
  | .not .., _ => trivial
  | .separateBy .., _ => trivial
  | .lines .., _ => trivial
  | .repeat_ .., _ => trivial

theorem speakable_ok {refs : List Rule} {r : Rule} (h : Speakable refs.length r) (x : Rule) (hx : Occurs x r) :
    IndexOk refs x := by
  induction hx with
  | refl => exact speakable_index h
  | step _ hc ih =>
    refine ih ?_
    have hm : ∀ {rs : List Rule}, SpeakableL refs.length rs → ∀ r ∈ rs, Speakable refs.length r := by
      intro rs h
      induction rs with
      | nil => simp
      | cons r rs ih' => simpa [h.1] using ih' h.2
    cases hc with
    | select hc => exact hm h _ hc
    | fast => exact h.elim
    | sequence hc => exact hm h _ hc
    | item => exact h.1
    | sep => exact h.2.1
    | repeat_ => exact h
    | lines => exact h
    | optional => exact h
    | not => exact h

/-- The rules of a syntax are said, with a rule of one part around each token under `not`. -/
theorem speakable_said (hL : L.Lawful) (hz : ReadsZero L) {rules : List Rule} {names : List Str}
    (hs : ∀ q ∈ rules, Speakable rules.length q) (hn : ∀ q ∈ rules, 2 * (Rule.ids q).length < 2 ^ 64) :
    ∃ text rs, Says L text rs ∧ SameLanguage L ⟨rules, names⟩ (syntaxOf rs) ∧
      SameErrors L ⟨rules, names⟩ (syntaxOf rs) ∧ SameErrors L (syntaxOf rs) ⟨rules, names⟩ := by
  obtain ⟨text, rs, h1, h2⟩ := sayable_says (rs := spoken 0 rules) hL hz
    (by
      intro x hx
      obtain ⟨⟨ix, e1⟩, r, hr, e2⟩ := spoken_mem hx
      rw [e1, e2]
      exact ⟨nameOf_good ix, renamed_sayable r (hs r hr)⟩)
    (by
      intro x hx
      obtain ⟨_, r, hr, e2⟩ := spoken_mem hx
      rw [e2, rename_ids]
      have := wrap_ids r
      have := hn r hr
      omega)
  refine ⟨text, rs, h1, ?_⟩
  have hnames : rs.map (·.1) = namesOf 0 rules.length := by
    rw [map_names h2, spoken_names]
  have h3 : RenumberedL (fun _ _ => True) (rules.map wrap) (syntaxOf rs).rules := by
    have := spoken_resolved hs h2
    rw [← hnames] at this
    exact this
  have h4 : RewriteL TokenSeq rules (rules.map wrap) := by
    have : ∀ rs : List Rule, wrapAll rs = rs.map wrap := by
      intro rs
      induction rs with
      | nil => rfl
      | cons r rs ih => simp [wrapAll, ih]
    rw [← this]
    exact wrapAll_rewrite rules
  let mid : Syntax := ⟨rules.map wrap, names⟩
  have hQ : ∀ {E : Env} r r', TokenSeq r r' → Spec.Same E r r' := by
    rintro E r r' ⟨id, rfl⟩
    exact fun p i o j tr => (C59_sequence_one E r id p i o j tr).symm
  have hQ2 : ∀ {E E' : Env} r r', TokenSeq r r' → Spec.Same E r r' ∧ Spec.Same E' r r' := fun r r' h => ⟨hQ r r' h, hQ r r' h⟩
  have hok : SyntaxOk ⟨rules, names⟩ := fun q hq => speakable_ok (hs q hq)
  have hok1 : SyntaxOk mid := by
    intro q hq
    obtain ⟨r, hr, rfl⟩ := List.mem_map.1 hq
    exact speakable_ok (by simpa [mid] using wrap_speakable r (hs r hr))
  have hok2 : SyntaxOk (syntaxOf rs) := renumber_syntaxOk (syn := mid) h3 hok1
  have e1 : SameErrors L ⟨rules, names⟩ (syntaxOf rs) := by
    intro ind doc toks e he
    exact C61_rejects (syn := mid) h3 ((C60_rejects (syn' := mid) hQ2 h4 doc toks e).1 he)
  have e2 : SameErrors L (syntaxOf rs) ⟨rules, names⟩ := by
    intro ind doc toks e he
    obtain ⟨e', h5, h6⟩ := C61_rejects (syn' := mid) h3.flip he
    exact ⟨e', h5, (C60_rejects (syn' := mid) hQ2 h4 doc toks e').2 h6⟩
  refine ⟨sameErrors_language hok hok2 ?_ ?_, e1, e2⟩
  · intro ind doc toks toks'
    exact (C60_accepts (syn' := mid) hQ2 h4 doc toks toks').trans (C61_accepts (syn := mid) h3 doc toks toks')
  · intro ind doc toks
    constructor
    · rintro ⟨e, he⟩
      obtain ⟨e', -, h6⟩ := e1 ind doc toks e he
      exact ⟨e', h6⟩
    · rintro ⟨e, he⟩
      obtain ⟨e', -, h6⟩ := e2 ind doc toks e he
      exact ⟨e', h6⟩

/-- C83: a syntax without tables and without lists that forbid a separator at the end is said by some
text, up to debug ids: what is read from the text accepts the same with the same data, rejects the same
with the same errors at the same places, and runs for ever on the same. -/
theorem C83_says (hL : L.Lawful) (hz : ReadsZero L) {syn : Syntax} (hs : SyntaxOk syn)
    (ht : ∀ q ∈ syn.rules, Rule.NoTable q)
    (hl : ∀ q ∈ syn.rules, ∀ r b opt id, ¬ Occurs (.separateBy r b opt false id) q)
    (hn : ∀ q ∈ syn.rules, 2 * (Rule.ids q).length < 2 ^ 64) :
    ∃ text rs, Says L text rs ∧ SameLanguage L syn (syntaxOf rs) ∧
      SameErrors L syn (syntaxOf rs) ∧ SameErrors L (syntaxOf rs) syn :=
  speakable_said hL hz (fun q hq => speakable_of q (hs q hq) (ht q hq) (hl q hq)) hn

/-- C83: a syntax without tables and without indented lines is said by some text, up to errors: what is
read from the text accepts the same with the same data, rejects the same, and runs for ever on the same. -/
theorem C83_says_flat (hL : L.Lawful) (hz : ReadsZero L) {syn : Syntax} (hs : SyntaxOk syn)
    (ht : ∀ q ∈ syn.rules, Rule.NoTable q) (hi : NoIndent syn.rules)
    (hn : ∀ q ∈ syn.rules, 2 * partsNeeded q < 2 ^ 64) :
    ∃ text rs, Says L text rs ∧ SameLanguage L syn (syntaxOf rs) := by
  have htame : ∀ q ∈ syn.rules, Tame syn.rules.length q := fun q hq => tame_of q (hs q hq) (ht q hq) (hi q hq)
  have htL : TameL syn.rules.length syn.rules := by
    have : ∀ (N : Nat) (rs : List Rule), (∀ q ∈ rs, Tame N q) → TameL N rs := by
      intro N rs
      induction rs with
      | nil => intro _; trivial
      | cons r rs ih => exact fun h => ⟨h r (by simp), ih fun q hq => h q (by simp [hq])⟩
    exact this _ _ htame
  have hmap : ∀ rs : List Rule, unlistAll rs = rs.map unlist := by
    intro rs
    induction rs with
    | nil => rfl
    | cons r rs ih => simp [unlistAll, ih]
  let mid : Syntax := ⟨unlistAll syn.rules, syn.names⟩
  have hlen : mid.rules.length = syn.rules.length := unlistAll_length _
  have hmem : ∀ q ∈ mid.rules, ∃ r ∈ syn.rules, q = unlist r := by
    intro q hq
    change q ∈ unlistAll syn.rules at hq
    rw [hmap] at hq
    obtain ⟨r, hr, rfl⟩ := List.mem_map.1 hq
    exact ⟨r, hr, rfl⟩
  have hmt : ∀ q ∈ mid.rules, Tame mid.rules.length q := by
    intro q hq
    obtain ⟨r, hr, rfl⟩ := hmem q hq
    rw [hlen]
    exact unlist_tame r (htame r hr)
  have hmi : NoIndent mid.rules := fun q hq => tame_flat (hmt q hq)
  have hmo : SyntaxOk mid := fun q hq => tame_ok (hmt q hq)
  obtain ⟨text, rs, h1, h2, -, -⟩ := speakable_said (rules := mid.rules) (names := mid.names) hL hz
    (by
      intro q hq
      obtain ⟨r, hr, rfl⟩ := hmem q hq
      rw [hlen]
      exact unlist_speakable r (htame r hr))
    (by
      intro q hq
      obtain ⟨r, hr, rfl⟩ := hmem q hq
      rw [unlist_ids r (ht r hr)]
      exact hn r hr)
  refine ⟨text, rs, h1, ?_⟩
  have c1 : ChangeL ListLaw syn.rules mid.rules := unlistAll_change _ htL
  have c2 : ChangeL (fun a b => ListLaw b a) mid.rules syn.rules := unlistAll_back _ htL
  have q1 : ∀ {ind : Indent} r r', ListLaw r r' → Implies (envOf L mid.rules ind) r r' :=
    fun r r' h => (listLaw_reads (E := envOf L mid.rules _) hmi h).implies
  have q2 : ∀ {ind : Indent} r r', ListLaw r' r → Implies (envOf L syn.rules ind) r r' :=
    fun r r' h => (listLaw_reads (E := envOf L syn.rules _) hi h).symm.implies
  have hsame : SameLanguage L syn mid := sameErrors_language hs hmo
    (fun ind doc toks toks' => ⟨change_ok (syn' := mid) q1 c1, change_ok (syn := mid) q2 c2⟩)
    (fun ind doc toks => ⟨change_err (syn' := mid) q1 c1, change_err (syn := mid) q2 c2⟩)
  intro ind doc toks
  obtain ⟨a1, a2, a3⟩ := hsame ind doc toks
  obtain ⟨b1, b2, b3⟩ := h2 ind doc toks
  exact ⟨fun toks' => (a1 toks').trans (b1 toks'), a2.trans b2, fun hsh => (a3 hsh).trans (b3 hsh)⟩

end

/-! ### Cases -/

theorem std_readsZero : ReadsZero stdLexer :=
  fun c rest hc => std_isNumber (by decide) (by decide) (by decide +kernel) c rest hc

/-- `not` around a token cannot be said: `!"a"` means a token that must not be there. -/
theorem C83_not_token : ¬ Sayable (.not (.tag c!"a" false false none 1) 2) :=
  fun h => h.2 _ _ _ _ rfl

/-- A list that forbids a separator at the end cannot be said. -/
theorem C83_no_trail (r b : Rule) (opt : Bool) (id : DebugId) : ¬ Sayable (.separateBy r b opt false id) :=
  fun h => by simpa using h.2.2

/-- What the optimizer makes cannot be said. -/
theorem C83_table (tb : UInt8 → UInt8) (rs : List Rule) (tail : Bool) (id : DebugId) :
    ¬ Sayable (.fastSelect tb rs tail id) := fun h => h

/-- Two lists of the same two rules, one of which cannot be said. -/
example : ¬ ∃ text rs', Says stdLexer text rs' ∧
    rs'.map (fun x => (x.1, bare x.2)) = [(c!"doc", .separateBy (.tag c!"a" false false none 0) (.tag c!"," false false none 0) false false 0)] := by
  intro ⟨text, rs', h, e⟩
  have := (C83_exact (rs := [(c!"doc", .separateBy (.tag c!"a" false false none 0) (.tag c!"," false false none 0) false false 0)])
    stdLexer_lawful std_readsZero (by simp [Rule.ids])).1 ⟨text, rs', h, e⟩
  exact C83_no_trail _ _ _ _ (this _ (List.mem_singleton.2 rfl)).2

/-- What can be said although the notation has no short form for it: no alternatives, nothing, a token
that is recorded nowhere although it is inverted. -/
example : ∃ text rs', Says stdLexer text rs' ∧
    rs'.map (fun x => (x.1, bare x.2)) = [(c!"doc", .sequence [.select [] 0, .sequence [] 0, .tag c!"a" false true none 0] 0)] :=
  (C83_exact (rs := [(c!"doc", .sequence [.select [] 0, .sequence [] 0, .tag c!"a" false true none 0] 0)])
    stdLexer_lawful std_readsZero (by simp [Rule.ids, Rule.idsL])).2 (by
      simp only [List.mem_singleton, forall_eq]
      refine ⟨⟨⟨by decide, ?_⟩, by decide⟩, by simp [Sayable, SayableAll]⟩
      intro c hc
      simp only [List.mem_cons, List.not_mem_nil, or_false] at hc
      rcases hc with rfl | rfl | rfl <;> exact ⟨by decide, by decide⟩)

/-- The list of C84 that forbids a separator at the end is said up to errors. -/
example : ∃ text rs, Says stdLexer text rs ∧ SameLanguage stdLexer ⟨[exNoTrail], [c!"doc"]⟩ (syntaxOf rs) :=
  C83_says_flat stdLexer_lawful std_readsZero
    (by
      intro q hq x hx
      simp only [List.mem_singleton] at hq
      subst hq
      cases hx with
      | refl => trivial
      | step hx hc =>
        cases hc <;> cases hx with
        | refl => trivial
        | step hx hc => cases hc)
    (by simp [exNoTrail, Rule.NoTable]) (tags_noIndent _ exNoTrail_flat) (by simp [exNoTrail, partsNeeded])

end Verif.Props
