import Verif.Proofs.BootLow
import Verif.Props.OptFewer
import Verif.Props.Notation
/-
C89: how long it takes to read a rule file.
C90: rule files that are accepted and take exponential time.
-/
namespace Verif.Props
open Spec

section
variable {L : Lexer}

/-- What is proved about `document` holds for parsing with rules that end with it. -/
theorem document_costs {syn : Syntax} (hd : syn.rules.getLast? = some Boot.document) {Q : Quo}
    (hQ : ∀ n, Below L syn.rules n Boot.document Q) {text : Str} {toks : List Tok} {ind : Indent}
    (hp : ¬ Parses L syn text toks ind .panic) {m d : Nat} (h : Costs L syn text toks ind m d) : ∃ o, Q text o m := by
  obtain ⟨n, c, hc, hne, rfl, rfl⟩ := h
  obtain ⟨o, st, ho⟩ := first_returns hp hc hne
  have hc' : c = ⟨Boot.document, ⟨toks, ind⟩, toks.length, Pos.new text 0⟩ := by
    rw [firstCall, hd] at hc
    exact (Option.some.inj hc).symm
  subst hc'
  exact ⟨_, hQ (n + 1) n (Nat.lt_succ_self n) _ _ _ _ _ ho⟩

/-- Parsing with the hard-coded rules comes to an end, and without a panic. -/
theorem boot_returns (hL : L.Lawful) (text : Str) (toks : List Tok) (ind : Indent) :
    (∃ o, Parses L bootstrapRules text toks ind o) ∧ ¬ Parses L bootstrapRules text toks ind .panic := by
  rcases C46_bootstrap_returns hL text toks ind with ⟨_, h⟩ | ⟨_, _, h⟩ <;>
    exact ⟨⟨_, h⟩, fun hp => by cases parses_det hp h⟩

theorem boot_document : bootstrapRules.rules.getLast? = some Boot.document := rfl

theorem boot_hasComments : HasComments bootstrapRules.rules := ⟨rfl, rfl, rfl, _, _, _, rfl⟩

/-- The optimized rules. -/
structure BootOpt (L : Lexer) (syn' : Syntax) : Prop where
  document : syn'.rules.getLast? = some Boot.document
  comments : HasComments syn'.rules
  returns : ∀ text toks ind, (∃ o, Parses L syn' text toks ind o) ∧ ¬ Parses L syn' text toks ind .panic

set_option maxRecDepth 10000 in
/-- Optimizing leaves the rules for comments and the last rule as they are. -/
theorem bootOpt (hL : L.Lawful) {syn' : Syntax} (h : Optimizes bootstrapRules syn') : BootOpt L syn' := by
  have key : ∃ s, Optimizes bootstrapRules s ∧ s.rules.getLast? = some Boot.document ∧ HasComments s.rules :=
    ⟨_, ⟨50, rfl⟩, rfl, rfl, rfl, rfl, _, _, _, rfl⟩
  obtain ⟨s, h1, h2, h3⟩ := key
  cases C31_deterministic h h1
  refine ⟨h2, h3, fun text toks ind => ?_⟩
  rcases C46_bootstrap_returns hL text toks ind with ⟨_, h'⟩ | ⟨_, _, h'⟩
  · have := (C27_accepts_the_same_partial hL h (boot_tails hL ind) text toks _).1 h'
    exact ⟨⟨_, this⟩, fun hp => by cases parses_det hp this⟩
  · obtain ⟨_, _, this⟩ := (C27_rejects_the_same_partial hL h (boot_tails hL ind) text toks).1 ⟨_, _, h'⟩
    exact ⟨⟨_, this⟩, fun hp => by cases parses_det hp this⟩

/-! ### C89 -/

/-- C89: the number of calls it takes to parse with the hard-coded rules is at most proportional to the length of the text, times
two for each comment that is opened and not closed. -/
theorem C89_bound (hL : L.Lawful) (hX : L.Exact) {text : Str} {toks : List Tok} {ind : Indent} {m d : Nat}
    (h : Costs L bootstrapRules text toks ind m d) : m ≤ 2030 * ((text.length + 1) * 2 ^ unclosed text) := by
  obtain ⟨_, h⟩ := document_costs boot_document (fun n => by rw [Boot.rules_eq]; exact below_document hL hX) (boot_returns hL _ _ _).2 h
  have : 0 < (text.length + 1) * 2 ^ unclosed text := Nat.mul_pos (by omega) (Nat.two_pow_pos _)
  simp only [pot] at h
  omega

/-- No comment is left open. -/
theorem unclosed_zero {s : Str} : unclosed s = 0 ↔ ∀ u, u <:+ s → ¬ Unclosed u := by
  induction s with
  | nil =>
    refine ⟨fun _ u hu => ?_, fun _ => rfl⟩
    rw [List.suffix_nil.1 hu]
    rintro ⟨t, h, _⟩
    cases h
  | cons x s ih =>
    constructor
    · intro h u hu
      by_cases hx : Unclosed (x :: s)
      · rw [unclosed, if_pos hx] at h
        omega
      · rw [unclosed, if_neg hx, Nat.zero_add, ih] at h
        rcases List.suffix_cons_iff.1 hu with rfl | hu
        · exact hx
        · exact h u hu
    · intro h
      rw [unclosed, if_neg (h _ (List.suffix_refl _)), Nat.zero_add, ih]
      exact fun u hu => h u (hu.trans (List.suffix_cons x s))

/-- C89: if every comment that is opened anywhere is closed, reading the rule file takes linear time. -/
theorem C89_closed (hL : L.Lawful) (hX : L.Exact) {text : Str} (hc : ∀ u, u <:+ text → ¬ Unclosed u) {toks : List Tok}
    {ind : Indent} {m d : Nat} (h : Costs L bootstrapRules text toks ind m d) : m ≤ 2030 * (text.length + 1) := by
  have := C89_bound hL hX h
  rwa [unclosed_zero.2 hc, Nat.pow_zero, Nat.mul_one] at this

/-- C89: in particular if there is no `/*` in it. -/
theorem C89_no_comment (hL : L.Lawful) (hX : L.Exact) {text : Str} (hc : ¬ c!"/*" <:+: text) {toks : List Tok}
    {ind : Indent} {m d : Nat} (h : Costs L bootstrapRules text toks ind m d) : m ≤ 2030 * (text.length + 1) := by
  refine C89_closed hL hX (fun u hu hn => hc ?_) h
  obtain ⟨t, rfl, -⟩ := hn
  exact List.IsInfix.trans ⟨[], t, rfl⟩ hu.isInfix

/-- C89: the optimized rules make no more calls. -/
theorem C89_optimized (hL : L.Lawful) (hX : L.Exact) {syn' : Syntax} (ho : Optimizes bootstrapRules syn') {text : Str}
    {toks : List Tok} {ind : Indent} {m d : Nat} (h : Costs L syn' text toks ind m d) :
    m ≤ 2030 * ((text.length + 1) * 2 ^ unclosed text) := by
  obtain ⟨h1, h2⟩ := boot_returns hL text toks ind
  obtain ⟨m', d', h'⟩ := (C70_cost_defined (by rw [Boot.rules_eq]; simp [Boot.refs])).1 h1
  exact Nat.le_trans (C88_bootstrap hL ho h2 h' h).1 (C89_bound hL hX h')

/-- The factor is needed. -/
theorem lower {syn : Syntax} (hL : L.Lawful) (hX : L.Exact) (hd : syn.rules.getLast? = some Boot.document)
    (hr : HasComments syn.rules) {text : Str} (hu : Unclosed text) (hs : ¬ c!"*/*" <:+: text) {toks : List Tok} {ind : Indent}
    (hp : ¬ Parses L syn text toks ind .panic) {m d : Nat} (h : Costs L syn text toks ind m d) : 2 ^ unclosed text ≤ m := by
  obtain ⟨_, h⟩ := document_costs hd (fun n => below_docLow hL hX hr) hp h
  obtain ⟨t, ht, -⟩ := id hu
  rcases h hs t ht with ⟨_, h⟩ | ⟨hn, _⟩
  · exact h
  · exact absurd hu hn

/-- C89: the factor is needed: a rule file that begins with a comment that is not closed takes that many calls at least,
unless a `*/*` stands in it. -/
theorem C89_lower (hL : L.Lawful) (hX : L.Exact) {text : Str} (hu : Unclosed text) (hs : ¬ c!"*/*" <:+: text)
    {toks : List Tok} {ind : Indent} {m d : Nat} (h : Costs L bootstrapRules text toks ind m d) :
    2 ^ unclosed text ≤ m :=
  lower hL hX boot_document boot_hasComments hu hs (boot_returns hL _ _ _).2 h

/-- C89: with the optimized rules as well. -/
theorem C89_optimized_lower (hL : L.Lawful) (hX : L.Exact) {syn' : Syntax} (ho : Optimizes bootstrapRules syn') {text : Str}
    (hu : Unclosed text) (hs : ¬ c!"*/*" <:+: text) {toks : List Tok} {ind : Indent} {m d : Nat}
    (h : Costs L syn' text toks ind m d) : 2 ^ unclosed text ≤ m :=
  have hb := bootOpt hL ho
  lower hL hX hb.document hb.comments hu hs (hb.returns _ _ _).2 h

/-- The rule files of C71 are such. -/
theorem openings_unclosed {ws : List Str} (hf : ∀ w ∈ ws, Filler w) :
    CommentBody (openings ws) [] ∧ unclosed (openings ws) = ws.length := by
  induction ws with
  | nil => exact ⟨.nil, rfl⟩
  | cons w ws ih =>
    obtain ⟨h1, h2⟩ := ih fun v hv => hf v (by simp [hv])
    obtain ⟨hne, hw⟩ := hf w (by simp)
    have key : ∀ v : Str, (∀ c ∈ v, c ≠ '*' ∧ c ≠ '/') →
        CommentBody (v ++ openings ws) [] ∧ unclosed (v ++ openings ws) = ws.length := by
      intro v hv
      induction v with
      | nil => exact ⟨h1, h2⟩
      | cons c v ih =>
        obtain ⟨h3, h4⟩ := ih fun x hx => hv x (by simp [hx])
        obtain ⟨h5, h6⟩ := hv c (by simp)
        refine ⟨.plain h5 h6 h3, ?_⟩
        rw [List.cons_append, unclosed, if_neg, h4, Nat.zero_add]
        rintro ⟨t, h, -⟩
        exact h6 (List.cons.inj h).1
    obtain ⟨h3, h4⟩ := key w hw
    have h5 : CommentBody ('*' :: (w ++ openings ws)) [] := by
      refine .star ?_ h3
      cases w with
      | nil => exact absurd rfl hne
      | cons c w =>
        intro h
        exact (hw c (by simp)).2 (by simpa using h)
    refine ⟨.unclosed (t := w ++ openings ws) (by simp) h3 h5, ?_⟩
    rw [openings, unclosed, if_pos ⟨_, rfl, h3⟩, unclosed, if_neg, h4, List.length_cons]
    · omega
    · rintro ⟨t, h, -⟩
      cases h

/-- C89: for the rule files of C71, the number of calls is exponential in the number of openings, and no worse. -/
theorem C89_openings (hL : L.Lawful) (hX : L.Exact) {ws : List Str} (hw : ws ≠ []) (hf : ∀ w ∈ ws, Filler w)
    {toks : List Tok} {ind : Indent} {m d : Nat} (h : Costs L bootstrapRules (openings ws) toks ind m d) :
    2 ^ ws.length ≤ m ∧ m ≤ 2030 * (((openings ws).length + 1) * 2 ^ ws.length) := by
  have := C89_bound hL hX h
  rw [(openings_unclosed hf).2] at this
  exact ⟨C71_bootstrap_exponential hL hw hf h, this⟩

/-! ### C90 -/

/-- `/* /*/`, on a line of its own, `k` times. -/
def shut : Nat → Str
  | 0 => []
  | k + 1 => c!"/* /*/\n" ++ shut k

theorem shut_length (k : Nat) : (shut k).length = 7 * k := by
  induction k with
  | zero => rfl
  | succ k ih => rw [shut, List.length_append, ih]; simp; omega

theorem shut_body (k : Nat) : CommentBody (shut k) [] ∧ CommentBody ('/' :: '\n' :: shut k) [] := by
  induction k with
  | zero => exact ⟨.nil, .slash (by simp) (.plain (by decide) (by decide) .nil)⟩
  | succ k ih =>
    have h : CommentBody (shut (k + 1)) [] :=
      CommentBody.nested (b := [' ', '/']) (b' := '\n' :: shut k)
        (.plain (by decide) (by decide) (.unclosed (t := '/' :: '\n' :: shut k) (by simp) ih.2 .nil))
        (.plain (by decide) (by decide) ih.1)
    exact ⟨h, .slash (by simp) (.plain (by decide) (by decide) h)⟩

/-- Each line is a comment. -/
theorem shut_comment (k : Nat) : IsComment c!"/* /*/" ('\n' :: shut k) :=
  IsComment.block (b := [' ', '/']) (.plain (by decide) (by decide)
    (.unclosed (t := '/' :: '\n' :: shut k) (by simp) (shut_body k).2 .nil))

theorem shut_entries (k : Nat) : EntriesText L true (List.replicate k .comment) (shut k) ∧
    EntriesText L false (List.replicate k .comment) ('\n' :: shut k) := by
  induction k with
  | zero => exact ⟨by intro c hc; simp [shut] at hc, by intro c hc; simp [shut] at hc; subst hc; decide⟩
  | succ k ih =>
    exact ⟨⟨[], c!"/* /*/", '\n' :: shut k, by simp [Space], by simp, shut_comment k, ih.2, rfl⟩,
      ⟨['\n'], c!"/* /*/", '\n' :: shut k, by intro c hc; simp at hc; subst hc; decide, by simp, shut_comment k, ih.2, rfl⟩⟩

/-- The rule file is in the notation. -/
theorem shut_text (k : Nat) : Doc.Text L ⟨[], []⟩ (shut k) := by
  have h : ∀ k, stringsIn (List.replicate k .comment) = [] := by
    intro k
    induction k with
    | zero => rfl
    | succ k ih => simpa [List.replicate_succ, stringsIn] using ih
  refine ⟨List.replicate k .comment, [], ?_, by simp, by simpa using (shut_entries k).1, (h k).symm, rfl⟩
  intro e he
  rw [List.eq_of_mem_replicate he]
  rfl

theorem shut_unclosed (k : Nat) : unclosed (shut k) = k ∧ unclosed ((shut (k + 1)).drop 4) = k := by
  have other : ∀ {x : Char} {s : Str}, x ≠ '/' → unclosed (x :: s) = unclosed s := by
    intro x s hx
    rw [unclosed, if_neg, Nat.zero_add]
    rintro ⟨t, h, -⟩
    cases h
    exact hx rfl
  have slash : ∀ {x : Char} {s : Str}, x ≠ '*' → unclosed ('/' :: x :: s) = unclosed (x :: s) := by
    intro x s hx
    rw [unclosed, if_neg, Nat.zero_add]
    rintro ⟨t, h, -⟩
    cases h
    exact hx rfl
  have tail : ∀ k, unclosed ((shut (k + 1)).drop 4) = unclosed (shut k) := by
    intro k
    show unclosed ('*' :: '/' :: '\n' :: shut k) = _
    rw [other (by decide), slash (by decide), other (by decide)]
  have all : ∀ k, unclosed (shut k) = k := by
    intro k
    induction k with
    | zero => rfl
    | succ k ih =>
      show unclosed ('/' :: '*' :: ' ' :: '/' :: (shut (k + 1)).drop 4) = _
      rw [unclosed, if_neg, other (by decide), other (by decide), unclosed, if_pos, tail, ih]
      · omega
      · exact ⟨_, rfl, (shut_body k).2⟩
      · exact closed_not_unclosed stdLexer (b := [' ', '/']) (rest := '\n' :: shut k)
          (.plain (by decide) (by decide) (.unclosed (t := '/' :: '\n' :: shut k) (by simp) (shut_body k).2 .nil))
  exact ⟨all k, by rw [tail, all]⟩

theorem shut_sober (k : Nat) : Sober (shut k) := by
  induction k with
  | zero => intro h; simp [shut] at h
  | succ k ih =>
    intro h
    apply ih
    obtain ⟨u, h, hp⟩ := List.infix_iff_prefix_suffix.1 h
    have : ∀ {x : Char} {s : Str}, u <:+ x :: s → x ≠ '*' → u <:+ s := by
      intro x s h1 h2
      rcases List.suffix_cons_iff.1 h1 with rfl | h1
      · obtain ⟨t, ht⟩ := h
        cases ht
        exact absurd rfl h2
      · exact h1
    have h1 := List.suffix_cons_iff.1 (this (show u <:+ '/' :: '*' :: ' ' :: '/' :: '*' :: '/' :: '\n' :: shut k from hp) (by decide))
    rcases h1 with rfl | h1
    · obtain ⟨t, ht⟩ := h
      cases ht
    have h1 := List.suffix_cons_iff.1 (this (this h1 (by decide)) (by decide))
    rcases h1 with rfl | h1
    · obtain ⟨t, ht⟩ := h
      cases ht
    exact List.infix_iff_prefix_suffix.2 ⟨u, h, this (this h1 (by decide)) (by decide)⟩

theorem shut_costs {syn : Syntax} (hL : L.Lawful) (hX : L.Exact) (hd : syn.rules.getLast? = some Boot.document)
    (hr : HasComments syn.rules) {k : Nat} {toks : List Tok} {ind : Indent} (hp : ¬ Parses L syn (shut (k + 1)) toks ind .panic)
    {m d : Nat} (h : Costs L syn (shut (k + 1)) toks ind m d) : 2 ^ k ≤ m := by
  obtain ⟨_, h⟩ := document_costs hd (fun n => below_docLow hL hX hr) hp h
  rcases h (shut_sober _) _ rfl with ⟨_, h⟩ | ⟨_, j, h1, h2⟩
  · rw [(shut_unclosed _).1, Nat.pow_succ] at h
    omega
  · have h3 : unclosed ((shut (k + 1)).drop j) ≤ k := by
      have := unclosed_drop (j - 4) ((shut (k + 1)).drop 4)
      rwa [List.drop_drop, (shut_unclosed k).2, show 4 + (j - 4) = j by omega] at this
    have h4 := Nat.pow_le_pow_right (n := 2) (by decide) h3
    rw [(shut_unclosed _).1, Nat.pow_succ] at h2
    omega

/-- C90: the hard-coded rules, optimized or not, accept rule files that contain nothing but closed comments and define nothing, for
which `parse` comes back after exponentially many calls only. -/
theorem C90_accepted_exponential (hL : L.Lawful) (hX : L.Exact) (k : Nat) :
    ∃ text : Str, text.length = 7 * (k + 1) ∧ Doc.Text L ⟨[], []⟩ text ∧
      ∀ syn, syn = bootstrapRules ∨ Optimizes bootstrapRules syn →
        (∃ toks, Parses L syn text [] Indent.default (.ok toks)) ∧
        ∃ m d, Costs L syn text [] Indent.default m d ∧ 2 ^ k ≤ m := by
  obtain ⟨toks, hp⟩ := (C53_accepted_iff hL hX).2 ⟨_, shut_text (L := L) (k + 1)⟩
  refine ⟨shut (k + 1), shut_length _, shut_text _, fun syn hs => ?_⟩
  have key : syn.rules.getLast? = some Boot.document ∧ HasComments syn.rules ∧ Parses L syn (shut (k + 1)) [] Indent.default (.ok toks) := by
    rcases hs with rfl | hs
    · exact ⟨boot_document, boot_hasComments, hp⟩
    · have hb := bootOpt hL hs
      exact ⟨hb.document, hb.comments, (C27_accepts_the_same_partial hL hs (boot_tails hL _) _ _ _).1 hp⟩
  obtain ⟨hd, hc, hp⟩ := key
  obtain ⟨m, d, h⟩ := (C70_cost_defined (by intro h; rw [h] at hd; cases hd)).1 ⟨_, hp⟩
  exact ⟨⟨toks, hp⟩, m, d, h, shut_costs hL hX hd hc (fun hp' => by cases parses_det hp hp') h⟩

/-- C90: so `syntax` returns, and the rules it returns are none. -/
theorem C90_syntax (hL : L.Lawful) (hX : L.Exact) (k : Nat) : SyntaxReturns L (shut k) (.ok ⟨[], []⟩) :=
  (C53_returns_iff hL hX _).2 ⟨_, [], shut_text k, by rintro ⟨_⟩, rfl, 1, rfl⟩

end

/-! ### Examples -/

/-- A rule without a comment: 77 calls; with a comment before it, 100. -/
example : Costs stdLexer bootstrapRules c!"0 a = \"b\"" [] Indent.default 77 13 :=
  ⟨40, ⟨Boot.document, ⟨[], Indent.default⟩, 0, ⟨c!"0 a = \"b\"", 0⟩⟩, rfl, by rw [Boot.rules_eq]; decide +kernel,
    by rw [Boot.rules_eq]; decide +kernel, by rw [Boot.rules_eq]; decide +kernel⟩
example : Costs stdLexer bootstrapRules c!"/* a */\n0 a = \"b\"" [] Indent.default 100 14 :=
  ⟨40, ⟨Boot.document, ⟨[], Indent.default⟩, 0, ⟨c!"/* a */\n0 a = \"b\"", 0⟩⟩, rfl, by rw [Boot.rules_eq]; decide +kernel,
    by rw [Boot.rules_eq]; decide +kernel, by rw [Boot.rules_eq]; decide +kernel⟩

/-- No bound that does not count the unclosed comments holds: one line `/* /*/` takes 62 calls, two take 176, three 402. -/
example : Costs stdLexer bootstrapRules c!"/* /*/\n" [] Indent.default 62 19 :=
  ⟨40, ⟨Boot.document, ⟨[], Indent.default⟩, 0, ⟨c!"/* /*/\n", 0⟩⟩, rfl, by rw [Boot.rules_eq]; decide +kernel,
    by rw [Boot.rules_eq]; decide +kernel, by rw [Boot.rules_eq]; decide +kernel⟩
example : Costs stdLexer bootstrapRules c!"/* /*/\n/* /*/\n" [] Indent.default 176 29 :=
  ⟨40, ⟨Boot.document, ⟨[], Indent.default⟩, 0, ⟨c!"/* /*/\n/* /*/\n", 0⟩⟩, rfl, by rw [Boot.rules_eq]; decide +kernel,
    by rw [Boot.rules_eq]; decide +kernel, by rw [Boot.rules_eq]; decide +kernel⟩
example : Costs stdLexer bootstrapRules c!"/* /*/\n/* /*/\n/* /*/\n" [] Indent.default 402 39 :=
  ⟨50, ⟨Boot.document, ⟨[], Indent.default⟩, 0, ⟨c!"/* /*/\n/* /*/\n/* /*/\n", 0⟩⟩, rfl, by rw [Boot.rules_eq]; decide +kernel,
    by rw [Boot.rules_eq]; decide +kernel, by rw [Boot.rules_eq]; decide +kernel⟩

/-- A rule file of 287 characters that is accepted after more than a million million calls. -/
example : ∃ text : Str, text.length = 287 ∧ (∃ toks, Parses stdLexer bootstrapRules text [] Indent.default (.ok toks)) ∧
    ∃ m d, Costs stdLexer bootstrapRules text [] Indent.default m d ∧ 1000000000000 ≤ m := by
  obtain ⟨text, h1, -, h2⟩ := C90_accepted_exponential stdLexer_lawful stdLexer_exact 40
  obtain ⟨h2, m, d, h3, h4⟩ := h2 _ (.inl rfl)
  exact ⟨text, h1, h2, m, d, h3, Nat.le_trans (by decide) h4⟩

/-- A rule file of a million characters without a comment takes less than 2031 million calls. -/
example {text : Str} (hl : text.length = 1000000) (hc : ¬ c!"/*" <:+: text) {m d : Nat}
    (h : Costs stdLexer bootstrapRules text [] Indent.default m d) : m < 2031000000 := by
  have := C89_no_comment stdLexer_lawful stdLexer_exact hc h
  omega

end Verif.Props
