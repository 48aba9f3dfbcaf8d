import Verif.Props.Parse
/-
What each kind of rule does: C10 - C20.

`Matches`/`Refuses` are calls of `Rule::parse` that return Ok/Err.  The indentation settings are
threaded through, because the code threads them (see C23).
-/
namespace Verif.Props
open Spec

/-- `Rule::parse` returns Ok: `n` characters read, data `ts`, settings `ind'` afterwards. -/
def Matches (L : Lexer) (refs : List Rule) (r : Rule) (p : Pos) (ind : Indent) (n : Nat)
    (ts : List Tok) (ind' : Indent) : Prop := ∃ err, Succeeds L refs r p ind n ts ind' err

/-- `Rule::parse` returns Err. -/
def Refuses (L : Lexer) (refs : List Rule) (r : Rule) (p : Pos) (ind ind' : Indent) : Prop :=
  ∃ e, Fails L refs r p ind e ind'

/-- Every rule of the list is refused, one after the other, at the same position. -/
inductive AllRefuse (L : Lexer) (refs : List Rule) (p : Pos) : List Rule → Indent → Indent → Prop
  | nil {ind} : AllRefuse L refs p [] ind ind
  | cons {r rs ind ind₁ ind₂} (h : Refuses L refs r p ind ind₁) (h' : AllRefuse L refs p rs ind₁ ind₂) :
      AllRefuse L refs p (r :: rs) ind ind₂

/-- The rules of the list match one after the other, each where the previous one stopped; the
lengths add up and the data is concatenated. -/
inductive Chain (L : Lexer) (refs : List Rule) :
    List Rule → Pos → Indent → Nat → List Tok → Indent → Prop
  | nil {p ind} : Chain L refs [] p ind 0 [] ind
  | cons {r rs p ind n ts ind₁ m us ind₂} (h : Matches L refs r p ind n ts ind₁)
      (h' : Chain L refs rs (adv p n) ind₁ m us ind₂) :
      Chain L refs (r :: rs) p ind (n + m) (ts ++ us) ind₂

section
variable {L : Lexer} {refs : List Rule}

theorem matches_iff {r p} {ind ind' : Indent} {n ts} : Matches L refs r p ind n ts ind' ↔
    ∃ j tr, Run (envOf L refs ind) (.rule r) p ind.indent (some (n, ts)) j tr ∧
      ind' = { ind with indent := j } := by
  constructor
  · rintro ⟨err, h⟩
    obtain ⟨j, tr, h, hi, _⟩ := succeeds_iff.1 h
    exact ⟨j, tr, h, hi⟩
  · rintro ⟨j, tr, h, hi⟩
    exact ⟨_, succeeds_iff.2 ⟨j, tr, h, hi, rfl⟩⟩

theorem refuses_iff {r p} {ind ind' : Indent} : Refuses L refs r p ind ind' ↔
    ∃ j tr, Run (envOf L refs ind) (.rule r) p ind.indent none j tr ∧
      ind' = { ind with indent := j } := by
  constructor
  · rintro ⟨err, h⟩
    replace h := fails_iff.1 h
    obtain ⟨j, tr, h, hi, _⟩ := h
    exact ⟨j, tr, h, hi⟩
  · rintro ⟨j, tr, h, hi⟩
    obtain ⟨e, he⟩ := run_none_trace h
    exact ⟨e, fails_iff.2 ⟨j, tr, h, hi, best_iff.1 he⟩⟩

/-- `Run` in terms of `Matches`, for a fixed number of the current indentation. -/
theorem matches_of_run {r p} {ind : Indent} {i n ts j tr}
    (h : Run (envOf L refs ind) (.rule r) p i (some (n, ts)) j tr) :
    Matches L refs r p { ind with indent := i } n ts { ind with indent := j } :=
  matches_iff.2 ⟨j, tr, h, rfl⟩

theorem refuses_of_run {r p} {ind : Indent} {i j tr}
    (h : Run (envOf L refs ind) (.rule r) p i none j tr) :
    Refuses L refs r p { ind with indent := i } { ind with indent := j } :=
  refuses_iff.2 ⟨j, tr, h, rfl⟩

/-- A rule cannot both match and be refused, and it can match in one way only. -/
theorem matches_det {r p ind n ts ind' m us ind''} (h : Matches L refs r p ind n ts ind')
    (h' : Matches L refs r p ind m us ind'') : n = m ∧ ts = us ∧ ind' = ind'' := by
  replace h := matches_iff.1 h
  obtain ⟨j, tr, h, rfl⟩ := h
  replace h' := matches_iff.1 h'
  obtain ⟨j', tr', h', rfl⟩ := h'
  obtain ⟨h1, rfl, _⟩ := h.det h'
  simp at h1
  exact ⟨h1.1, h1.2, rfl⟩

theorem not_matches_of_refuses {r p ind n ts ind' ind''} (h : Refuses L refs r p ind ind'')
    (h' : Matches L refs r p ind n ts ind') : False := by
  replace h := refuses_iff.1 h
  obtain ⟨j, tr, h, rfl⟩ := h
  replace h' := matches_iff.1 h'
  obtain ⟨j', tr', h', rfl⟩ := h'
  simpa using (h.det h').1

/-! ### C10 -/

theorem allRefuse_of_run : ∀ {rs p} {ind : Indent} {i j tr},
    Run (envOf L refs ind) (.sel rs) p i none j tr →
      AllRefuse L refs p rs { ind with indent := i } { ind with indent := j }
  | [], _, _, _, _, _, h => by cases h; exact .nil
  | r :: rs, p, ind, i, j, tr, h => by
    cases h with
    | sel_next h h' => exact .cons (refuses_of_run h) (allRefuse_of_run h')

theorem run_of_allRefuse {rs p ind ind'} (h : AllRefuse L refs p rs ind ind') :
    ∃ j tr, Run (envOf L refs ind) (.sel rs) p ind.indent none j tr ∧
      ind' = { ind with indent := j } := by
  induction h with
  | nil => exact ⟨_, _, .sel_nil, rfl⟩
  | cons h _ ih =>
    replace h := refuses_iff.1 h
    obtain ⟨j, tr, h1, rfl⟩ := h
    obtain ⟨j', tr', h2, rfl⟩ := ih
    exact ⟨j', tr ++ tr', .sel_next h1 h2, rfl⟩

theorem select_run_iff : ∀ {rs p} {ind : Indent} {i n ts j},
    (∃ tr, Run (envOf L refs ind) (.sel rs) p i (some (n, ts)) j tr) ↔
      ∃ pre r post k, rs = pre ++ r :: post ∧
        AllRefuse L refs p pre { ind with indent := i } { ind with indent := k } ∧
        Matches L refs r p { ind with indent := k } n ts { ind with indent := j }
  | [], _, _, _, _, _, _ => by
    constructor
    · rintro ⟨tr, h⟩; cases h
    · rintro ⟨pre, r, post, k, h, _⟩; simp at h
  | r :: rs, p, ind, i, n, ts, j => by
    constructor
    · rintro ⟨tr, h⟩
      cases h with
      | sel_here h => exact ⟨[], r, rs, i, rfl, .nil, matches_of_run h⟩
      | sel_next h h' =>
        obtain ⟨pre, r', post, k, rfl, ha, hm⟩ := select_run_iff.1 ⟨_, h'⟩
        exact ⟨r :: pre, r', post, k, rfl, .cons (refuses_of_run h) ha, hm⟩
    · rintro ⟨pre, r', post, k, he, ha, hm⟩
      cases pre with
      | nil =>
        simp at he
        obtain ⟨rfl, rfl⟩ := he
        generalize hk : ({ ind with indent := k } : Indent) = indk at ha
        generalize hi : ({ ind with indent := i } : Indent) = indi at ha
        cases ha
        rw [← hi] at hk
        simp at hk
        subst hk
        replace hm := matches_iff.1 hm
        obtain ⟨j', tr, h, hj⟩ := hm
        simp at hj
        subst hj
        exact ⟨tr, .sel_here h⟩
      | cons a pre =>
        simp at he
        obtain ⟨rfl, rfl⟩ := he
        generalize hk : ({ ind with indent := k } : Indent) = indk at ha
        generalize hi : ({ ind with indent := i } : Indent) = indi at ha
        cases ha with
        | cons h h' =>
          subst hk hi
          replace h := refuses_iff.1 h
          obtain ⟨j', tr, h, rfl⟩ := h
          obtain ⟨tr', h''⟩ := select_run_iff.2 ⟨pre, r', post, k, rfl, h', hm⟩
          exact ⟨_, .sel_next h h''⟩

/-- A select matches exactly when some alternative matches and all before it are refused; length
and data are those of that alternative. -/
theorem C10_select_matches_iff {args id p ind n ts ind'} :
    Matches L refs (.select args id) p ind n ts ind' ↔
      ∃ pre r post ind₁, args = pre ++ r :: post ∧ AllRefuse L refs p pre ind ind₁ ∧
        Matches L refs r p ind₁ n ts ind' := by
  constructor
  · intro h
    replace h := matches_iff.1 h
    obtain ⟨j, tr, h, rfl⟩ := h
    cases h with
    | select h =>
      obtain ⟨pre, r, post, k, h1, h2, h3⟩ := select_run_iff.1 ⟨tr, h⟩
      exact ⟨pre, r, post, _, h1, h2, h3⟩
  · rintro ⟨pre, r, post, ind₁, rfl, h2, h3⟩
    obtain ⟨k, tr, h4, rfl⟩ := run_of_allRefuse h2
    obtain ⟨j, tr', h5, rfl⟩ := matches_iff.1 h3
    obtain ⟨tr, h⟩ := select_run_iff.2 ⟨pre, r, post, k, rfl, h2, h3⟩
    refine matches_iff.2 ⟨j, tr, ?_, rfl⟩
    cases pre with
    | nil => exact .select h
    | cons a pre => exact .select h

/-- A select is refused exactly when every alternative is. -/
theorem C10_select_refuses_iff {args id p ind ind'} (hne : args ≠ []) :
    Refuses L refs (.select args id) p ind ind' ↔ AllRefuse L refs p args ind ind' := by
  constructor
  · intro h
    replace h := refuses_iff.1 h
    obtain ⟨j, tr, h, rfl⟩ := h
    cases h with
    | select_empty => exact absurd rfl hne
    | select h => exact allRefuse_of_run h
  · intro h
    replace h := run_of_allRefuse h
    obtain ⟨j, tr, h, rfl⟩ := h
    refine refuses_iff.2 ⟨j, tr, ?_, rfl⟩
    cases args with
    | nil => exact absurd rfl hne
    | cons r rs => exact .select h

/-- An empty select is an error at its position, not a crash. -/
theorem C10_select_empty {id p ind} :
    Fails L refs (.select [] id) p ind ⟨⟨p.off, 0⟩, .invalidRule .selectEmpty id⟩ ind :=
  fails_iff.2 ⟨ind.indent, _, .select_empty, rfl, [], [], rfl, by simp, by simp⟩

/-! ### C11 -/

theorem chain_of_run : ∀ {rs p} {ind : Indent} {i n ts j tr},
    Run (envOf L refs ind) (.seq rs) p i (some (n, ts)) j tr →
      Chain L refs rs p { ind with indent := i } n ts { ind with indent := j }
  | [], _, _, _, _, _, _, _, h => by cases h; exact .nil
  | r :: rs, p, ind, i, n, ts, j, tr, h => by
    generalize ho : (some (n, ts) : Outcome) = o at h
    cases h with
    | seq_fail => simp at ho
    | seq_cons h h' =>
      obtain ⟨m, us, rfl, rfl, rfl⟩ := before_some ho.symm
      exact .cons (matches_of_run h) (chain_of_run h')

theorem run_of_chain {rs p ind n ts ind'} (h : Chain L refs rs p ind n ts ind') :
    ∃ j tr, Run (envOf L refs ind) (.seq rs) p ind.indent (some (n, ts)) j tr ∧
      ind' = { ind with indent := j } := by
  induction h with
  | nil => exact ⟨_, _, .seq_nil, rfl⟩
  | cons h _ ih =>
    replace h := matches_iff.1 h
    obtain ⟨j, tr, h, rfl⟩ := h
    obtain ⟨j', tr', h', rfl⟩ := ih
    exact ⟨j', _, .seq_cons h h', rfl⟩

/-- A sequence matches exactly when its rules match one after the other. -/
theorem C11_sequence_matches_iff {args id p ind n ts ind'} :
    Matches L refs (.sequence args id) p ind n ts ind' ↔ Chain L refs args p ind n ts ind' := by
  constructor
  · intro h
    replace h := matches_iff.1 h
    obtain ⟨j, tr, h, rfl⟩ := h
    cases h with
    | sequence h => exact chain_of_run h
  · intro h
    replace h := run_of_chain h
    obtain ⟨j, tr, h, rfl⟩ := h
    exact matches_iff.2 ⟨j, tr, .sequence h, rfl⟩

theorem seqFail_of_run : ∀ {rs p} {ind : Indent} {i j tr},
    Run (envOf L refs ind) (.seq rs) p i none j tr →
      ∃ pre r post n ts ind₁, rs = pre ++ r :: post ∧
        Chain L refs pre p { ind with indent := i } n ts ind₁ ∧
        Refuses L refs r (adv p n) ind₁ { ind with indent := j }
  | [], _, _, _, _, _, h => by cases h
  | r :: rs, p, ind, i, j, tr, h => by
    generalize ho : (none : Outcome) = o at h
    cases h with
    | seq_fail h =>
      exact ⟨[], r, rs, 0, [], _, rfl, .nil, by simpa using refuses_of_run h⟩
    | seq_cons h h' =>
      rename_i n ts _ _ o _
      have : o = none := before_eq_none.1 ho.symm
      subst this
      obtain ⟨pre, r', post, m, us, ind₁, rfl, hc, hf⟩ := seqFail_of_run h'
      exact ⟨r :: pre, r', post, n + m, ts ++ us, ind₁, rfl, .cons (matches_of_run h) hc,
        by simpa [adv_adv] using hf⟩

theorem run_of_seqFail {pre p ind n ts ind₁} (h : Chain L refs pre p ind n ts ind₁) :
    ∀ {r post ind'}, Refuses L refs r (adv p n) ind₁ ind' →
      ∃ j tr, Run (envOf L refs ind) (.seq (pre ++ r :: post)) p ind.indent none j tr ∧
        ind' = { ind with indent := j } := by
  induction h with
  | nil =>
    intro r post ind' h
    replace h := refuses_iff.1 h
    obtain ⟨j, tr, h, rfl⟩ := h
    simp at h
    exact ⟨j, tr, .seq_fail h, rfl⟩
  | cons h _ ih =>
    intro r post ind' hf
    replace h := matches_iff.1 h
    obtain ⟨j, tr, h, rfl⟩ := h
    obtain ⟨j', tr', h', rfl⟩ := ih (post := post) (by simpa [adv_adv] using hf)
    exact ⟨j', _, .seq_cons h h', rfl⟩

/-- A sequence is refused exactly when one of its rules is, after those before it matched. -/
theorem C11_sequence_refuses_iff {args id p ind ind'} :
    Refuses L refs (.sequence args id) p ind ind' ↔
      ∃ pre r post n ts ind₁, args = pre ++ r :: post ∧ Chain L refs pre p ind n ts ind₁ ∧
        Refuses L refs r (adv p n) ind₁ ind' := by
  constructor
  · intro h
    replace h := refuses_iff.1 h
    obtain ⟨j, tr, h, rfl⟩ := h
    cases h with
    | sequence h => exact seqFail_of_run h
  · rintro ⟨pre, r, post, n, ts, ind₁, rfl, hc, hf⟩
    obtain ⟨j, tr, h, rfl⟩ := run_of_seqFail (post := post) hc hf
    exact refuses_iff.2 ⟨j, tr, .sequence h, rfl⟩

/-! ### C12 -/

/-- `?rule` matches what the rule matches, and nothing when the rule is refused. -/
theorem C12_optional_matches_iff {r id p ind n ts ind'} :
    Matches L refs (.optional r id) p ind n ts ind' ↔
      Matches L refs r p ind n ts ind' ∨ (Refuses L refs r p ind ind' ∧ n = 0 ∧ ts = []) := by
  constructor
  · intro h
    replace h := matches_iff.1 h
    obtain ⟨j, tr, h, rfl⟩ := h
    cases h with
    | optional_none h => exact .inr ⟨refuses_of_run h, rfl, rfl⟩
    | optional_some h => exact .inl (matches_of_run h)
  · rintro (h | ⟨h, rfl, rfl⟩)
    · replace h := matches_iff.1 h
      obtain ⟨j, tr, h, rfl⟩ := h
      exact matches_iff.2 ⟨j, tr, .optional_some h, rfl⟩
    · replace h := refuses_iff.1 h
      obtain ⟨j, tr, h, rfl⟩ := h
      exact matches_iff.2 ⟨j, tr, .optional_none h, rfl⟩

/-- `?rule` is never refused. -/
theorem C12_optional_never_fails {r id p ind ind'} : ¬ Refuses L refs (.optional r id) p ind ind' := by
  intro h
  replace h := refuses_iff.1 h
  obtain ⟨j, tr, h, rfl⟩ := h
  cases h

/-! ### C13 -/

/-- `!rule` matches exactly when the rule is refused; it reads nothing and emits nothing. -/
theorem C13_not_matches_iff {r id p ind n ts ind'} :
    Matches L refs (.not r id) p ind n ts ind' ↔
      Refuses L refs r p ind ind' ∧ n = 0 ∧ ts = [] := by
  constructor
  · intro h
    replace h := matches_iff.1 h
    obtain ⟨j, tr, h, rfl⟩ := h
    cases h with
    | not_ok h => exact ⟨refuses_of_run h, rfl, rfl⟩
  · rintro ⟨h, rfl, rfl⟩
    replace h := refuses_iff.1 h
    obtain ⟨j, tr, h, rfl⟩ := h
    exact matches_iff.2 ⟨j, [], .not_ok h, rfl⟩

/-- `!rule` fails exactly when the rule matches, and the error quotes the text read. -/
theorem C13_not_fails_iff {r id p ind e ind'} :
    Fails L refs (.not r id) p ind e ind' ↔
      ∃ n ts, Matches L refs r p ind n ts ind' ∧
        e = ⟨⟨p.off, n⟩, .didNotExpectTag (p.src.take n) id⟩ := by
  constructor
  · intro h
    replace h := fails_iff.1 h
    obtain ⟨j, tr, h, rfl, hr⟩ := h
    cases h with
    | not_fail h => exact ⟨_, _, matches_of_run h, by simpa using reported_mem hr⟩
  · rintro ⟨n, ts, h, rfl⟩
    replace h := matches_iff.1 h
    obtain ⟨j, tr, h, rfl⟩ := h
    exact fails_iff.2 ⟨j, _, .not_fail h, rfl, [], [], rfl, by simp, by simp⟩

/-! ### C14 -/

theorem rep_of_run {r} {ind : Indent} {g p i o j tr} (h : Run (envOf L refs ind) g p i o j tr) :
    g = .rep r → ∃ k n ts ind₁, o = some (n, ts) ∧
      Chain L refs (List.replicate k r) p { ind with indent := i } n ts ind₁ ∧
      Refuses L refs r (adv p n) ind₁ { ind with indent := j } := by
  intro hg
  generalize hE : envOf L refs ind = E at h
  induction h with
  | rep_stop h =>
    cases hg; subst hE
    exact ⟨0, 0, [], _, rfl, .nil, by simpa using refuses_of_run h⟩
  | rep_more h _ _ ih =>
    cases hg; subst hE
    obtain ⟨k, m, us, ind₁, rfl, hc, hf⟩ := ih rfl
    exact ⟨k + 1, _, _, ind₁, rfl, .cons (matches_of_run h) hc, by simpa [adv_adv] using hf⟩
  | _ => cases hg

theorem run_of_rep {r} {ind ind₁ : Indent} : ∀ {k p n ts},
    Chain L refs (List.replicate k r) p ind n ts ind₁ → ∀ {ind'},
    Refuses L refs r (adv p n) ind₁ ind' →
    ∃ j tr, Run (envOf L refs ind) (.rep r) p ind.indent (some (n, ts)) j tr ∧
      ind' = { ind with indent := j } := by
  intro k p n ts h
  generalize hl : List.replicate k r = l at h
  induction h generalizing k with
  | nil =>
    intro ind' hf
    replace hf := refuses_iff.1 hf
    obtain ⟨j, tr, h, rfl⟩ := hf
    simp at h
    exact ⟨j, tr, .rep_stop h, rfl⟩
  | cons h _ ih =>
    intro ind' hf
    cases k with
    | zero => simp at hl
    | succ k =>
      simp only [List.replicate_succ, List.cons.injEq] at hl
      obtain ⟨rfl, hl⟩ := hl
      replace h := matches_iff.1 h
      obtain ⟨j, tr, h, rfl⟩ := h
      obtain ⟨j', tr', h', rfl⟩ := ih hl (by simpa [adv_adv] using hf)
      exact ⟨j', _, .rep_more h h', rfl⟩

/-- `.r?` matches exactly a number of copies of the rule followed by a refusal. -/
theorem C14_repeat_optional_matches_iff {r id p ind n ts ind'} :
    Matches L refs (.repeat_ r true id) p ind n ts ind' ↔
      ∃ k ind₁, Chain L refs (List.replicate k r) p ind n ts ind₁ ∧
        Refuses L refs r (adv p n) ind₁ ind' := by
  constructor
  · intro h
    replace h := matches_iff.1 h
    obtain ⟨j, tr, h, rfl⟩ := h
    cases h with
    | repeat_opt h =>
      obtain ⟨k, n', ts', ind₁, he, hc, hf⟩ := rep_of_run h rfl
      cases he
      exact ⟨k, ind₁, hc, hf⟩
  · rintro ⟨k, ind₁, hc, hf⟩
    obtain ⟨j, tr, h, rfl⟩ := run_of_rep hc hf
    exact matches_iff.2 ⟨j, tr, .repeat_opt h, rfl⟩

/-- `.r?` is never refused. -/
theorem C14_repeat_optional_never_fails {r id p ind ind'} :
    ¬ Refuses L refs (.repeat_ r true id) p ind ind' := by
  intro h
  replace h := refuses_iff.1 h
  obtain ⟨j, tr, h, rfl⟩ := h
  cases h with
  | repeat_opt h =>
    obtain ⟨k, n', ts', ind₁, he, _⟩ := rep_of_run h rfl
    cases he

/-- `.r!` matches exactly one or more copies of the rule followed by a refusal. -/
theorem C14_repeat_matches_iff {r id p ind n ts ind'} :
    Matches L refs (.repeat_ r false id) p ind n ts ind' ↔
      ∃ k ind₁, 1 ≤ k ∧ Chain L refs (List.replicate k r) p ind n ts ind₁ ∧
        Refuses L refs r (adv p n) ind₁ ind' := by
  constructor
  · intro h
    replace h := matches_iff.1 h
    obtain ⟨j, tr, h, rfl⟩ := h
    generalize ho : (some (n, ts) : Outcome) = o at h
    cases h with
    | repeat_fail => simp at ho
    | repeat_ok h h' =>
      obtain ⟨k, n', ts', ind₁, rfl, hc, hf⟩ := rep_of_run h' rfl
      obtain ⟨m, us, he, rfl, rfl⟩ := before_some ho.symm
      cases he
      exact ⟨k + 1, ind₁, by omega, .cons (matches_of_run h) hc, by simpa [adv_adv] using hf⟩
  · rintro ⟨k, ind₁, hk, hc, hf⟩
    obtain ⟨k, rfl⟩ : ∃ k', k = k' + 1 := ⟨k - 1, by omega⟩
    rw [List.replicate_succ] at hc
    cases hc with
    | cons h h' =>
      replace h := matches_iff.1 h
      obtain ⟨j, tr, h, rfl⟩ := h
      obtain ⟨j', tr', h', rfl⟩ := run_of_rep h' (by simpa [adv_adv] using hf)
      exact matches_iff.2 ⟨j', _, .repeat_ok h h', rfl⟩

/-- `.r!` is refused exactly when the rule is refused at the start. -/
theorem C14_repeat_refuses_iff {r id p ind ind'} :
    Refuses L refs (.repeat_ r false id) p ind ind' ↔ Refuses L refs r p ind ind' := by
  constructor
  · intro h
    replace h := refuses_iff.1 h
    obtain ⟨j, tr, h, rfl⟩ := h
    generalize ho : (none : Outcome) = o at h
    cases h with
    | repeat_fail h => exact refuses_of_run h
    | repeat_ok h h' =>
      obtain ⟨k, n', ts', ind₁, rfl, _⟩ := rep_of_run h' rfl
      simp [before] at ho
  · intro h
    replace h := refuses_iff.1 h
    obtain ⟨j, tr, h, rfl⟩ := h
    exact refuses_iff.2 ⟨j, tr, .repeat_fail h, rfl⟩

/-! ### C15 -/

/-- `k` times separator and item. -/
def pairs (b r : Rule) : Nat → List Rule
  | 0 => []
  | k + 1 => b :: r :: pairs b r k

theorem sepTail_of_run {r b trail} {ind : Indent} {g p i o j tr}
    (h : Run (envOf L refs ind) g p i o j tr) : g = .sepTail r b trail →
      match o with
      | some (n, ts) => ∃ k ind₁,
          (Chain L refs (pairs b r k) p { ind with indent := i } n ts ind₁ ∧
            Refuses L refs b (adv p n) ind₁ { ind with indent := j }) ∨
          (trail = true ∧ Chain L refs (pairs b r k ++ [b]) p { ind with indent := i } n ts ind₁ ∧
            Refuses L refs r (adv p n) ind₁ { ind with indent := j })
      | none => ∃ k n ts ind₁, trail = false ∧
          Chain L refs (pairs b r k ++ [b]) p { ind with indent := i } n ts ind₁ ∧
          Refuses L refs r (adv p n) ind₁ { ind with indent := j } := by
  intro hg
  induction h with
  | sep_stop h =>
    cases hg
    exact ⟨0, _, .inl ⟨.nil, by simpa using refuses_of_run h⟩⟩
  | sep_trail h h' =>
    cases hg
    refine ⟨0, _, .inr ⟨rfl, ?_, refuses_of_run h'⟩⟩
    have := Chain.cons (matches_of_run h) (.nil (refs := refs))
    simpa [pairs] using this
  | sep_noTrail h h' =>
    cases hg
    rename_i m us _ _ _ _ _ _
    refine ⟨0, m, us, _, rfl, ?_, refuses_of_run h'⟩
    have := Chain.cons (matches_of_run h) (.nil (refs := refs))
    simpa [pairs] using this
  | sep_more h h' _ _ _ ih =>
    cases hg
    rename_i p i m us j tr n ts k tr' o l tr'' _ _ _
    have ih := ih rfl
    cases o with
    | none =>
      obtain ⟨c, n', ts', ind₁, ht, hc, hf⟩ := ih
      refine ⟨c + 1, m + (n + n'), us ++ (ts ++ ts'), ind₁, ht, ?_, ?_⟩
      · exact .cons (matches_of_run h) (.cons (matches_of_run h') (by simpa [adv_adv] using hc))
      · simpa [adv_adv, Nat.add_assoc] using hf
    | some x =>
      obtain ⟨n', ts'⟩ := x
      obtain ⟨c, ind₁, ih⟩ := ih
      simp only [before]
      refine ⟨c + 1, ind₁, ?_⟩
      rcases ih with ⟨hc, hf⟩ | ⟨ht, hc, hf⟩
      · left
        refine ⟨?_, by simpa [adv_adv, Nat.add_assoc] using hf⟩
        have := Chain.cons (matches_of_run h)
          (.cons (matches_of_run h') (by simpa [adv_adv] using hc))
        simpa [pairs, Nat.add_assoc] using this
      · right
        refine ⟨ht, ?_, by simpa [adv_adv, Nat.add_assoc] using hf⟩
        have := Chain.cons (matches_of_run h)
          (.cons (matches_of_run h') (by simpa [adv_adv] using hc))
        simpa [pairs, Nat.add_assoc] using this
  | _ => cases hg

theorem chain_append {a b p ind n ts ind₁ m us ind₂} (h : Chain L refs a p ind n ts ind₁)
    (h' : Chain L refs b (adv p n) ind₁ m us ind₂) :
    Chain L refs (a ++ b) p ind (n + m) (ts ++ us) ind₂ := by
  induction h with
  | nil => simpa using h'
  | cons h _ ih =>
    have := Chain.cons h (ih (by simpa [adv_adv] using h'))
    simpa [Nat.add_assoc] using this

theorem chain_split {a b p ind n ts ind₂} (h : Chain L refs (a ++ b) p ind n ts ind₂) :
    ∃ n₁ ts₁ ind₁ n₂ ts₂, Chain L refs a p ind n₁ ts₁ ind₁ ∧
      Chain L refs b (adv p n₁) ind₁ n₂ ts₂ ind₂ ∧ n = n₁ + n₂ ∧ ts = ts₁ ++ ts₂ := by
  induction a generalizing p ind n ts with
  | nil => exact ⟨0, [], ind, n, ts, .nil, by simpa using h, by omega, rfl⟩
  | cons r a ih =>
    cases h with
    | cons h h' =>
      obtain ⟨n₁, ts₁, ind₁, n₂, ts₂, hc, hc', rfl, rfl⟩ := ih h'
      exact ⟨_, _, ind₁, n₂, ts₂, .cons h hc, by simpa [adv_adv] using hc', by omega, by simp⟩

/-- The part of a separated list that follows an item, without its end: reduces to the end. -/
theorem run_pairs {r b trail} : ∀ {k p ind n ts ind₁}, Chain L refs (pairs b r k) p ind n ts ind₁ →
    ∀ {o j tr}, Run (envOf L refs ind) (.sepTail r b trail) (adv p n) ind₁.indent o j tr →
    ∃ tr', Run (envOf L refs ind) (.sepTail r b trail) p ind.indent (before n ts o) j tr'
  | 0, p, ind, n, ts, ind₁, h, o, j, tr, h' => by
    cases h
    simp at h'
    refine ⟨tr, ?_⟩
    cases o <;> simpa [before] using h'
  | k + 1, p, ind, n, ts, ind₁, h, o, j, tr, h' => by
    cases h with
    | cons h1 h =>
      cases h with
      | cons h2 h3 =>
        replace h1 := matches_iff.1 h1
        obtain ⟨j1, tr1, h1, rfl⟩ := h1
        replace h2 := matches_iff.1 h2
        obtain ⟨j2, tr2, h2, rfl⟩ := h2
        rename_i n1 ts1 n2 ts2 n3 ts3
        have h' : Run (envOf L refs ind) (.sepTail r b trail) (adv (adv (adv p n1) n2) n3)
            ind₁.indent o j tr := by simpa [adv_adv, Nat.add_assoc] using h'
        obtain ⟨tr3, h4⟩ := run_pairs h3 h'
        have h4 : Run (envOf L refs ind) (.sepTail r b trail) (adv p (n1 + n2)) j2
            (before n3 ts3 o) j tr3 := by
          rw [adv_adv] at h4; exact h4
        have := Run.sep_more h1 h2 h4
        refine ⟨tr1 ++ (tr2 ++ tr3), ?_⟩
        cases o <;> simpa [before, Nat.add_assoc] using this

theorem chain_settings {rs p ind n ts ind'} (h : Chain L refs rs p ind n ts ind') :
    ∃ j, ind' = { ind with indent := j } := by
  induction h with
  | nil => exact ⟨_, rfl⟩
  | cons h _ ih =>
    replace h := matches_iff.1 h
    obtain ⟨j, tr, h, rfl⟩ := h
    exact ih

/-- A separated list matches in exactly these ways: nothing, when it is optional and the rule is
refused at the start; items with separators between them, when the separator is refused after the
last item; and the same with a trailing separator, which is read, when that is allowed and the
rule is refused after it. -/
theorem C15_separateBy_matches_iff {r b opt trail id p ind n ts ind'} :
    Matches L refs (.separateBy r b opt trail id) p ind n ts ind' ↔
      (opt = true ∧ Refuses L refs r p ind ind' ∧ n = 0 ∧ ts = []) ∨
      (∃ k ind₁, Chain L refs (r :: pairs b r k) p ind n ts ind₁ ∧
        Refuses L refs b (adv p n) ind₁ ind') ∨
      (trail = true ∧ ∃ k ind₁, Chain L refs (r :: pairs b r k ++ [b]) p ind n ts ind₁ ∧
        Refuses L refs r (adv p n) ind₁ ind') := by
  constructor
  · intro h
    replace h := matches_iff.1 h
    obtain ⟨j, tr, h, rfl⟩ := h
    generalize ho : (some (n, ts) : Outcome) = o at h
    cases h with
    | sep_none h => cases ho; exact .inl ⟨rfl, refuses_of_run h, rfl, rfl⟩
    | sep_fail => simp at ho
    | sep_first h h' =>
      obtain ⟨m, us, rfl, rfl, rfl⟩ := before_some ho.symm
      obtain ⟨k, ind₁, h'⟩ := sepTail_of_run h' rfl
      rcases h' with ⟨hc, hf⟩ | ⟨ht, hc, hf⟩
      · exact .inr (.inl ⟨k, ind₁, .cons (matches_of_run h) hc, by simpa [adv_adv] using hf⟩)
      · exact .inr (.inr ⟨ht, k, ind₁, .cons (matches_of_run h) hc, by simpa [adv_adv] using hf⟩)
  · rintro (⟨rfl, h, rfl, rfl⟩ | ⟨k, ind₁, h, hf⟩ | ⟨rfl, k, ind₁, h, hf⟩)
    · replace h := refuses_iff.1 h
      obtain ⟨j, tr, h, rfl⟩ := h
      exact matches_iff.2 ⟨j, tr, .sep_none h, rfl⟩
    · cases h with
      | cons h h' =>
        replace h := matches_iff.1 h
        obtain ⟨j, tr, h, rfl⟩ := h
        obtain ⟨k', rfl⟩ := chain_settings h'
        replace hf := refuses_iff.1 hf
        obtain ⟨j', tr', hf, rfl⟩ := hf
        obtain ⟨tr2, h2⟩ := run_pairs (r := r) (b := b) (trail := trail) h'
          (.sep_stop (by rw [adv_adv]; exact hf))
        simp [before] at h2
        exact matches_iff.2 ⟨j', _, .sep_first h h2, rfl⟩
    · rw [List.cons_append] at h
      cases h with
      | cons h h' =>
        replace h := matches_iff.1 h
        obtain ⟨j, tr, h, rfl⟩ := h
        obtain ⟨n1, ts1, ind1, n2, ts2, h1, h2, rfl, rfl⟩ := chain_split h'
        obtain ⟨k', rfl⟩ := chain_settings h1
        cases h2 with
        | cons h2 h3 =>
          cases h3
          replace h2 := matches_iff.1 h2
          obtain ⟨j2, tr2, h2, rfl⟩ := h2
          replace hf := refuses_iff.1 hf
          obtain ⟨j', tr', hf, rfl⟩ := hf
          obtain ⟨tr3, h3⟩ := run_pairs (r := r) (b := b) (trail := true) h1
            (.sep_trail h2 (by rw [adv_adv, adv_adv]; exact hf))
          simp [before] at h3
          refine matches_iff.2 ⟨j', _, by simpa [before] using Run.sep_first h h3, rfl⟩

/-- A separated list is refused exactly when the rule is refused at the start of a list that is not
optional, or after a separator when trailing separators are not allowed. -/
theorem C15_separateBy_refuses_iff {r b opt trail id p ind ind'} :
    Refuses L refs (.separateBy r b opt trail id) p ind ind' ↔
      (opt = false ∧ Refuses L refs r p ind ind') ∨
      (trail = false ∧ ∃ k n ts ind₁, Chain L refs (r :: pairs b r k ++ [b]) p ind n ts ind₁ ∧
        Refuses L refs r (adv p n) ind₁ ind') := by
  constructor
  · intro h
    replace h := refuses_iff.1 h
    obtain ⟨j, tr, h, rfl⟩ := h
    generalize ho : (none : Outcome) = o at h
    cases h with
    | sep_none h => simp at ho
    | sep_fail h => exact .inl ⟨rfl, refuses_of_run h⟩
    | sep_first h h' =>
      rename_i o _ 
      have := before_eq_none.1 ho.symm
      subst this
      obtain ⟨k, n, ts, ind₁, ht, hc, hf⟩ := sepTail_of_run h' rfl
      exact .inr ⟨ht, k, _, _, ind₁, .cons (matches_of_run h) hc, by simpa [adv_adv] using hf⟩
  · rintro (⟨rfl, h⟩ | ⟨rfl, k, n, ts, ind₁, h, hf⟩)
    · replace h := refuses_iff.1 h
      obtain ⟨j, tr, h, rfl⟩ := h
      exact refuses_iff.2 ⟨j, tr, .sep_fail h, rfl⟩
    · rw [List.cons_append] at h
      cases h with
      | cons h h' =>
        replace h := matches_iff.1 h
        obtain ⟨j, tr, h, rfl⟩ := h
        obtain ⟨n1, ts1, ind1, n2, ts2, h1, h2, rfl, rfl⟩ := chain_split h'
        obtain ⟨k', rfl⟩ := chain_settings h1
        cases h2 with
        | cons h2 h3 =>
          cases h3
          replace h2 := matches_iff.1 h2
          obtain ⟨j2, tr2, h2, rfl⟩ := h2
          replace hf := refuses_iff.1 hf
          obtain ⟨j', tr', hf, rfl⟩ := hf
          obtain ⟨tr3, h3⟩ := run_pairs (r := r) (b := b) (trail := false) h1
            (.sep_noTrail h2 (by rw [adv_adv, adv_adv]; exact hf))
          simp [before] at h3
          exact refuses_iff.2 ⟨j', _, .sep_first (o := none) h h3, rfl⟩

/-! ### C16 -/

/-- `"t"` matches exactly when the text starts with `t`; it reads just `t`, emits one Bool if it is
named (false if it is inverted), and leaves the settings alone. -/
theorem C16_tag_matches_iff {t inv prop id p ind n ts ind'} :
    Matches L refs (.tag t false inv prop id) p ind n ts ind' ↔
      t <+: p.src ∧ n = t.length ∧ ind' = ind ∧
        ts = match prop with
          | none => []
          | some name => [⟨⟨p.off, t.length⟩, .bool name (!inv)⟩] := by
  constructor
  · intro h
    replace h := matches_iff.1 h
    obtain ⟨j, tr, h, rfl⟩ := h
    cases h with
    | tag_ok h => exact ⟨h, rfl, rfl, by cases prop <;> rfl⟩
  · rintro ⟨h, rfl, rfl, rfl⟩
    refine matches_iff.2 ⟨ind'.indent, [], ?_, rfl⟩
    have := Run.tag_ok (E := envOf L refs ind') (prop := prop) (inv := inv) (id := id)
      (i := ind'.indent) h
    cases prop <;> exact this

/-- `"t"` fails exactly when the text does not start with `t`. -/
theorem C16_tag_fails_iff {t inv prop id p ind e ind'} :
    Fails L refs (.tag t false inv prop id) p ind e ind' ↔
      ¬ t <+: p.src ∧ ind' = ind ∧ e = ⟨⟨p.off, 0⟩, .expectedTag t id⟩ := by
  constructor
  · intro h
    replace h := fails_iff.1 h
    obtain ⟨j, tr, h, rfl, hr⟩ := h
    cases h with
    | tag_fail h => exact ⟨h, rfl, by simpa [here] using reported_mem hr⟩
  · rintro ⟨h, rfl, rfl⟩
    exact fails_iff.2 ⟨ind'.indent, _, .tag_fail h, rfl, [], [], rfl, by simp, by simp⟩

/-- `!"t"` matches exactly when the text does not start with `t`; it reads nothing. -/
theorem C16_notTag_matches_iff {t inv prop id p ind n ts ind'} :
    Matches L refs (.tag t true inv prop id) p ind n ts ind' ↔
      ¬ t <+: p.src ∧ n = 0 ∧ ind' = ind ∧
        ts = match prop with
          | none => []
          | some name => [⟨⟨p.off, 0⟩, .bool name (!inv)⟩] := by
  constructor
  · intro h
    replace h := matches_iff.1 h
    obtain ⟨j, tr, h, rfl⟩ := h
    cases h with
    | notTag_ok h => exact ⟨h, rfl, rfl, by cases prop <;> rfl⟩
  · rintro ⟨h, rfl, rfl, rfl⟩
    refine matches_iff.2 ⟨ind'.indent, [], ?_, rfl⟩
    have := Run.notTag_ok (E := envOf L refs ind') (prop := prop) (inv := inv) (id := id)
      (i := ind'.indent) h
    cases prop <;> exact this

/-- `!"t"` fails exactly when the text starts with `t`; the error covers `t`. -/
theorem C16_notTag_fails_iff {t inv prop id p ind e ind'} :
    Fails L refs (.tag t true inv prop id) p ind e ind' ↔
      t <+: p.src ∧ ind' = ind ∧ e = ⟨⟨p.off, t.length⟩, .didNotExpectTag t id⟩ := by
  constructor
  · intro h
    replace h := fails_iff.1 h
    obtain ⟨j, tr, h, rfl, hr⟩ := h
    cases h with
    | notTag_fail h => exact ⟨h, rfl, by simpa using reported_mem hr⟩
  · rintro ⟨h, rfl, rfl⟩
    exact fails_iff.2 ⟨ind'.indent, _, .notTag_fail h, rfl, [], [], rfl, by simp, by simp⟩

/-! ### C17 -/

/-- The data of a rule that stores the text it read. -/
def storedText (prop : Option Str) (p : Pos) (n : Nat) : List Tok :=
  match prop with
  | none => []
  | some name => [⟨⟨p.off, n⟩, .string name (p.src.take n)⟩]

/-- `...any` matches exactly the longest prefix without a character of `any`, unless that is empty
and the rule is not optional; it stores exactly that text. -/
theorem C17_untilAny_matches_iff {any opt prop id p ind n ts ind'} :
    Matches L refs (.untilAny any opt prop id) p ind n ts ind' ↔
      Longest (fun c => c ∉ any) p.src n ∧ (n = 0 → opt = true) ∧ ind' = ind ∧
        ts = storedText prop p n := by
  constructor
  · intro h
    replace h := matches_iff.1 h
    obtain ⟨j, tr, h, rfl⟩ := h
    cases h with
    | until_ok h h0 => exact ⟨h, h0, rfl, by cases prop <;> rfl⟩
  · rintro ⟨h, h0, rfl, rfl⟩
    refine matches_iff.2 ⟨ind'.indent, [], ?_, rfl⟩
    have := Run.until_ok (E := envOf L refs ind') (prop := prop) (id := id) (i := ind'.indent) h h0
    cases prop <;> exact this

/-- `...any` fails exactly when it is not optional and the text is empty or starts with a character
of `any`. -/
theorem C17_untilAny_fails_iff {any opt prop id p ind e ind'} :
    Fails L refs (.untilAny any opt prop id) p ind e ind' ↔
      opt = false ∧ Longest (fun c => c ∉ any) p.src 0 ∧ ind' = ind ∧
        e = ⟨⟨p.off, 0⟩, .expectedSomething id⟩ := by
  constructor
  · intro h
    replace h := fails_iff.1 h
    obtain ⟨j, tr, h, rfl, hr⟩ := h
    cases h with
    | until_fail h => exact ⟨rfl, h, rfl, by simpa [here] using reported_mem hr⟩
  · rintro ⟨rfl, h, rfl, rfl⟩
    exact fails_iff.2 ⟨ind'.indent, _, .until_fail h, rfl, [], [], rfl, by simp, by simp⟩

/-- `..any` matches exactly the longest prefix without whitespace or a character of `any`. -/
theorem C17_untilAnyOrWs_matches_iff {any opt prop id p ind n ts ind'} :
    Matches L refs (.untilAnyOrWs any opt prop id) p ind n ts ind' ↔
      Longest (fun c => c ∉ any ∧ isWs c = false) p.src n ∧ (n = 0 → opt = true) ∧ ind' = ind ∧
        ts = storedText prop p n := by
  constructor
  · intro h
    replace h := matches_iff.1 h
    obtain ⟨j, tr, h, rfl⟩ := h
    cases h with
    | untilWs_ok h h0 => exact ⟨h, h0, rfl, by cases prop <;> rfl⟩
  · rintro ⟨h, h0, rfl, rfl⟩
    refine matches_iff.2 ⟨ind'.indent, [], ?_, rfl⟩
    have := Run.untilWs_ok (E := envOf L refs ind') (prop := prop) (id := id) (i := ind'.indent) h h0
    cases prop <;> exact this

/-- `..any` fails exactly when it is not optional and reads nothing. -/
theorem C17_untilAnyOrWs_fails_iff {any opt prop id p ind e ind'} :
    Fails L refs (.untilAnyOrWs any opt prop id) p ind e ind' ↔
      opt = false ∧ Longest (fun c => c ∉ any ∧ isWs c = false) p.src 0 ∧ ind' = ind ∧
        e = ⟨⟨p.off, 0⟩, .expectedSomething id⟩ := by
  constructor
  · intro h
    replace h := fails_iff.1 h
    obtain ⟨j, tr, h, rfl, hr⟩ := h
    cases h with
    | untilWs_fail h => exact ⟨rfl, h, rfl, by simpa [here] using reported_mem hr⟩
  · rintro ⟨rfl, h, rfl, rfl⟩
    exact fails_iff.2 ⟨ind'.indent, _, .untilWs_fail h, rfl, [], [], rfl, by simp, by simp⟩

/-! ### C18 -/

/-- The characters with the Unicode property White_Space. -/
def unicodeWhiteSpace : List Char :=
  ['\u0009', '\u000A', '\u000B', '\u000C', '\u000D', '\u0020', '\u0085', '\u00A0', '\u1680', '\u2000',
   '\u2001', '\u2002', '\u2003', '\u2004', '\u2005', '\u2006', '\u2007', '\u2008', '\u2009', '\u200A',
   '\u2028', '\u2029', '\u202F', '\u205F', '\u3000']

/-- Which characters are whitespace. -/
theorem C18_whitespace_characters (c : Char) : isWs c = true ↔ c ∈ unicodeWhiteSpace := by
  have key : ∀ n : Nat, c.toNat = n ↔ c = Char.ofNat n ∧ c.toNat = n := fun n =>
    ⟨fun h => ⟨by rw [← h, Char.ofNat_toNat], h⟩, fun h => h.2⟩
  constructor
  · intro h
    have : c.toNat ∈ unicodeWhiteSpace.map Char.toNat := by
      simp [isWs] at h
      simp [unicodeWhiteSpace]
      omega
    obtain ⟨d, hd, e⟩ := List.mem_map.1 this
    rwa [Char.toNat_inj.1 e] at hd
  · intro h
    simp only [unicodeWhiteSpace, List.mem_cons, List.not_mem_nil, or_false] at h
    rcases h with h | h | h | h | h | h | h | h | h | h | h | h | h | h | h | h | h | h | h | h | h | h | h | h | h <;>
      (subst h; rfl)

/-- `.w` matches exactly the longest whitespace prefix and emits nothing. -/
theorem C18_whitespace_matches_iff {opt id p ind n ts ind'} :
    Matches L refs (.whitespace opt id) p ind n ts ind' ↔
      Longest (fun c => isWs c = true) p.src n ∧ (n = 0 → opt = true) ∧ ind' = ind ∧ ts = [] := by
  constructor
  · intro h
    replace h := matches_iff.1 h
    obtain ⟨j, tr, h, rfl⟩ := h
    cases h with
    | ws_ok h h0 => exact ⟨h, h0, rfl, rfl⟩
  · rintro ⟨h, h0, rfl, rfl⟩
    exact matches_iff.2 ⟨ind'.indent, [], .ws_ok h h0, rfl⟩

/-- `.w` fails exactly for `.w!` with no whitespace present. -/
theorem C18_whitespace_fails_iff {opt id p ind e ind'} :
    Fails L refs (.whitespace opt id) p ind e ind' ↔
      opt = false ∧ Longest (fun c => isWs c = true) p.src 0 ∧ ind' = ind ∧
        e = ⟨⟨p.off, 0⟩, .expectedWhitespace id⟩ := by
  constructor
  · intro h
    replace h := fails_iff.1 h
    obtain ⟨j, tr, h, rfl, hr⟩ := h
    cases h with
    | ws_fail h => exact ⟨rfl, h, rfl, by simpa [here] using reported_mem hr⟩
  · rintro ⟨rfl, h, rfl, rfl⟩
    exact fails_iff.2 ⟨ind'.indent, _, .ws_fail h, rfl, [], [], rfl, by simp, by simp⟩

/-! ### C20 -/

/-- A reference matches what the referenced rule matches; a named one brackets the data with
StartNode at the start and EndNode with the range of the whole node, an unnamed one passes the data
on. -/
theorem C20_node_matches_iff {name prop ix id p ind n ts ind'} :
    Matches L refs (.node name prop (some ix) id) p ind n ts ind' ↔
      ∃ r us, refs[ix]? = some r ∧ Matches L refs r p ind n us ind' ∧
        ts = match prop with
          | none => us
          | some x => [⟨⟨p.off, 0⟩, .startNode x⟩] ++ us ++ [⟨⟨p.off, n⟩, .endNode x⟩] := by
  constructor
  · intro h
    replace h := matches_iff.1 h
    obtain ⟨j, tr, h, rfl⟩ := h
    cases h with
    | node_ok hr h => exact ⟨_, _, hr, matches_of_run h, by cases prop <;> rfl⟩
  · rintro ⟨r, us, hr, h, rfl⟩
    replace h := matches_iff.1 h
    obtain ⟨j, tr, h, rfl⟩ := h
    refine matches_iff.2 ⟨j, tr, ?_, rfl⟩
    have := Run.node_ok (E := envOf L refs ind) (name := name) (prop := prop) (id := id) hr h
    cases prop <;> exact this

/-- A reference fails exactly when the referenced rule fails, with the same error. -/
theorem C20_node_fails_iff {name prop ix id p ind e ind'} :
    Fails L refs (.node name prop (some ix) id) p ind e ind' ↔
      ∃ r, refs[ix]? = some r ∧ Fails L refs r p ind e ind' := by
  constructor
  · intro h
    replace h := fails_iff.1 h
    obtain ⟨j, tr, h, rfl, hr⟩ := h
    cases h with
    | node_fail hx h => exact ⟨_, hx, fails_iff.2 ⟨j, tr, h, rfl, hr⟩⟩
  · rintro ⟨r, hx, h⟩
    replace h := fails_iff.1 h
    obtain ⟨j, tr, h, rfl, hr⟩ := h
    exact fails_iff.2 ⟨j, tr, .node_fail hx h, rfl, hr⟩

/-! ### C19 -/

/-- `.t` matches only at a quote, reads exactly the quoted string found by the lexer, never the
empty one if that is not allowed, and stores its decoded content. -/
theorem C19_text_matches {L : Lexer} (hL : L.Lawful) {empty prop id p ind n ts ind'}
    (h : Matches L refs (.text empty prop id) p ind n ts ind') :
    p.src.head? = some '"' ∧ L.str p.src = some n ∧ (n = 2 → empty = true) ∧ ind' = ind ∧
      ∃ content, L.parseStr p.src n = .ok content ∧
        ts = match prop with
          | none => []
          | some name => [⟨⟨p.off, n⟩, .string name content⟩] := by
  obtain ⟨j, tr, h1, rfl⟩ := matches_iff.1 h
  cases h1 with
  | text_ok h' h2 ht =>
    exact ⟨(hL.str_some h').2.2, h', h2, rfl, _, ht, by cases prop <;> rfl⟩

/-- `.t` is refused exactly when there is no quoted string, or it is empty and must not be, or its
format is wrong. -/
theorem C19_text_fails_iff {empty prop id p ind e ind'} :
    Fails L refs (.text empty prop id) p ind e ind' ↔ ind' = ind ∧
      ((L.str p.src = none ∧ e = ⟨⟨p.off, 0⟩, .expectedText id⟩) ∨
       (L.str p.src = some 2 ∧ empty = false ∧ e = ⟨⟨p.off, 2⟩, .emptyTextNotAllowed id⟩) ∨
       ∃ n r s, L.str p.src = some n ∧ (n = 2 → empty = true) ∧ L.parseStr p.src n = .error (r, s) ∧
        e = ⟨⟨p.off + r.offset, r.length⟩, .parseStringError s id⟩) := by
  constructor
  · intro h
    replace h := fails_iff.1 h
    obtain ⟨j, tr, h, rfl, hr⟩ := h
    cases h with
    | text_none h => exact ⟨rfl, .inl ⟨h, by simpa [here] using reported_mem hr⟩⟩
    | text_empty h => exact ⟨rfl, .inr (.inl ⟨h, rfl, by simpa using reported_mem hr⟩)⟩
    | text_bad h h2 ht =>
      exact ⟨rfl, .inr (.inr ⟨_, _, _, h, h2, ht, by simpa using reported_mem hr⟩)⟩
  · rintro ⟨rfl, ⟨h, rfl⟩ | ⟨h, rfl, rfl⟩ | ⟨n, r, s, h, h2, ht, rfl⟩⟩
    · exact fails_iff.2 ⟨_, _, .text_none h, rfl, [], [], rfl, by simp, by simp⟩
    · exact fails_iff.2 ⟨_, _, .text_empty h, rfl, [], [], rfl, by simp, by simp⟩
    · exact fails_iff.2 ⟨_, _, .text_bad h h2 ht, rfl, [], [], rfl, by simp, by simp⟩

/-- A quoted string made of plain characters and the escapes `\" \\ \n \r \t` is read up to its
closing quote, whatever follows, and its content is stored. -/
theorem C19_text_reads_quoted {L : Lexer} (hL : L.Lawful) {empty prop id ind off}
    (items : List StrItem) (rest : List Char) (hne : items = [] → empty = true) :
    Matches L refs (.text empty prop id)
      ⟨'"' :: items.flatMap StrItem.text ++ '"' :: rest, off⟩ ind
      ((items.flatMap StrItem.text).length + 2)
      (match prop with
        | none => []
        | some name => [⟨⟨off, (items.flatMap StrItem.text).length + 2⟩,
            .string name (items.map StrItem.char)⟩]) ind := by
  obtain ⟨h1, h2⟩ := hL.str_items items rest
  refine matches_iff.2 ⟨ind.indent, [], ?_, rfl⟩
  have := Run.text_ok (E := envOf L refs ind) (empty := empty) (prop := prop) (id := id)
    (p := ⟨'"' :: items.flatMap StrItem.text ++ '"' :: rest, off⟩) (i := ind.indent) h1
    (fun h => hne (by
      cases items with
      | nil => rfl
      | cons x xs =>
        exfalso
        simp at h
        cases x <;> simp [StrItem.text] at h)) h2
  cases prop <;> exact this

end

/-! ### Concrete cases

One run of the parser for each of the properties above, so that none of them holds for want of
instances. -/

/-- What a run with an empty vector and cut off `m` gives: length, data and settings. -/
def runOk (L : Lexer) (refs : List Rule) (m : Nat) (r : Rule) (p : Pos) (ind : Indent) :
    Option (Nat × List Tok × Indent) :=
  match eval L refs m r ⟨[], ind⟩ 0 p with
  | .ret (.ok range s _) st => some (range.length, st.toks.take s, st.ind)
  | _ => none

/-- The error and settings of a run that fails. -/
def runErr (L : Lexer) (refs : List Rule) (m : Nat) (r : Rule) (p : Pos) (ind : Indent) :
    Option (RErr × Indent) :=
  match eval L refs m r ⟨[], ind⟩ 0 p with
  | .ret (.err e) st => some (e, st.ind)
  | _ => none

theorem matches_of_eval {L : Lexer} {refs r p} {ind ind' : Indent} {n ts} (m : Nat)
    (h : runOk L refs m r p ind = some (n, ts, ind')) : Matches L refs r p ind n ts ind' := by
  unfold runOk at h
  split at h
  · rename_i he
    obtain ⟨n', ts', j, tr, h1, h2, h3, h4, h5, h6⟩ := eval_ok_run (Nat.le_refl _) he
    simp at h h4
    obtain ⟨rfl, rfl, rfl⟩ := h
    rw [h4, h5, h2]
    exact matches_iff.2 ⟨j, tr, h1, rfl⟩
  · simp at h

theorem fails_of_eval {L : Lexer} {refs r p} {ind ind' : Indent} {e} (m : Nat)
    (h : runErr L refs m r p ind = some (e, ind')) : Fails L refs r p ind e ind' := by
  unfold runErr at h
  split at h
  · rename_i he
    obtain ⟨j, tr, h1, _, _, h5, h6⟩ := eval_err_run (Nat.le_refl _) he
    simp at h
    obtain ⟨rfl, rfl⟩ := h
    rw [h5]
    exact fails_iff.2 ⟨j, tr, h1, rfl, best_iff.1 h6⟩
  · simp at h

theorem refuses_of_eval {L : Lexer} {refs r p} {ind ind' : Indent} (m : Nat) (e : RErr)
    (h : runErr L refs m r p ind = some (e, ind')) : Refuses L refs r p ind ind' :=
  ⟨e, fails_of_eval m h⟩

/-- `"a":"a"` and `"b":"b"`, with identifiers 1 and 2. -/
def exA : Rule := .tag c!"a" false false (some c!"a") 1
def exB : Rule := .tag c!"b" false false (some c!"b") 2

/-- C10: the second alternative of `{"a":"a" "b":"b"}` on `b`. -/
example : ∃ pre r post ind₁, [exA, exB] = pre ++ r :: post ∧
    AllRefuse stdLexer [] ⟨c!"b", 0⟩ pre Indent.default ind₁ ∧
    Matches stdLexer [] r ⟨c!"b", 0⟩ ind₁ 1 [⟨⟨0, 1⟩, .bool c!"b" true⟩] Indent.default :=
  (C10_select_matches_iff (id := 3)).1 (matches_of_eval 5 (by decide +kernel))

/-- C10: neither alternative on `c`. -/
example : AllRefuse stdLexer [] ⟨c!"c", 0⟩ [exA, exB] Indent.default Indent.default :=
  (C10_select_refuses_iff (id := 3) (by simp)).1
    (refuses_of_eval 5 ⟨⟨0, 0⟩, .expectedTag c!"b" 2⟩ (by decide +kernel))

/-- C11: `["a":"a" "b":"b"]` on `ab` and on `ac`. -/
example : Chain stdLexer [] [exA, exB] ⟨c!"ab", 0⟩ Indent.default 2
    [⟨⟨0, 1⟩, .bool c!"a" true⟩, ⟨⟨1, 1⟩, .bool c!"b" true⟩] Indent.default :=
  (C11_sequence_matches_iff (id := 3)).1 (matches_of_eval 5 (by decide +kernel))

example : ∃ pre r post n ts ind₁, [exA, exB] = pre ++ r :: post ∧
    Chain stdLexer [] pre ⟨c!"ac", 0⟩ Indent.default n ts ind₁ ∧
    Refuses stdLexer [] r (adv ⟨c!"ac", 0⟩ n) ind₁ Indent.default :=
  (C11_sequence_refuses_iff (id := 3)).1 (refuses_of_eval 5 ⟨⟨1, 0⟩, .expectedTag c!"b" 2⟩ (by decide +kernel))

/-- C12: `?"a"` on `b`. -/
example : Matches stdLexer [] (.optional exA 3) ⟨c!"b", 0⟩ Indent.default 0 [] Indent.default :=
  C12_optional_matches_iff.2 (.inr ⟨refuses_of_eval 5 ⟨⟨0, 0⟩, .expectedTag c!"a" 1⟩ (by decide +kernel), rfl, rfl⟩)

/-- C13: `!"a"` on `ab`. -/
example : Fails stdLexer [] (.not exA 3) ⟨c!"ab", 0⟩ Indent.default
    ⟨⟨0, 1⟩, .didNotExpectTag c!"a" 3⟩ Indent.default :=
  C13_not_fails_iff.2 ⟨1, [⟨⟨0, 1⟩, .bool c!"a" true⟩], matches_of_eval 5 (by decide +kernel), rfl⟩

/-- C14: `.r!("a":"a")` on `aab`. -/
example : ∃ k ind₁, 1 ≤ k ∧ Chain stdLexer [] (List.replicate k exA) ⟨c!"aab", 0⟩ Indent.default 2
      [⟨⟨0, 1⟩, .bool c!"a" true⟩, ⟨⟨1, 1⟩, .bool c!"a" true⟩] ind₁ ∧
    Refuses stdLexer [] exA (adv ⟨c!"aab", 0⟩ 2) ind₁ Indent.default :=
  (C14_repeat_matches_iff (id := 3)).1 (matches_of_eval 5 (by decide +kernel))

/-- C15: `.s!.("b":"b" "a":"a")` reads the trailing separator of `abab`, and `.s!` without a dot
refuses it. -/
example : Matches stdLexer [] (.separateBy exA exB false true 3) ⟨c!"abab", 0⟩ Indent.default 4
    [⟨⟨0, 1⟩, .bool c!"a" true⟩, ⟨⟨1, 1⟩, .bool c!"b" true⟩, ⟨⟨2, 1⟩, .bool c!"a" true⟩,
     ⟨⟨3, 1⟩, .bool c!"b" true⟩] Indent.default :=
  matches_of_eval 5 (by decide +kernel)

example : Refuses stdLexer [] (.separateBy exA exB false false 3) ⟨c!"abab", 0⟩ Indent.default
    Indent.default :=
  refuses_of_eval 5 ⟨⟨4, 0⟩, .expectedTag c!"a" 1⟩ (by decide +kernel)

/-- C16: an inverted named tag. -/
example : Matches stdLexer [] (.tag c!"no" false true (some c!"yes") 1) ⟨c!"nothing", 3⟩ Indent.default
    2 [⟨⟨3, 2⟩, .bool c!"yes" false⟩] Indent.default :=
  C16_tag_matches_iff.2 ⟨by decide, rfl, rfl, rfl⟩

/-- C17: `..` stops at a space or at `,`. -/
example : Matches stdLexer [] (.untilAnyOrWs c!",;" false (some c!"x") 1) ⟨c!"ab cd", 3⟩ Indent.default
    2 [⟨⟨3, 2⟩, .string c!"x" c!"ab"⟩] Indent.default :=
  matches_of_eval 5 (by decide +kernel)

/-- C18: whitespace before a letter. -/
example : Matches stdLexer [] (.whitespace false 1) ⟨c!" \t\nx ", 3⟩ Indent.default
    3 [] Indent.default :=
  matches_of_eval 5 (by decide +kernel)

/-- C19: `"a\n"` followed by something. -/
example : Matches stdLexer [] (.text false (some c!"x") 1) ⟨c!"\"a\\n\" tail", 3⟩ Indent.default
    5 [⟨⟨3, 5⟩, .string c!"x" c!"a\n"⟩] Indent.default :=
  C19_text_reads_quoted stdLexer_lawful [.plain 'a' (by decide), .newline] c!" tail" (by simp)

/-- C20: a named reference. -/
example : Matches stdLexer [exA] (.node c!"n" (some c!"p") (some 0) 3) ⟨c!"ab", 2⟩ Indent.default
    1 [⟨⟨2, 0⟩, .startNode c!"p"⟩, ⟨⟨2, 1⟩, .bool c!"a" true⟩, ⟨⟨2, 1⟩, .endNode c!"p"⟩]
    Indent.default :=
  matches_of_eval 5 (by decide +kernel)

end Verif.Props
