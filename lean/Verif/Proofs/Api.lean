import Verif.Spec.Api
import Verif.Proofs.Complete
/-
From the interpreter to the calls a user makes.
-/
namespace Verif
open Spec

theorem ind_envOf (L refs) (ind : Indent) : (envOf L refs ind).ind ind.indent = ind := rfl

/-- `Run` leaves a failure behind whenever it fails. -/
theorem run_none_trace {E : Env} {p : Pos} {i : Nat} {r : Rule} {j tr}
    (hr : Run E (.rule r) p i none j tr) : ∃ e, best tr = some e := by
  obtain ⟨N, e, _, h, _⟩ := run_none_eval hr [] 0 (Nat.le_refl _)
  exact ⟨e, h.symm⟩

theorem succeeds_iff {L refs r p} {ind ind' : Indent} {n ts err} :
    Succeeds L refs r p ind n ts ind' err ↔
      ∃ j tr, Run (envOf L refs ind) (.rule r) p ind.indent (some (n, ts)) j tr ∧
        ind' = { ind with indent := j } ∧ err = best tr := by
  constructor
  · intro h
    obtain ⟨N, s', toks', h1, h2, h3⟩ := h [] 0 (Nat.le_refl _)
    have hs := eval_sound (envOf L refs ind) N r ind.indent [] 0 p (Nat.le_refl _)
    rw [ind_envOf] at hs
    change Good _ _ _ _ _ _ _ _ (eval L refs N r ⟨[], ind⟩ 0 p) at hs
    rw [h3 N (Nat.le_refl _)] at hs
    obtain ⟨n', ts', j, tr, ha, hb, hc, hd, he, hf⟩ := hs
    simp at hb hd h2
    have : n = n' := by omega
    subst this
    rw [h2] at hd
    subst hd
    exact ⟨j, tr, ha, he, by simpa using hf⟩
  · rintro ⟨j, tr, h, rfl, rfl⟩ toks s hs
    obtain ⟨N, s', toks', h1, h2, h3⟩ := run_some_eval h toks s hs
    exact ⟨N, s', toks', h1, h2, h3⟩

theorem fails_iff {L refs r p} {ind ind' : Indent} {e} :
    Fails L refs r p ind e ind' ↔
      ∃ j tr, Run (envOf L refs ind) (.rule r) p ind.indent none j tr ∧
        ind' = { ind with indent := j } ∧ Reported tr e := by
  constructor
  · intro h
    obtain ⟨N, toks', h1, h2, h3⟩ := h [] 0 (Nat.le_refl _)
    have hs := eval_sound (envOf L refs ind) N r ind.indent [] 0 p (Nat.le_refl _)
    rw [ind_envOf] at hs
    change Good _ _ _ _ _ _ _ _ (eval L refs N r ⟨[], ind⟩ 0 p) at hs
    rw [h3 N (Nat.le_refl _)] at hs
    obtain ⟨j, tr, ha, hb, hc, hd, he⟩ := hs
    exact ⟨j, tr, ha, hd, best_iff.1 (by simpa using he.symm)⟩
  · rintro ⟨j, tr, h, rfl, hr⟩ toks s hs
    obtain ⟨N, e', toks', h0, h1, h2, h3⟩ := run_none_eval h toks s hs
    have : e' = e := by
      have := best_iff.2 hr
      rw [this] at h0; simpa using h0
    subst this
    exact ⟨N, toks', h1, h2, h3⟩

theorem eval_ok_run {L refs m r ind toks s p range s' err st'} (hs : s ≤ toks.length)
    (h : eval L refs m r ⟨toks, ind⟩ s p = .ret (.ok range s' err) st') :
    ∃ n ts j tr, Run (envOf L refs ind) (.rule r) p ind.indent (some (n, ts)) j tr ∧
      range = ⟨p.off, n⟩ ∧ s' ≤ st'.toks.length ∧ st'.toks.take s' = toks.take s ++ ts ∧
      st'.ind = { ind with indent := j } ∧ err = best tr := by
  have hg := eval_sound (envOf L refs ind) m r ind.indent toks s p hs
  rw [ind_envOf] at hg
  change Good _ _ _ _ _ _ _ _ (eval L refs m r ⟨toks, ind⟩ s p) at hg
  rw [h] at hg
  obtain ⟨n, ts, j, tr, h1, h2, h3, h4, h5, h6⟩ := hg
  exact ⟨n, ts, j, tr, h1, by simpa using h2, h3, h4, h5, by simpa using h6⟩

theorem eval_err_run {L refs m r ind toks s p e st'} (hs : s ≤ toks.length)
    (h : eval L refs m r ⟨toks, ind⟩ s p = .ret (.err e) st') :
    ∃ j tr, Run (envOf L refs ind) (.rule r) p ind.indent none j tr ∧ s ≤ st'.toks.length ∧
      st'.toks.take s = toks.take s ∧ st'.ind = { ind with indent := j } ∧ best tr = some e := by
  have hg := eval_sound (envOf L refs ind) m r ind.indent toks s p hs
  rw [ind_envOf] at hg
  change Good _ _ _ _ _ _ _ _ (eval L refs m r ⟨toks, ind⟩ s p) at hg
  rw [h] at hg
  obtain ⟨j, tr, h1, h2, h3, h4, h5⟩ := hg
  exact ⟨j, tr, h1, h2, h3, h4, by simpa using h5.symm⟩

/-- What `parse` returns on success, without assumptions on the lexer: the match reaches at least
the end of the text. -/
theorem parses_ok_run {L syn text toks ind toks'} :
    Parses L syn text toks ind (.ok toks') ↔
      ∃ r n ts j tr, syn.rules.getLast? = some r ∧
        Run (envOf L syn.rules ind) (.rule r) ⟨text, 0⟩ ind.indent (some (n, ts)) j tr ∧
        text.length ≤ n ∧ toks' = toks ++ ts := by
  constructor
  · rintro ⟨_, m, h⟩
    unfold parseWithIndent at h
    split at h
    · simp at h
    · rename_i r hr
      split at h
      · rename_i range s oe st he
        obtain ⟨n, ts, j, tr, h1, h2, h3, h4, h5, h6⟩ := eval_ok_run (Nat.le_refl _) he
        subst h2
        split at h
        · simp at h
        · rename_i hlt
          simp [Range.next, Pos.new] at hlt h
          exact ⟨r, n, ts, j, tr, hr, h1, hlt, by rw [← h, h4]; simp⟩
      all_goals simp at h
  · rintro ⟨r, n, ts, j, tr, hr, h, hn, rfl⟩
    refine ⟨by simp, ?_⟩
    obtain ⟨N, s', toks', h1, h2, h3⟩ := run_some_eval h toks toks.length (Nat.le_refl _)
    refine ⟨N, ?_⟩
    have h3 := h3 N (Nat.le_refl _)
    rw [ind_envOf] at h3
    change eval L syn.rules N r ⟨toks, ind⟩ toks.length (Pos.new text 0) = _ at h3
    simp only [parseWithIndent, hr, h3]
    rw [if_neg (by simp only [Range.next]; omega), h2]
    simp

/-- What `parse` returns on failure. -/
theorem parses_err_run {L syn text toks ind e} :
    (∃ toks', Parses L syn text toks ind (.err e toks')) ↔
      ∃ tr, Rejects L syn text ind tr ∧ Reported tr e := by
  constructor
  · rintro ⟨toks', _, m, h⟩
    unfold parseWithIndent at h
    split at h
    · rename_i hr
      simp at h
      refine ⟨_, .noRules (by simpa using hr), [], [], by simp [← h.1, Range.empty], by simp, by simp⟩
    · rename_i r hr
      split at h
      · rename_i range s oe st he
        obtain ⟨n, ts, j, tr, h1, h2, h3, h4, h5, h6⟩ := eval_ok_run (Nat.le_refl _) he
        subst h2
        split at h
        · rename_i hlt
          simp [Range.next, Pos.new, Range.empty] at hlt h
          refine ⟨_, .short hr h1 hlt, best_iff.1 ?_⟩
          rw [best_append, ← h.1, h6, some_retErr]; rfl
        · simp at h
      · rename_i e' st he
        obtain ⟨j, tr, h1, h2, h3, h4, h5⟩ := eval_err_run (Nat.le_refl _) he
        simp at h
        obtain ⟨rfl, _⟩ := h
        exact ⟨tr, .fails hr h1, best_iff.1 h5⟩
      all_goals simp at h
  · rintro ⟨tr, h, hr⟩
    cases h with
    | noRules h =>
      have : e = ⟨⟨0, 0⟩, .noRules⟩ := by simpa using reported_mem hr
      subst this
      exact ⟨toks, by simp, 0, by simp [parseWithIndent, h, Range.empty]⟩
    | fails hl h =>
      obtain ⟨N, e', toks', h0, h1, h2, h3⟩ := run_none_eval h toks toks.length (Nat.le_refl _)
      have : e' = e := by
        rw [best_iff.2 hr] at h0; simpa using h0
      subst this
      refine ⟨toks', by simp, N, ?_⟩
      have h3 := h3 N (Nat.le_refl _)
      rw [ind_envOf] at h3
      change eval L syn.rules N _ ⟨toks, ind⟩ toks.length (Pos.new text 0) = _ at h3
      simp only [parseWithIndent, hl, h3]
    | short hl h hn =>
      obtain ⟨N, s', toks', h1, h2, h3⟩ := run_some_eval h toks toks.length (Nat.le_refl _)
      have h3 := h3 N (Nat.le_refl _)
      rw [ind_envOf] at h3
      change eval L syn.rules N _ ⟨toks, ind⟩ toks.length (Pos.new text 0) = _ at h3
      refine ⟨toks', by simp, N, ?_⟩
      simp only [parseWithIndent, hl, h3]
      rw [if_pos (by simpa [Range.next] using hn)]
      have := best_iff.2 hr
      rw [best_append, best_single, ← some_retErr] at this
      simp at this
      rw [← this]; simp [Range.next, Range.empty]

/-- On failure the caller's tokens stay in front. -/
theorem parse_err_prefix {L n syn text toks ind e toks'}
    (h : parseWithIndent L n syn text toks ind = .err e toks') : toks <+: toks' := by
  unfold parseWithIndent at h
  split at h
  · simp at h; simp [h.2]
  · rename_i r hr
    split at h
    · rename_i range s oe st he
      obtain ⟨n, ts, j, tr, h1, h2, h3, h4, h5, h6⟩ := eval_ok_run (Nat.le_refl _) he
      split at h
      · simp at h
        rw [← h.2]
        have : toks <+: st.toks.take s := by rw [h4]; simp
        exact this.trans (List.take_prefix _ _)
      · simp at h
    · rename_i e' st he
      obtain ⟨j, tr, h1, h2, h3, h4, h5⟩ := eval_err_run (Nat.le_refl _) he
      simp at h h3
      rw [← h.2, ← h3]
      exact List.take_prefix _ _
    all_goals simp at h

end Verif
