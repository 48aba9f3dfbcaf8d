import Verif.Props.Origin
import Verif.Props.Parse
import Verif.Props.Json
import Verif.Proofs.Prepend
import Verif.Proofs.Leftover
import Verif.Proofs.Recorded
/-
Properties of the vector after a parse, whatever its outcome: C81, and more of C03.
-/
namespace Verif.Props
open Spec

theorem parses_prepend {L : Lexer} {syn text ind} {toks : List Tok} {o : POut} :
    Parses L syn text toks ind o ↔ ∃ o', Parses L syn text [] ind o' ∧ o = o'.prepend toks := by
  constructor
  · rintro ⟨h0, n, h⟩
    rw [parseWithIndent_prepend] at h
    refine ⟨_, ⟨?_, n, rfl⟩, h.symm⟩
    intro h'
    rw [h'] at h
    exact h0 h.symm
  · rintro ⟨o', ⟨h0, n, h⟩, rfl⟩
    refine ⟨?_, n, ?_⟩
    · cases o' <;> simp [POut.prepend] at h0 ⊢
    · rw [parseWithIndent_prepend, h]

/-- The vector is only appended to, and what is appended, also by a text that is rejected, is the
same for every vector; nor does anything else depend on the vector. -/
theorem C03_appends {L : Lexer} {syn text ind} (toks : List Tok) :
    (∀ t, Parses L syn text toks ind (.ok t) ↔ ∃ x, t = toks ++ x ∧ Parses L syn text [] ind (.ok x)) ∧
    (∀ e t, Parses L syn text toks ind (.err e t) ↔
      ∃ x, t = toks ++ x ∧ Parses L syn text [] ind (.err e x)) ∧
    (Parses L syn text toks ind .panic ↔ Parses L syn text [] ind .panic) ∧
    (ParseDiverges L syn text toks ind ↔ ParseDiverges L syn text [] ind) := by
  refine ⟨fun t => ?_, fun e t => ?_, ?_, ?_⟩
  · rw [parses_prepend]
    constructor
    · rintro ⟨o, h, ho⟩
      cases o <;> simp [POut.prepend] at ho
      exact ⟨_, ho, h⟩
    · rintro ⟨x, rfl, h⟩; exact ⟨_, h, rfl⟩
  · rw [parses_prepend]
    constructor
    · rintro ⟨o, h, ho⟩
      cases o <;> simp [POut.prepend] at ho
      obtain ⟨rfl, ho⟩ := ho
      exact ⟨_, ho, h⟩
    · rintro ⟨x, rfl, h⟩; exact ⟨_, h, rfl⟩
  · rw [parses_prepend]
    constructor
    · rintro ⟨o, h, ho⟩
      cases o <;> simp [POut.prepend] at ho
      exact h
    · intro h; exact ⟨_, h, rfl⟩
  · constructor
    · intro h n
      have := h n
      rw [parseWithIndent_prepend] at this
      revert this
      cases parseWithIndent L n syn text [] ind <;> simp [POut.prepend]
    · intro h n
      rw [parseWithIndent_prepend, h n]; rfl

/-- The items left behind by `()x` are left behind in any other vector. -/
example : Parses stdLexer exSyntax c!"()x" [exTok] Indent.default
    (.err ⟨⟨2, 0⟩, .expectedEnd⟩ [exTok, ⟨⟨1, 0⟩, .startNode c!"item"⟩]) :=
  ((C03_appends [exTok]).2.1 _ _).2 ⟨_, rfl, ex_short⟩

/-! ### C81 -/

theorem left_behind {L : Lexer} (hL : L.Lawful) {syn text toks ind e toks'}
    (h : Parses L syn text toks ind (.err e toks')) :
    ∃ x, toks' = toks ++ x ∧ VecOk (envOf L syn.rules ind) text x := by
  obtain ⟨x, rfl, _, n, h⟩ := ((C03_appends toks).2.1 e toks').1 h
  refine ⟨x, rfl, ?_⟩
  have hnil : VecOk (envOf L syn.rules ind) text [] := ⟨by simp, by simp [InOrder], by simp, [], .nil⟩
  unfold parseWithIndent at h
  split at h
  · simp at h; rw [h.2]; exact hnil
  · rename_i r hr
    have hk := eval_kept (E := envOf L syn.rules ind) hL text n r ⟨[], ind⟩ 0 (Pos.new text 0)
      (part_last hr) ⟨inside_zero text, Nat.zero_le _, ⟨ind.indent, rfl⟩, Nat.le_refl _, by simp, hnil⟩
    change OutOk _ _ (eval L syn.rules n r ⟨[], ind⟩ 0 (Pos.new text 0)) at hk
    simp only [List.length_nil] at h
    revert h hk
    generalize eval L syn.rules n r ⟨[], ind⟩ 0 (Pos.new text 0) = o
    intro h hk
    split at h
    · split at h
      · simp at h; rw [← h.2]; exact hk _ _ rfl
      · simp at h
    · simp at h; rw [← h.2]; exact hk _ _ rfl
    · simp at h
    · simp at h

/-- C81: every item that a rejected text leaves in the vector was recorded by a rule of the syntax
that carries its name, and the text at its range is what the rule reads; it lies inside the text. -/
theorem C81_items {L : Lexer} (hL : L.Lawful) {syn text toks ind e toks'}
    (h : Parses L syn text toks ind (.err e toks')) :
    ∃ x, toks' = toks ++ x ∧ ∀ t ∈ x, Within 0 text.length t.range ∧
      ∃ r, Part syn.rules r ∧ Records (envOf L syn.rules ind) text r t := by
  obtain ⟨x, hx, hv⟩ := left_behind hL h
  exact ⟨x, hx, fun t ht => ⟨⟨Nat.zero_le _, hv.inText t ht⟩, hv.recs t ht⟩⟩

example : ∀ t ∈ [(⟨⟨1, 0⟩, .startNode c!"item"⟩ : Tok)], Within 0 3 t.range ∧
    ∃ r, Part exSyntax.rules r ∧ Records (envOf stdLexer exSyntax.rules Indent.default) c!"()x" r t := by
  obtain ⟨x, hx, h⟩ := C81_items stdLexer_lawful ex_short
  simp only [List.nil_append] at hx
  rw [hx]
  exact h

/-- C81: the items left behind are in source order. -/
theorem C81_source_order {L : Lexer} (hL : L.Lawful) {syn text toks ind e toks'}
    (h : Parses L syn text toks ind (.err e toks')) : ∃ x, toks' = toks ++ x ∧ InOrder x := by
  obtain ⟨x, hx, hv⟩ := left_behind hL h
  exact ⟨x, hx, hv.order⟩

/-- C81: they are the beginning of well nested data: a node may be left open, but none is closed
that is not open. -/
theorem C81_nesting {L : Lexer} (hL : L.Lawful) {syn text toks ind e toks'}
    (h : Parses L syn text toks ind (.err e toks')) :
    ∃ x, toks' = toks ++ x ∧ ∃ rest, WellNested (x.map Tok.data ++ rest) := by
  obtain ⟨x, hx, hv⟩ := left_behind hL h
  exact ⟨x, hx, hv.nest⟩

/-- C81: so no beginning of them closes more nodes than it opens, and `json::write` writes them. -/
theorem C81_json {L : Lexer} (hL : L.Lawful) {syn text ind e x} (h : Parses L syn text [] ind (.err e x))
    (fmt : F64 → Str) (hlen : x.length < 2 ^ 31) :
    (∀ a, a <+: x → 0 ≤ depth a) ∧ ∃ t, writeJson fmt x = .ok t := by
  obtain ⟨x', hx, rest, hr⟩ := C81_nesting hL h
  simp only [List.nil_append] at hx
  subst hx
  have hi : Items (x ++ rest.map fun m => ⟨⟨0, 0⟩, m⟩) := by
    refine items_iff.2 ?_
    simpa [Function.comp_def] using hr
  have hd : ∀ a, a <+: x → 0 ≤ depth a := by
    rintro a ⟨b, rfl⟩
    exact hi.depth_prefix a (b ++ rest.map fun m => ⟨⟨0, 0⟩, m⟩) (by simp)
  refine ⟨hd, ?_⟩
  have := C34_panics_iff fmt hlen
  cases h : writeJson fmt x with
  | ok t => exact ⟨t, rfl⟩
  | timeout => exact absurd h this.2
  | panic =>
    obtain ⟨a, ha, hl⟩ := this.1.1 h
    have := hd a ha
    omega

/-- C81: a later call that succeeds does not take them away: they come before its data. -/
theorem C81_kept {L : Lexer} {syn syn' : Syntax} {text text' : Str} {ind ind' : Indent} {e : RErr}
    {toks t t' : List Tok} (h : Parses L syn text toks ind (.err e t)) (h' : Parses L syn' text' t ind' (.ok t')) :
    ∃ x ts, t' = toks ++ x ++ ts ∧ Parses L syn text [] ind (.err e x) ∧ Parses L syn' text' [] ind' (.ok ts) := by
  obtain ⟨x, rfl, hx⟩ := ((C03_appends toks).2.1 e t).1 h
  obtain ⟨ts, rfl, hts⟩ := ((C03_appends _).1 t').1 h'
  exact ⟨x, ts, rfl, hx, hts⟩

/-- C81: a node is left open by `()x`: what follows in the same vector is not well nested any more. -/
theorem C81_open_node : ∃ e x toks', Parses stdLexer exSyntax c!"()x" [] Indent.default (.err e x) ∧
    Parses stdLexer exSyntax c!"(ab,a,)" x Indent.default (.ok toks') ∧
    ¬ WellNested (toks'.map Tok.data) := by
  refine ⟨_, _, _, ex_short, ((C03_appends _).1 _).2 ⟨exData, rfl, ?_⟩, ?_⟩
  · exact (C03_independent_of_vector [exTok] []).1 exData ex_ok
  · intro h
    have hcount : ∀ {l : List MetaData}, WellNested l →
        l.countP (fun m => match m with | .startNode _ => true | _ => false) =
        l.countP (fun m => match m with | .endNode _ => true | _ => false) := by
      intro l h
      induction h with
      | nil => rfl
      | value hm _ ih =>
        rename_i m rest _
        cases m <;> simp [IsNode] at hm <;> simpa [List.countP_cons] using ih
      | node _ _ ih1 ih2 => simp [List.countP_append]; omega
    exact absurd (hcount h) (by decide)

/-- C81: exactly what is left behind: what stood recorded after the last recording.  The recordings
of the last rule at the beginning of the text are one list (`Recs.det`); if nothing was recorded,
nothing is left. -/
theorem C81_exact {L : Lexer} {syn text toks ind e t} (h : Parses L syn text toks ind (.err e t)) :
    (syn.rules = [] ∧ t = toks) ∨ ∃ r, syn.rules.getLast? = some r ∧
      (∃ a, Recs (envOf L syn.rules ind) (.rule r) ⟨text, 0⟩ ind.indent a) ∧
      ∀ a, Recs (envOf L syn.rules ind) (.rule r) ⟨text, 0⟩ ind.indent a → t = toks ++ a.getLast?.getD [] := by
  obtain ⟨_, n, h⟩ := h
  unfold parseWithIndent at h
  split at h
  · rename_i hr
    simp at h
    exact .inl ⟨List.getLast?_eq_none_iff.1 hr, h.2.symm⟩
  · rename_i r hr
    refine .inr ⟨r, hr, ?_⟩
    have hl := eval_left (envOf L syn.rules ind) n r ind.indent toks toks.length ⟨text, 0⟩ (Nat.le_refl _)
    change Left _ _ _ _ _ _ (eval L syn.rules n r ⟨toks, ind⟩ toks.length (Pos.new text 0)) at hl
    suffices hs : ∃ a, Recs (envOf L syn.rules ind) (.rule r) ⟨text, 0⟩ ind.indent a ∧
        t = toks ++ a.getLast?.getD [] by
      obtain ⟨a, ha, rfl⟩ := hs
      exact ⟨⟨a, ha⟩, fun b hb => by rw [ha.det hb]⟩
    have key : ∀ a, lastVec toks toks.length a = toks ++ a.getLast?.getD [] := by
      intro a
      rcases List.eq_nil_or_concat a with rfl | ⟨a, v, rfl⟩
      · simp
      · rw [List.concat_eq_append, lastVec_concat]; simp
    revert h hl
    generalize eval L syn.rules n r ⟨toks, ind⟩ toks.length (Pos.new text 0) = o
    intro h hl
    split at h
    · split at h
      · obtain ⟨a, ha, hv⟩ := hl
        simp at h
        exact ⟨a, ha, by rw [← h.2, hv, key]⟩
      · simp at h
    · obtain ⟨a, ha, hv⟩ := hl
      simp at h
      exact ⟨a, ha, by rw [← h.2, hv, key]⟩
    · simp at h
    · simp at h

/-- `{["a":"x" "b"] "c"}` -/
def exGiven : Syntax := ⟨[.select [.sequence [.tag c!"a" false false (some c!"x") 0, .tag c!"b" false false none 0] 0,
  .tag c!"c" false false none 0] 0], [c!"document"]⟩

/-- The data of a way that was given up is left behind. -/
example : ∃ e, Parses stdLexer exGiven c!"a" [exTok] Indent.default
    (.err e [exTok, ⟨⟨0, 1⟩, .bool c!"x" true⟩]) := by
  have hp : Parses stdLexer exGiven c!"a" [exTok] Indent.default
      (.err ⟨⟨1, 0⟩, .expectedTag c!"b" 0⟩ [exTok, ⟨⟨0, 1⟩, .bool c!"x" true⟩]) :=
    ⟨by simp, 10, by decide +kernel⟩
  exact ⟨_, hp⟩

example : Recs (envOf stdLexer exGiven.rules Indent.default) (.rule exGiven.rules.head!) ⟨c!"a", 0⟩ 0
    [[⟨⟨0, 1⟩, .bool c!"x" true⟩]] := by
  have hx : Run (envOf stdLexer exGiven.rules Indent.default) (.rule (.tag c!"a" false false (some c!"x") 0))
      ⟨c!"a", 0⟩ 0 (some (1, [⟨⟨0, 1⟩, .bool c!"x" true⟩])) 0 [] := .tag_ok (t := c!"a") (by decide)
  have hb : Run (envOf stdLexer exGiven.rules Indent.default) (.rule (.tag c!"b" false false none 0))
      (adv ⟨c!"a", 0⟩ 1) 0 none 0 _ := .tag_fail (by decide)
  have hc : Run (envOf stdLexer exGiven.rules Indent.default) (.rule (.tag c!"c" false false none 0))
      ⟨c!"a", 0⟩ 0 none 0 _ := .tag_fail (by decide)
  refine .select (.sel_next (a := [[⟨⟨0, 1⟩, .bool c!"x" true⟩]]) (b := []) (.sequence (.seq_cons hx (.seq_fail hb))) ?_
    (.sel_next (a := []) (b := []) hc (.leaf_fail trivial hc) .sel_nil))
  exact .sequence (.seq_cons (b := []) hx (.leaf_ok trivial hx) (.seq_fail hb (.leaf_fail trivial hb)))

end Verif.Props
