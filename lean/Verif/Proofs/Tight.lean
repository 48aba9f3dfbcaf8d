import Verif.Spec.Tight
import Verif.Proofs.Compose
/-
Whitespace that is not needed may be left out.
-/
namespace Verif.Props
open Spec

theorem tightAll_mem {r : Rule} : ∀ {rs : List Rule}, r ∈ rs → tight r ∈ tightAll rs
  | q :: rs, h => by
    rcases List.mem_cons.1 h with rfl | h
    · simp [tightAll]
    · simp [tightAll, tightAll_mem h]

theorem mem_tightAll {q : Rule} : ∀ {rs : List Rule}, q ∈ tightAll rs → ∃ r, r ∈ rs ∧ Goal.rule q = tightGoal (.rule r)
  | r :: rs, h => by
    rcases List.mem_cons.1 (by simpa only [tightAll] using h) with rfl | h
    · exact ⟨r, List.mem_cons_self, rfl⟩
    · obtain ⟨r', h1, h2⟩ := mem_tightAll h
      exact ⟨r', List.mem_cons_of_mem _ h1, h2⟩

section
variable {L : Lexer} {refs : List Rule} {ind : Indent}

/-- Rules that call no others do not depend on the other rules. -/
theorem leaf_refs {refs' : List Rule} {r p i n ts j tr} (hr : CallsNone r) (h : Run (envOf L refs ind) (.rule r) p i (some (n, ts)) j tr) :
    Run (envOf L refs' ind) (.rule r) p i (some (n, ts)) j tr := by
  generalize ho : some (n, ts) = o at h
  cases h with
  | ws_ok h h0 => cases ho; exact .ws_ok h h0
  | tag_ok h => cases ho; exact .tag_ok h
  | notTag_ok h => cases ho; exact .notTag_ok h
  | until_ok h h0 => cases ho; exact .until_ok h h0
  | untilWs_ok h h0 => cases ho; exact .untilWs_ok h h0
  | text_ok h h2 hv => cases ho; exact .text_ok h h2 hv
  | num_ok h hv => cases ho; exact .num_ok h hv
  | _ => first | exact hr.elim | cases ho

variable (L refs ind) in
/-- Put together in both ways. -/
def BothWays (g : Goal) (off : Nat) (x : Str) (ts : List Tok) : Prop :=
  Composes (envOf L (refs.map tight) ind) (tightGoal g) off x ts ∧ Composes (envOf L refs ind) g off x ts

variable (L refs ind) in
/-- No longer, with the same data, wherever it stands. -/
def Tightens (g : Goal) (x : Str) (ts : List Tok) (y : Str) : Prop :=
  y.length ≤ x.length ∧ ∀ off, ∃ us, BothWays L refs ind g off y us ∧ us.map (·.data) = ts.map (·.data)

/-- Whitespace that is not needed may be left out, and one space put for other whitespace. -/
theorem composes_tightens {g off x ts} (h : Composes (envOf L refs ind) g off x ts) : ∃ y, Tightens L refs ind g x ts y := by
  have two : ∀ {ts us ts' us' : List Tok}, ts'.map (·.data) = ts.map (·.data) → us'.map (·.data) = us.map (·.data) →
      (ts' ++ us').map (·.data) = (ts ++ us).map (·.data) := fun h h' => by rw [List.map_append, List.map_append, h, h']
  have one : ∀ {g g' x ts ts'}, (∃ y, Tightens L refs ind g x ts y) →
      (∀ off y us, BothWays L refs ind g off y us → BothWays L refs ind g' off y us) → ts' = ts → ∃ y, Tightens L refs ind g' x ts' y := by
    rintro g g' x ts ts' ⟨y, h1, h2⟩ h3 rfl
    exact ⟨y, h1, fun off => (h2 off).imp fun us h => ⟨h3 _ _ _ h.1, h.2⟩⟩
  have both : ∀ {g g' g'' x ts x' ts'}, (∃ y, Tightens L refs ind g x ts y) → (∃ y, Tightens L refs ind g' x' ts' y) →
      (∀ off y us y' us', BothWays L refs ind g off y us → BothWays L refs ind g' (off + y.length) y' us' →
        BothWays L refs ind g'' off (y ++ y') (us ++ us')) → ∃ y, Tightens L refs ind g'' (x ++ x') (ts ++ ts') y := by
    rintro g g' g'' x ts x' ts' ⟨y, h1, h2⟩ ⟨y', h1', h2'⟩ h3
    refine ⟨y ++ y', by simp only [List.length_append]; omega, fun off => ?_⟩
    obtain ⟨us, h4, h5⟩ := h2 off
    obtain ⟨us', h6, h7⟩ := h2' (off + y.length)
    exact ⟨_, h3 _ _ _ _ _ h4 h6, two h5 h7⟩
  have none : ∀ {g}, (∀ off, BothWays L refs ind g off [] []) → ∃ y, Tightens L refs ind g [] [] y :=
    fun h => ⟨[], Nat.le_refl _, fun off => ⟨[], h off, rfl⟩⟩
  induction h with
  | @token r off x i ts j tr hr h =>
    by_cases hw : ∃ opt id, r = .whitespace opt id
    · obtain ⟨opt, id, rfl⟩ := hw
      generalize ho : some (x.length, ts) = o at h
      cases h with
      | ws_fail => cases ho
      | ws_ok h h0 =>
        cases ho
        cases opt with
        | true =>
          refine ⟨[], Nat.zero_le _, fun off => ⟨[], ⟨.token (i := 0) (j := 0) (tr := []) trivial ?_, .token (i := 0) (j := 0) (tr := []) trivial ?_⟩, rfl⟩⟩
          · exact .tag_ok (p := ⟨[], off⟩) (t := []) (prop := Option.none) (List.nil_prefix)
          · exact .ws_ok (p := ⟨[], off⟩) (n := 0) ⟨Nat.le_refl _, by simp, by simp⟩ (by simp)
        | false =>
          refine ⟨[' '], ?_, fun off => ⟨[], ⟨.token (i := 0) (j := 0) (tr := []) trivial ?_, .token (i := 0) (j := 0) (tr := []) trivial ?_⟩, rfl⟩⟩
          · exact Nat.pos_of_ne_zero fun h => by cases h0 h
          · exact .tag_ok (p := ⟨[' '], off⟩) (t := [' ']) (prop := Option.none) (List.prefix_refl _)
          · exact .ws_ok (p := ⟨[' '], off⟩) (n := 1) ⟨Nat.le_refl _, by simp; decide, by simp⟩ (by simp)
    · have ht : tight r = r := by
        cases r <;> first | rfl | exact hr.elim | exact absurd ⟨_, _, rfl⟩ hw
      refine ⟨x, Nat.le_refl _, fun off' => ?_⟩
      obtain ⟨us, h1, h2⟩ := leaf_elsewhere hr h off'
      refine ⟨us, ⟨?_, .token hr h1⟩, h2⟩
      rw [tightGoal, ht]
      exact .token hr (leaf_refs hr h1)
  | select hr _ ih => exact one ih (fun _ _ _ h => ⟨by rw [tightGoal, tight]; exact .select (tightAll_mem hr) h.1, .select hr h.2⟩) rfl
  | sequence _ ih => exact one ih (fun _ _ _ h => ⟨by rw [tightGoal, tight]; exact .sequence h.1, .sequence h.2⟩) rfl
  | seq_nil => exact none fun off => ⟨.seq_nil, .seq_nil⟩
  | seq_cons _ _ ih ih' => exact both ih ih' fun _ _ _ _ _ h h' => ⟨.seq_cons h.1 h'.1, .seq_cons h.2 h'.2⟩
  | repeat_any _ ih => exact one ih (fun _ _ _ h => ⟨by rw [tightGoal, tight]; exact .repeat_any h.1, .repeat_any h.2⟩) rfl
  | repeat_some _ _ ih ih' =>
    exact both ih ih' fun _ _ _ _ _ h h' => ⟨by rw [tightGoal, tight]; exact .repeat_some h.1 h'.1, .repeat_some h.2 h'.2⟩
  | rep_nil => exact none fun off => ⟨.rep_nil, .rep_nil⟩
  | rep_cons _ _ ih ih' => exact both ih ih' fun _ _ _ _ _ h h' => ⟨.rep_cons h.1 h'.1, .rep_cons h.2 h'.2⟩
  | sep_none => exact none fun off => ⟨by rw [tightGoal, tight]; exact .sep_none, .sep_none⟩
  | sep_some _ _ ih ih' =>
    exact both ih ih' fun _ _ _ _ _ h h' => ⟨by rw [tightGoal, tight]; exact .sep_some h.1 h'.1, .sep_some h.2 h'.2⟩
  | tail_nil => exact none fun off => ⟨.tail_nil, .tail_nil⟩
  | tail_trail _ ih => exact one ih (fun _ _ _ h => ⟨.tail_trail h.1, .tail_trail h.2⟩) rfl
  | tail_cons _ _ _ ih ih' ih'' =>
    obtain ⟨z, a1, a2⟩ := ih
    obtain ⟨x', b1, b2⟩ := ih'
    obtain ⟨y', c1, c2⟩ := ih''
    refine ⟨z ++ (x' ++ y'), by simp only [List.length_append]; omega, fun off => ?_⟩
    obtain ⟨rs, a3, a4⟩ := a2 off
    obtain ⟨ts, b3, b4⟩ := b2 (off + z.length)
    obtain ⟨us, c3, c4⟩ := c2 (off + z.length + x'.length)
    exact ⟨_, ⟨.tail_cons a3.1 b3.1 c3.1, .tail_cons a3.2 b3.2 c3.2⟩, two a4 (two b4 c4)⟩
  | @node name prop ix id off q x ts hr _ ih =>
    obtain ⟨y, h1, h2⟩ := ih
    refine ⟨y, h1, fun off => ?_⟩
    obtain ⟨us, h3, h4⟩ := h2 off
    refine ⟨_, ⟨?_, .node hr h3.2⟩, wrapped_data h4⟩
    have hr' : (envOf L (refs.map tight) ind).refs[ix]? = some (tight q) := by
      simp only [envOf] at hr ⊢
      rw [List.getElem?_map, hr]; rfl
    exact .node hr' h3.1
  | optional_none => exact none fun off => ⟨by rw [tightGoal, tight]; exact .optional_none, .optional_none⟩
  | optional_some _ ih => exact one ih (fun _ _ _ h => ⟨by rw [tightGoal, tight]; exact .optional_some h.1, .optional_some h.2⟩) rfl

/-- What has been put together without needless whitespace is put together. -/
theorem tight_composes {g' off x ts} (h : Composes (envOf L (refs.map tight) ind) g' off x ts) :
    ∀ g, tightGoal g = g' → Composes (envOf L refs ind) g off x ts := by
  induction h with
  | @token r off x i ts j tr hr h =>
    intro g hg
    match g, hg with
    | .rule (.whitespace true id), hg =>
      cases hg
      generalize ho : some (x.length, ts) = o at h
      cases h with
      | tag_fail => cases ho
      | tag_ok h =>
        simp only [Option.some.injEq, Prod.mk.injEq] at ho
        obtain ⟨e, rfl⟩ := ho
        have : x = [] := List.eq_nil_of_length_eq_zero e
        subst this
        exact .token (i := 0) (j := 0) (tr := []) trivial (.ws_ok (p := ⟨[], off⟩) (n := 0) ⟨Nat.le_refl _, by simp, by simp⟩ (by simp))
    | .rule (.whitespace false id), hg =>
      cases hg
      generalize ho : some (x.length, ts) = o at h
      cases h with
      | tag_fail => cases ho
      | tag_ok h =>
        simp only [Option.some.injEq, Prod.mk.injEq] at ho
        obtain ⟨e, rfl⟩ := ho
        have := h.eq_of_length e.symm
        simp only at this
        subst this
        exact .token (i := 0) (j := 0) (tr := []) trivial (.ws_ok (p := ⟨[' '], off⟩) (n := 1) ⟨Nat.le_refl _, by simp; decide, by simp⟩ (by simp))
    | .rule (.tag ..), hg | .rule (.untilAny ..), hg | .rule (.untilAnyOrWs ..), hg | .rule (.text ..), hg | .rule (.number ..), hg =>
      cases hg
      exact .token hr (leaf_refs hr h)
    | .rule (.select ..), hg | .rule (.fastSelect ..), hg | .rule (.sequence ..), hg | .rule (.separateBy ..), hg | .rule (.repeat_ ..), hg
    | .rule (.lines ..), hg | .rule (.node ..), hg | .rule (.optional ..), hg | .rule (.not ..), hg => cases hg; exact hr.elim
  | select hr _ ih =>
    intro g hg
    match g, hg with
    | .rule (.select rs id), hg =>
      cases hg
      obtain ⟨q, hq, e⟩ := mem_tightAll hr
      exact .select hq (ih _ e.symm)
    | .rule (.whitespace true _), hg | .rule (.whitespace false _), hg => cases hg
  | sequence _ ih =>
    intro g hg
    match g, hg with
    | .rule (.sequence rs id), hg => cases hg; exact .sequence (ih _ rfl)
    | .rule (.whitespace true _), hg | .rule (.whitespace false _), hg => cases hg
  | seq_nil =>
    intro g hg
    match g, hg with
    | .seq [], _ => exact .seq_nil
  | seq_cons _ _ ih ih' =>
    intro g hg
    match g, hg with
    | .seq (r :: rs), hg => cases hg; exact .seq_cons (ih (.rule r) rfl) (ih' (.seq rs) rfl)
  | repeat_any _ ih =>
    intro g hg
    match g, hg with
    | .rule (.repeat_ r o id), hg => cases hg; exact .repeat_any (ih (.rep r) rfl)
    | .rule (.whitespace true _), hg | .rule (.whitespace false _), hg => cases hg
  | repeat_some _ _ ih ih' =>
    intro g hg
    match g, hg with
    | .rule (.repeat_ r o id), hg => cases hg; exact .repeat_some (ih (.rule r) rfl) (ih' (.rep r) rfl)
    | .rule (.whitespace true _), hg | .rule (.whitespace false _), hg => cases hg
  | rep_nil =>
    intro g hg
    match g, hg with
    | .rep r, hg => exact .rep_nil
  | rep_cons _ _ ih ih' =>
    intro g hg
    match g, hg with
    | .rep r, hg => cases hg; exact .rep_cons (ih (.rule r) rfl) (ih' (.rep r) rfl)
  | sep_none =>
    intro g hg
    match g, hg with
    | .rule (.separateBy r b o t id), hg => cases hg; exact .sep_none
    | .rule (.whitespace true _), hg | .rule (.whitespace false _), hg => cases hg
  | sep_some _ _ ih ih' =>
    intro g hg
    match g, hg with
    | .rule (.separateBy r b o t id), hg => cases hg; exact .sep_some (ih (.rule r) rfl) (ih' (.sepTail r b _) rfl)
    | .rule (.whitespace true _), hg | .rule (.whitespace false _), hg => cases hg
  | tail_nil =>
    intro g hg
    match g, hg with
    | .sepTail r b t, hg => exact .tail_nil
  | tail_trail _ ih =>
    intro g hg
    match g, hg with
    | .sepTail r b t, hg => cases hg; exact .tail_trail (ih (.rule b) rfl)
  | tail_cons _ _ _ ih ih' ih'' =>
    intro g hg
    match g, hg with
    | .sepTail r b t, hg => cases hg; exact .tail_cons (ih (.rule b) rfl) (ih' (.rule r) rfl) (ih'' (.sepTail r b _) rfl)
  | @node name prop ix id off q x ts hr _ ih =>
    intro g hg
    match g, hg with
    | .rule (.node ..), hg =>
      cases hg
      simp only [envOf, List.getElem?_map, Option.map_eq_some_iff] at hr
      obtain ⟨q', hr', rfl⟩ := hr
      exact .node hr' (ih (.rule q') rfl)
    | .rule (.whitespace true _), hg | .rule (.whitespace false _), hg => cases hg
  | optional_none =>
    intro g hg
    match g, hg with
    | .rule (.optional r id), hg => cases hg; exact .optional_none
    | .rule (.whitespace true _), hg | .rule (.whitespace false _), hg => cases hg
  | optional_some _ ih =>
    intro g hg
    match g, hg with
    | .rule (.optional r id), hg => cases hg; exact .optional_some (ih (.rule r) rfl)
    | .rule (.whitespace true _), hg | .rule (.whitespace false _), hg => cases hg

end

end Verif.Props
