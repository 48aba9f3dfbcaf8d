import Verif.Spec.Rewrite
import Verif.Proofs.RunProps
/-
Replacing rules by equal rules does not change runs.
-/
namespace Verif
open Spec

theorem Spec.RewriteL.refl {Q} : ∀ rs, RewriteL Q rs rs
  | [] => .nil
  | _ :: rs => .cons .keep (RewriteL.refl rs)

mutual
theorem Spec.Rewrite.flip {Q : Rule → Rule → Prop} {r r'} (h : Rewrite Q r r') :
    Rewrite (fun a b => Q b a) r' r :=
  match h with
  | .keep => .keep
  | .law h => .law h
  | .select h => .select (RewriteL.flip h)
  | .fastSelect h => .fastSelect (RewriteL.flip h)
  | .sequence h => .sequence (RewriteL.flip h)
  | .separateBy h h' => .separateBy (Rewrite.flip h) (Rewrite.flip h')
  | .repeat_ h => .repeat_ (Rewrite.flip h)
  | .lines h => .lines (Rewrite.flip h)
  | .optional h => .optional (Rewrite.flip h)
  | .not h => .not (Rewrite.flip h)
theorem Spec.RewriteL.flip {Q : Rule → Rule → Prop} {rs rs'} (h : RewriteL Q rs rs') :
    RewriteL (fun a b => Q b a) rs' rs :=
  match h with
  | .nil => .nil
  | .cons h h' => .cons (Rewrite.flip h) (RewriteL.flip h')
end

theorem Spec.RewriteL.get {Q rs rs'} (h : RewriteL Q rs rs') : ∀ {k : Nat} {r}, rs[k]? = some r →
    ∃ r', rs'[k]? = some r' ∧ Rewrite Q r r' := by
  match h with
  | .nil => intro k r hk; simp at hk
  | .cons h h' =>
    intro k r hk
    cases k with
    | zero => simp at hk; subst hk; exact ⟨_, rfl, h⟩
    | succ k => simpa using RewriteL.get h' (by simpa using hk)

theorem Spec.RewriteL.length {Q rs rs'} (h : RewriteL Q rs rs') : rs.length = rs'.length := by
  match h with
  | .nil => rfl
  | .cons _ h' => simp [RewriteL.length h']

theorem Spec.RewriteL.last {Q rs rs'} (h : RewriteL Q rs rs') {r} (hr : rs.getLast? = some r) :
    ∃ r', rs'.getLast? = some r' ∧ Rewrite Q r r' := by
  rw [List.getLast?_eq_getElem?] at hr ⊢
  rw [← h.length]
  exact h.get hr

/-- Goals of the same form whose rules are rewritten; a whole rule keeps its form too. -/
inductive GoalKeeps (Q : Rule → Rule → Prop) : Goal → Goal → Prop
  | same {r} : GoalKeeps Q (.rule r) (.rule r)
  | select {rs rs' id} (h : RewriteL Q rs rs') :
      GoalKeeps Q (.rule (.select rs id)) (.rule (.select rs' id))
  | fastSelect {tb rs rs' tail id} (h : RewriteL Q rs rs') :
      GoalKeeps Q (.rule (.fastSelect tb rs tail id)) (.rule (.fastSelect tb rs' tail id))
  | sequence {rs rs' id} (h : RewriteL Q rs rs') :
      GoalKeeps Q (.rule (.sequence rs id)) (.rule (.sequence rs' id))
  | separateBy {r r' b b' opt trail id} (h : Rewrite Q r r') (h' : Rewrite Q b b') :
      GoalKeeps Q (.rule (.separateBy r b opt trail id)) (.rule (.separateBy r' b' opt trail id))
  | repeat_ {r r' opt id} (h : Rewrite Q r r') :
      GoalKeeps Q (.rule (.repeat_ r opt id)) (.rule (.repeat_ r' opt id))
  | linesRule {r r' ind id} (h : Rewrite Q r r') :
      GoalKeeps Q (.rule (.lines r ind id)) (.rule (.lines r' ind id))
  | optional {r r' id} (h : Rewrite Q r r') :
      GoalKeeps Q (.rule (.optional r id)) (.rule (.optional r' id))
  | not {r r' id} (h : Rewrite Q r r') : GoalKeeps Q (.rule (.not r id)) (.rule (.not r' id))
  | sel {rs rs'} (h : RewriteL Q rs rs') : GoalKeeps Q (.sel rs) (.sel rs')
  | seq {rs rs'} (h : RewriteL Q rs rs') : GoalKeeps Q (.seq rs) (.seq rs')
  | rep {r r'} (h : Rewrite Q r r') : GoalKeeps Q (.rep r) (.rep r')
  | sepTail {r r' b b' trail} (h : Rewrite Q r r') (h' : Rewrite Q b b') :
      GoalKeeps Q (.sepTail r b trail) (.sepTail r' b' trail)
  | lines {r r' ind id first item} (h : Rewrite Q r r') :
      GoalKeeps Q (.lines r ind id first item) (.lines r' ind id first item)
  | line {r r' ind first} (h : Rewrite Q r r') :
      GoalKeeps Q (.line r ind first) (.line r' ind first)

/-- From goals that keep their form to rules that are rewritten. -/
theorem rw_rule {Q : Rule → Rule → Prop} {E' : Env} (hQ : ∀ r r', Q r r' → Same E' r r')
    {r p i o j tr} (h : ∀ g', GoalKeeps Q (.rule r) g' → Run E' g' p i o j tr) {r'}
    (hr : Rewrite Q r r') : Run E' (.rule r') p i o j tr := by
  cases hr with
  | keep => exact h _ .same
  | law hq => exact (hQ _ _ hq _ _ _ _ _).1 (h _ .same)
  | select h1 => exact h _ (.select h1)
  | fastSelect h1 => exact h _ (.fastSelect h1)
  | sequence h1 => exact h _ (.sequence h1)
  | separateBy h1 h2 => exact h _ (.separateBy h1 h2)
  | repeat_ h1 => exact h _ (.repeat_ h1)
  | lines h1 => exact h _ (.linesRule h1)
  | optional h1 => exact h _ (.optional h1)
  | not h1 => exact h _ (.not h1)

theorem keeps_select {Q rs id g'} (h : GoalKeeps Q (.rule (.select rs id)) g') :
    ∃ rs', g' = .rule (.select rs' id) ∧ RewriteL Q rs rs' := by
  cases h with
  | same => exact ⟨_, rfl, RewriteL.refl _⟩
  | select h => exact ⟨_, rfl, h⟩
theorem keeps_fast {Q tb rs tail id g'} (h : GoalKeeps Q (.rule (.fastSelect tb rs tail id)) g') :
    ∃ rs', g' = .rule (.fastSelect tb rs' tail id) ∧ RewriteL Q rs rs' := by
  cases h with
  | same => exact ⟨_, rfl, RewriteL.refl _⟩
  | fastSelect h => exact ⟨_, rfl, h⟩
theorem keeps_sequence {Q rs id g'} (h : GoalKeeps Q (.rule (.sequence rs id)) g') :
    ∃ rs', g' = .rule (.sequence rs' id) ∧ RewriteL Q rs rs' := by
  cases h with
  | same => exact ⟨_, rfl, RewriteL.refl _⟩
  | sequence h => exact ⟨_, rfl, h⟩
theorem keeps_sep {Q r b opt trail id g'} (h : GoalKeeps Q (.rule (.separateBy r b opt trail id)) g') :
    ∃ r' b', g' = .rule (.separateBy r' b' opt trail id) ∧ Rewrite Q r r' ∧ Rewrite Q b b' := by
  cases h with
  | same => exact ⟨_, _, rfl, .keep, .keep⟩
  | separateBy h h' => exact ⟨_, _, rfl, h, h'⟩
theorem keeps_repeat {Q r opt id g'} (h : GoalKeeps Q (.rule (.repeat_ r opt id)) g') :
    ∃ r', g' = .rule (.repeat_ r' opt id) ∧ Rewrite Q r r' := by
  cases h with
  | same => exact ⟨_, rfl, .keep⟩
  | repeat_ h => exact ⟨_, rfl, h⟩
theorem keeps_lines {Q r ind id g'} (h : GoalKeeps Q (.rule (.lines r ind id)) g') :
    ∃ r', g' = .rule (.lines r' ind id) ∧ Rewrite Q r r' := by
  cases h with
  | same => exact ⟨_, rfl, .keep⟩
  | linesRule h => exact ⟨_, rfl, h⟩
theorem keeps_optional {Q r id g'} (h : GoalKeeps Q (.rule (.optional r id)) g') :
    ∃ r', g' = .rule (.optional r' id) ∧ Rewrite Q r r' := by
  cases h with
  | same => exact ⟨_, rfl, .keep⟩
  | optional h => exact ⟨_, rfl, h⟩
theorem keeps_not {Q r id g'} (h : GoalKeeps Q (.rule (.not r id)) g') :
    ∃ r', g' = .rule (.not r' id) ∧ Rewrite Q r r' := by
  cases h with
  | same => exact ⟨_, rfl, .keep⟩
  | not h => exact ⟨_, rfl, h⟩

theorem keeps_sel {Q rs g'} (h : GoalKeeps Q (.sel rs) g') :
    ∃ rs', g' = .sel rs' ∧ RewriteL Q rs rs' := by
  cases h with
  | sel h => exact ⟨_, rfl, h⟩
theorem keeps_seq {Q rs g'} (h : GoalKeeps Q (.seq rs) g') :
    ∃ rs', g' = .seq rs' ∧ RewriteL Q rs rs' := by
  cases h with
  | seq h => exact ⟨_, rfl, h⟩
theorem keeps_rep {Q r g'} (h : GoalKeeps Q (.rep r) g') : ∃ r', g' = .rep r' ∧ Rewrite Q r r' := by
  cases h with
  | rep h => exact ⟨_, rfl, h⟩
theorem keeps_sepTail {Q r b trail g'} (h : GoalKeeps Q (.sepTail r b trail) g') :
    ∃ r' b', g' = .sepTail r' b' trail ∧ Rewrite Q r r' ∧ Rewrite Q b b' := by
  cases h with
  | sepTail h h' => exact ⟨_, _, rfl, h, h'⟩
theorem keeps_linesGoal {Q r ind id first item g'} (h : GoalKeeps Q (.lines r ind id first item) g') :
    ∃ r', g' = .lines r' ind id first item ∧ Rewrite Q r r' := by
  cases h with
  | lines h => exact ⟨_, rfl, h⟩
theorem keeps_line {Q r ind first g'} (h : GoalKeeps Q (.line r ind first) g') :
    ∃ r', g' = .line r' ind first ∧ Rewrite Q r r' := by
  cases h with
  | line h => exact ⟨_, rfl, h⟩

/-- A run stays a run when rules are replaced by equal rules. -/
theorem run_rewrite {Q : Rule → Rule → Prop} {E E' : Env} (hLe : E'.L = E.L) (hal : E'.align = E.align)
    (htab : E'.tab = E.tab) (hQ : ∀ r r', Q r r' → Same E' r r')
    (hrefs : RewriteL Q E.refs E'.refs) {g p i o j tr} (h : Run E g p i o j tr) :
    ∀ g', GoalKeeps Q g g' → Run E' g' p i o j tr := by
  induction h with
  | ws_ok h h0 => rintro _ ⟨⟩; exact .ws_ok h h0
  | ws_fail h => rintro _ ⟨⟩; exact .ws_fail h
  | tag_ok h => rintro _ ⟨⟩; exact .tag_ok h
  | tag_fail h => rintro _ ⟨⟩; exact .tag_fail h
  | notTag_ok h => rintro _ ⟨⟩; exact .notTag_ok h
  | notTag_fail h => rintro _ ⟨⟩; exact .notTag_fail h
  | until_ok h h0 => rintro _ ⟨⟩; exact .until_ok h h0
  | until_fail h => rintro _ ⟨⟩; exact .until_fail h
  | untilWs_ok h h0 => rintro _ ⟨⟩; exact .untilWs_ok h h0
  | untilWs_fail h => rintro _ ⟨⟩; exact .untilWs_fail h
  | text_ok h h2 ht => rintro _ ⟨⟩; exact .text_ok (by rwa [hLe]) h2 (by rwa [hLe])
  | text_none h => rintro _ ⟨⟩; exact .text_none (by rwa [hLe])
  | text_empty h => rintro _ ⟨⟩; exact .text_empty (by rwa [hLe])
  | text_bad h h2 ht => rintro _ ⟨⟩; exact .text_bad (by rwa [hLe]) h2 (by rwa [hLe])
  | num_ok h hv => rintro _ ⟨⟩; exact .num_ok (by rwa [hLe]) (by rwa [hLe])
  | num_none h => rintro _ ⟨⟩; exact .num_none (by rwa [hLe])
  | num_bad h hv => rintro _ ⟨⟩; exact .num_bad (by rwa [hLe]) (by rwa [hLe])
  | select_empty =>
    intro g' hg
    obtain ⟨rs', rfl, ⟨⟩⟩ := keeps_select hg
    exact .select_empty
  | select h ih =>
    intro g' hg
    obtain ⟨rs', rfl, hr⟩ := keeps_select hg
    have := ih _ (.sel hr)
    cases hr with
    | cons => exact .select this
  | sel_nil =>
    intro g' hg
    obtain ⟨_, rfl, ⟨⟩⟩ := keeps_sel hg
    exact .sel_nil
  | sel_here h ih =>
    intro g' hg
    obtain ⟨_, rfl, hl⟩ := keeps_sel hg
    cases hl with
    | cons hr hrs => exact .sel_here (rw_rule hQ ih hr)
  | sel_next h h' ih ih' =>
    intro g' hg
    obtain ⟨_, rfl, hl⟩ := keeps_sel hg
    cases hl with
    | cons hr hrs => exact .sel_next (rw_rule hQ ih hr) (ih' _ (.sel hrs))
  | fast_end h =>
    intro g' hg
    obtain ⟨rs', rfl, hr⟩ := keeps_fast hg
    exact .fast_end h
  | fast_miss h hb ht =>
    intro g' hg
    obtain ⟨rs', rfl, hr⟩ := keeps_fast hg
    exact .fast_miss h hb ht
  | fast_hit h hb ht hr h' ih =>
    intro g' hg
    obtain ⟨rs', rfl, hrs⟩ := keeps_fast hg
    obtain ⟨r', h1, h2⟩ := hrs.get hr
    exact .fast_hit h hb ht h1 (rw_rule hQ ih h2)
  | fastTail_miss h hb ht hr h' ih =>
    intro g' hg
    obtain ⟨rs', rfl, hrs⟩ := keeps_fast hg
    obtain ⟨r', h1, h2⟩ := hrs.last hr
    exact .fastTail_miss h hb ht h1 (rw_rule hQ ih h2)
  | fastTail_hit h hb ht hr h' ih =>
    intro g' hg
    obtain ⟨rs', rfl, hrs⟩ := keeps_fast hg
    obtain ⟨r', h1, h2⟩ := hrs.get hr
    exact .fastTail_hit h hb ht h1 (rw_rule hQ ih h2)
  | fastTail_next h hb ht hr h' hr' h'' ih ih' =>
    intro g' hg
    obtain ⟨rs', rfl, hrs⟩ := keeps_fast hg
    obtain ⟨r', h1, h2⟩ := hrs.get hr
    obtain ⟨r'', h3, h4⟩ := hrs.last hr'
    exact .fastTail_next h hb ht h1 (rw_rule hQ ih h2) h3 (rw_rule hQ ih' h4)
  | sequence h ih =>
    intro g' hg
    obtain ⟨rs', rfl, hr⟩ := keeps_sequence hg
    exact .sequence (ih _ (.seq hr))
  | seq_nil =>
    intro g' hg
    obtain ⟨_, rfl, ⟨⟩⟩ := keeps_seq hg
    exact .seq_nil
  | seq_fail h ih =>
    intro g' hg
    obtain ⟨_, rfl, hl⟩ := keeps_seq hg
    cases hl with
    | cons hr hrs => exact .seq_fail (rw_rule hQ ih hr)
  | seq_cons h h' ih ih' =>
    intro g' hg
    obtain ⟨_, rfl, hl⟩ := keeps_seq hg
    cases hl with
    | cons hr hrs => exact .seq_cons (rw_rule hQ ih hr) (ih' _ (.seq hrs))
  | repeat_opt h ih =>
    intro g' hg
    obtain ⟨r', rfl, hr⟩ := keeps_repeat hg
    exact .repeat_opt (ih _ (.rep hr))
  | repeat_fail h ih =>
    intro g' hg
    obtain ⟨r', rfl, hr⟩ := keeps_repeat hg
    exact .repeat_fail (rw_rule hQ ih hr)
  | repeat_ok h h' ih ih' =>
    intro g' hg
    obtain ⟨r', rfl, hr⟩ := keeps_repeat hg
    exact .repeat_ok (rw_rule hQ ih hr) (ih' _ (.rep hr))
  | rep_stop h ih =>
    intro g' hg
    obtain ⟨_, rfl, hr⟩ := keeps_rep hg
    exact .rep_stop (rw_rule hQ ih hr)
  | rep_more h h' ih ih' =>
    intro g' hg
    obtain ⟨_, rfl, hr⟩ := keeps_rep hg
    exact .rep_more (rw_rule hQ ih hr) (ih' _ (.rep hr))
  | sep_none h ih =>
    intro g' hg
    obtain ⟨r', b', rfl, hr, hb⟩ := keeps_sep hg
    exact .sep_none (rw_rule hQ ih hr)
  | sep_fail h ih =>
    intro g' hg
    obtain ⟨r', b', rfl, hr, hb⟩ := keeps_sep hg
    exact .sep_fail (rw_rule hQ ih hr)
  | sep_first h h' ih ih' =>
    intro g' hg
    obtain ⟨r', b', rfl, hr, hb⟩ := keeps_sep hg
    exact .sep_first (rw_rule hQ ih hr) (ih' _ (.sepTail hr hb))
  | sep_stop h ih =>
    intro g' hg
    obtain ⟨_, _, rfl, hr, hb⟩ := keeps_sepTail hg
    exact .sep_stop (rw_rule hQ ih hb)
  | sep_trail h h' ih ih' =>
    intro g' hg
    obtain ⟨_, _, rfl, hr, hb⟩ := keeps_sepTail hg
    exact .sep_trail (rw_rule hQ ih hb) (rw_rule hQ ih' hr)
  | sep_noTrail h h' ih ih' =>
    intro g' hg
    obtain ⟨_, _, rfl, hr, hb⟩ := keeps_sepTail hg
    exact .sep_noTrail (rw_rule hQ ih hb) (rw_rule hQ ih' hr)
  | sep_more h h' h'' ih ih' ih'' =>
    intro g' hg
    obtain ⟨_, _, rfl, hr, hb⟩ := keeps_sepTail hg
    exact .sep_more (rw_rule hQ ih hb) (rw_rule hQ ih' hr) (ih'' _ (.sepTail hr hb))
  | lines h ih =>
    intro g' hg
    obtain ⟨r', rfl, hr⟩ := keeps_lines hg
    exact .lines (ih _ (.lines hr))
  | lines_done h =>
    intro g' hg
    obtain ⟨_, rfl, hr⟩ := keeps_linesGoal hg
    exact .lines_done (by rwa [hLe])
  | lines_fail h =>
    intro g' hg
    obtain ⟨_, rfl, hr⟩ := keeps_linesGoal hg
    exact .lines_fail (by rwa [hLe])
  | lines_stop h h' ih =>
    intro g' hg
    obtain ⟨_, rfl, hr⟩ := keeps_linesGoal hg
    exact .lines_stop (by rwa [hLe]) (ih _ (.line hr))
  | lines_more h h' h'' ih ih' =>
    intro g' hg
    obtain ⟨_, rfl, hr⟩ := keeps_linesGoal hg
    exact .lines_more (by rwa [hLe]) (ih _ (.line hr)) (ih' _ (.lines hr))
  | line_plain h ih =>
    intro g' hg
    obtain ⟨_, rfl, hr⟩ := keeps_line hg
    exact .line_plain (rw_rule hQ ih hr)
  | line_shallow h =>
    intro g' hg
    obtain ⟨_, rfl, hr⟩ := keeps_line hg
    exact .line_shallow (by rwa [htab])
  | line_deep ha h hd =>
    intro g' hg
    obtain ⟨_, rfl, hr⟩ := keeps_line hg
    exact .line_deep (by rwa [hal]) (by rwa [htab]) hd
  | line_body ha h hd hi h' ih =>
    intro g' hg
    obtain ⟨_, rfl, hr⟩ := keeps_line hg
    exact .line_body (by rwa [hal]) (by rwa [htab]) hd hi (rw_rule hQ ih hr)
  | line_align ha h hm hi h' ih =>
    intro g' hg
    obtain ⟨_, rfl, hr⟩ := keeps_line hg
    rw [← htab] at h hi ih ⊢
    exact .line_align (by rwa [hal]) h hm hi (rw_rule hQ ih hr)
  | node_unresolved => rintro _ ⟨⟩; exact .node_unresolved
  | node_fail hr h ih =>
    rintro _ ⟨⟩
    obtain ⟨r', h1, h2⟩ := hrefs.get hr
    exact .node_fail h1 (rw_rule hQ ih h2)
  | node_ok hr h ih =>
    rintro _ ⟨⟩
    obtain ⟨r', h1, h2⟩ := hrefs.get hr
    exact .node_ok h1 (rw_rule hQ ih h2)
  | optional_none h ih =>
    intro g' hg
    obtain ⟨r', rfl, hr⟩ := keeps_optional hg
    exact .optional_none (rw_rule hQ ih hr)
  | optional_some h ih =>
    intro g' hg
    obtain ⟨r', rfl, hr⟩ := keeps_optional hg
    exact .optional_some (rw_rule hQ ih hr)
  | not_ok h ih =>
    intro g' hg
    obtain ⟨r', rfl, hr⟩ := keeps_not hg
    exact .not_ok (rw_rule hQ ih hr)
  | not_fail h ih =>
    intro g' hg
    obtain ⟨r', rfl, hr⟩ := keeps_not hg
    exact .not_fail (rw_rule hQ ih hr)

end Verif
