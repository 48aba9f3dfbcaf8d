import Verif.Spec.Change
import Verif.Proofs.Rewrite
/-
Replacing rules by rules that do the same, but for the failures they meet.
-/
namespace Verif
open Spec

theorem Spec.ChangeL.refl {Q} : ∀ rs, ChangeL Q rs rs
  | [] => .nil
  | _ :: rs => .cons .keep (ChangeL.refl rs)

theorem Spec.ChangeL.get {Q rs rs'} (h : ChangeL Q rs rs') : ∀ {k : Nat} {r}, rs[k]? = some r →
    ∃ r', rs'[k]? = some r' ∧ Change Q r r' := by
  match h with
  | .nil => intro k r hk; simp at hk
  | .cons h h' =>
    intro k r hk
    cases k with
    | zero => simp at hk; subst hk; exact ⟨_, rfl, h⟩
    | succ k => simpa using ChangeL.get h' (by simpa using hk)

theorem Spec.ChangeL.length {Q rs rs'} (h : ChangeL Q rs rs') : rs.length = rs'.length := by
  match h with
  | .nil => rfl
  | .cons _ h' => simp [ChangeL.length h']

theorem Spec.ChangeL.last {Q rs rs'} (h : ChangeL Q rs rs') {r} (hr : rs.getLast? = some r) :
    ∃ r', rs'.getLast? = some r' ∧ Change Q r r' := by
  rw [List.getLast?_eq_getElem?] at hr ⊢
  rw [← h.length]
  exact h.get hr

/-- Goals of the same form whose rules are rewritten; a whole rule keeps its form too. -/
inductive GoalStays (Q : Rule → Rule → Prop) : Goal → Goal → Prop
  | same {r} : GoalStays Q (.rule r) (.rule r)
  | select {rs rs' id} (h : ChangeL Q rs rs') :
      GoalStays Q (.rule (.select rs id)) (.rule (.select rs' id))
  | fastSelect {tb rs rs' tail id} (h : ChangeL Q rs rs') :
      GoalStays Q (.rule (.fastSelect tb rs tail id)) (.rule (.fastSelect tb rs' tail id))
  | sequence {rs rs' id} (h : ChangeL Q rs rs') :
      GoalStays Q (.rule (.sequence rs id)) (.rule (.sequence rs' id))
  | separateBy {r r' b b' opt trail id} (h : Change Q r r') (h' : Change Q b b') :
      GoalStays Q (.rule (.separateBy r b opt trail id)) (.rule (.separateBy r' b' opt trail id))
  | repeat_ {r r' opt id} (h : Change Q r r') :
      GoalStays Q (.rule (.repeat_ r opt id)) (.rule (.repeat_ r' opt id))
  | linesRule {r r' ind id} (h : Change Q r r') :
      GoalStays Q (.rule (.lines r ind id)) (.rule (.lines r' ind id))
  | optional {r r' id} (h : Change Q r r') :
      GoalStays Q (.rule (.optional r id)) (.rule (.optional r' id))
  | not {r r' id} (h : Change Q r r') : GoalStays Q (.rule (.not r id)) (.rule (.not r' id))
  | sel {rs rs'} (h : ChangeL Q rs rs') : GoalStays Q (.sel rs) (.sel rs')
  | seq {rs rs'} (h : ChangeL Q rs rs') : GoalStays Q (.seq rs) (.seq rs')
  | rep {r r'} (h : Change Q r r') : GoalStays Q (.rep r) (.rep r')
  | sepTail {r r' b b' trail} (h : Change Q r r') (h' : Change Q b b') :
      GoalStays Q (.sepTail r b trail) (.sepTail r' b' trail)
  | lines {r r' ind id first item} (h : Change Q r r') :
      GoalStays Q (.lines r ind id first item) (.lines r' ind id first item)
  | line {r r' ind first} (h : Change Q r r') :
      GoalStays Q (.line r ind first) (.line r' ind first)

/-- From goals that keep their form to rules that are changed. -/
theorem chg_rule {Q : Rule → Rule → Prop} {E' : Env} (hQ : ∀ r r', Q r r' → Implies E' r r')
    {r p i o j} (h : ∀ g', GoalStays Q (.rule r) g' → Does E' g' p i o j) {r'}
    (hr : Change Q r r') : Does E' (.rule r') p i o j :=
  match hr with
  | .keep => h _ .same
  | .law h1 hq => hQ _ _ hq _ _ _ _ (chg_rule hQ h h1)
  | .select h1 => h _ (.select h1)
  | .fastSelect h1 => h _ (.fastSelect h1)
  | .sequence h1 => h _ (.sequence h1)
  | .separateBy h1 h2 => h _ (.separateBy h1 h2)
  | .repeat_ h1 => h _ (.repeat_ h1)
  | .lines h1 => h _ (.linesRule h1)
  | .optional h1 => h _ (.optional h1)
  | .not h1 => h _ (.not h1)

theorem stays_select {Q rs id g'} (h : GoalStays Q (.rule (.select rs id)) g') :
    ∃ rs', g' = .rule (.select rs' id) ∧ ChangeL Q rs rs' := by
  cases h with
  | same => exact ⟨_, rfl, ChangeL.refl _⟩
  | select h => exact ⟨_, rfl, h⟩
theorem stays_fast {Q tb rs tail id g'} (h : GoalStays Q (.rule (.fastSelect tb rs tail id)) g') :
    ∃ rs', g' = .rule (.fastSelect tb rs' tail id) ∧ ChangeL Q rs rs' := by
  cases h with
  | same => exact ⟨_, rfl, ChangeL.refl _⟩
  | fastSelect h => exact ⟨_, rfl, h⟩
theorem stays_sequence {Q rs id g'} (h : GoalStays Q (.rule (.sequence rs id)) g') :
    ∃ rs', g' = .rule (.sequence rs' id) ∧ ChangeL Q rs rs' := by
  cases h with
  | same => exact ⟨_, rfl, ChangeL.refl _⟩
  | sequence h => exact ⟨_, rfl, h⟩
theorem stays_sep {Q r b opt trail id g'} (h : GoalStays Q (.rule (.separateBy r b opt trail id)) g') :
    ∃ r' b', g' = .rule (.separateBy r' b' opt trail id) ∧ Change Q r r' ∧ Change Q b b' := by
  cases h with
  | same => exact ⟨_, _, rfl, .keep, .keep⟩
  | separateBy h h' => exact ⟨_, _, rfl, h, h'⟩
theorem stays_repeat {Q r opt id g'} (h : GoalStays Q (.rule (.repeat_ r opt id)) g') :
    ∃ r', g' = .rule (.repeat_ r' opt id) ∧ Change Q r r' := by
  cases h with
  | same => exact ⟨_, rfl, .keep⟩
  | repeat_ h => exact ⟨_, rfl, h⟩
theorem stays_lines {Q r ind id g'} (h : GoalStays Q (.rule (.lines r ind id)) g') :
    ∃ r', g' = .rule (.lines r' ind id) ∧ Change Q r r' := by
  cases h with
  | same => exact ⟨_, rfl, .keep⟩
  | linesRule h => exact ⟨_, rfl, h⟩
theorem stays_optional {Q r id g'} (h : GoalStays Q (.rule (.optional r id)) g') :
    ∃ r', g' = .rule (.optional r' id) ∧ Change Q r r' := by
  cases h with
  | same => exact ⟨_, rfl, .keep⟩
  | optional h => exact ⟨_, rfl, h⟩
theorem stays_not {Q r id g'} (h : GoalStays Q (.rule (.not r id)) g') :
    ∃ r', g' = .rule (.not r' id) ∧ Change Q r r' := by
  cases h with
  | same => exact ⟨_, rfl, .keep⟩
  | not h => exact ⟨_, rfl, h⟩

theorem stays_sel {Q rs g'} (h : GoalStays Q (.sel rs) g') :
    ∃ rs', g' = .sel rs' ∧ ChangeL Q rs rs' := by
  cases h with
  | sel h => exact ⟨_, rfl, h⟩
theorem stays_seq {Q rs g'} (h : GoalStays Q (.seq rs) g') :
    ∃ rs', g' = .seq rs' ∧ ChangeL Q rs rs' := by
  cases h with
  | seq h => exact ⟨_, rfl, h⟩
theorem stays_rep {Q r g'} (h : GoalStays Q (.rep r) g') : ∃ r', g' = .rep r' ∧ Change Q r r' := by
  cases h with
  | rep h => exact ⟨_, rfl, h⟩
theorem stays_sepTail {Q r b trail g'} (h : GoalStays Q (.sepTail r b trail) g') :
    ∃ r' b', g' = .sepTail r' b' trail ∧ Change Q r r' ∧ Change Q b b' := by
  cases h with
  | sepTail h h' => exact ⟨_, _, rfl, h, h'⟩
theorem stays_linesGoal {Q r ind id first item g'} (h : GoalStays Q (.lines r ind id first item) g') :
    ∃ r', g' = .lines r' ind id first item ∧ Change Q r r' := by
  cases h with
  | lines h => exact ⟨_, rfl, h⟩
theorem stays_line {Q r ind first g'} (h : GoalStays Q (.line r ind first) g') :
    ∃ r', g' = .line r' ind first ∧ Change Q r r' := by
  cases h with
  | line h => exact ⟨_, rfl, h⟩

/-- A run stays a run, but for the failures it meets, when rules are changed. -/
theorem run_change {Q : Rule → Rule → Prop} {E E' : Env} (hLe : E'.L = E.L) (hal : E'.align = E.align)
    (htab : E'.tab = E.tab) (hQ : ∀ r r', Q r r' → Implies E' r r')
    (hrefs : ChangeL Q E.refs E'.refs) {g p i o j tr} (h : Run E g p i o j tr) :
    ∀ g', GoalStays Q g g' → Does E' g' p i o j := by
  induction h with
  | ws_ok h h0 => rintro _ ⟨⟩; exact ⟨_, .ws_ok h h0⟩
  | ws_fail h => rintro _ ⟨⟩; exact ⟨_, .ws_fail h⟩
  | tag_ok h => rintro _ ⟨⟩; exact ⟨_, .tag_ok h⟩
  | tag_fail h => rintro _ ⟨⟩; exact ⟨_, .tag_fail h⟩
  | notTag_ok h => rintro _ ⟨⟩; exact ⟨_, .notTag_ok h⟩
  | notTag_fail h => rintro _ ⟨⟩; exact ⟨_, .notTag_fail h⟩
  | until_ok h h0 => rintro _ ⟨⟩; exact ⟨_, .until_ok h h0⟩
  | until_fail h => rintro _ ⟨⟩; exact ⟨_, .until_fail h⟩
  | untilWs_ok h h0 => rintro _ ⟨⟩; exact ⟨_, .untilWs_ok h h0⟩
  | untilWs_fail h => rintro _ ⟨⟩; exact ⟨_, .untilWs_fail h⟩
  | text_ok h h2 ht => rintro _ ⟨⟩; exact ⟨_, .text_ok (by rwa [hLe]) h2 (by rwa [hLe])⟩
  | text_none h => rintro _ ⟨⟩; exact ⟨_, .text_none (by rwa [hLe])⟩
  | text_empty h => rintro _ ⟨⟩; exact ⟨_, .text_empty (by rwa [hLe])⟩
  | text_bad h h2 ht => rintro _ ⟨⟩; exact ⟨_, .text_bad (by rwa [hLe]) h2 (by rwa [hLe])⟩
  | num_ok h hv => rintro _ ⟨⟩; exact ⟨_, .num_ok (by rwa [hLe]) (by rwa [hLe])⟩
  | num_none h => rintro _ ⟨⟩; exact ⟨_, .num_none (by rwa [hLe])⟩
  | num_bad h hv => rintro _ ⟨⟩; exact ⟨_, .num_bad (by rwa [hLe]) (by rwa [hLe])⟩
  | select_empty =>
    intro g' hg
    obtain ⟨rs', rfl, ⟨⟩⟩ := stays_select hg
    exact ⟨_, .select_empty⟩
  | select h ih =>
    intro g' hg
    obtain ⟨rs', rfl, hr⟩ := stays_select hg
    have := ih _ (.sel hr)
    cases hr with
    | cons => exact let ⟨_, a0⟩ := this; ⟨_, .select a0⟩
  | sel_nil =>
    intro g' hg
    obtain ⟨_, rfl, ⟨⟩⟩ := stays_sel hg
    exact ⟨_, .sel_nil⟩
  | sel_here h ih =>
    intro g' hg
    obtain ⟨_, rfl, hl⟩ := stays_sel hg
    cases hl with
    | cons hr hrs => exact let ⟨_, a0⟩ := chg_rule hQ ih hr; ⟨_, .sel_here a0⟩
  | sel_next h h' ih ih' =>
    intro g' hg
    obtain ⟨_, rfl, hl⟩ := stays_sel hg
    cases hl with
    | cons hr hrs => exact let ⟨_, a0⟩ := chg_rule hQ ih hr; let ⟨_, a1⟩ := ih' _ (.sel hrs); ⟨_, .sel_next a0 a1⟩
  | fast_end h =>
    intro g' hg
    obtain ⟨rs', rfl, hr⟩ := stays_fast hg
    exact ⟨_, .fast_end h⟩
  | fast_miss h hb ht =>
    intro g' hg
    obtain ⟨rs', rfl, hr⟩ := stays_fast hg
    exact ⟨_, .fast_miss h hb ht⟩
  | fast_hit h hb ht hr h' ih =>
    intro g' hg
    obtain ⟨rs', rfl, hrs⟩ := stays_fast hg
    obtain ⟨r', h1, h2⟩ := hrs.get hr
    exact let ⟨_, a0⟩ := chg_rule hQ ih h2; ⟨_, .fast_hit h hb ht h1 a0⟩
  | fastTail_miss h hb ht hr h' ih =>
    intro g' hg
    obtain ⟨rs', rfl, hrs⟩ := stays_fast hg
    obtain ⟨r', h1, h2⟩ := hrs.last hr
    exact let ⟨_, a0⟩ := chg_rule hQ ih h2; ⟨_, .fastTail_miss h hb ht h1 a0⟩
  | fastTail_hit h hb ht hr h' ih =>
    intro g' hg
    obtain ⟨rs', rfl, hrs⟩ := stays_fast hg
    obtain ⟨r', h1, h2⟩ := hrs.get hr
    exact let ⟨_, a0⟩ := chg_rule hQ ih h2; ⟨_, .fastTail_hit h hb ht h1 a0⟩
  | fastTail_next h hb ht hr h' hr' h'' ih ih' =>
    intro g' hg
    obtain ⟨rs', rfl, hrs⟩ := stays_fast hg
    obtain ⟨r', h1, h2⟩ := hrs.get hr
    obtain ⟨r'', h3, h4⟩ := hrs.last hr'
    exact let ⟨_, a0⟩ := chg_rule hQ ih h2; let ⟨_, a1⟩ := chg_rule hQ ih' h4; ⟨_, .fastTail_next h hb ht h1 a0 h3 a1⟩
  | sequence h ih =>
    intro g' hg
    obtain ⟨rs', rfl, hr⟩ := stays_sequence hg
    exact let ⟨_, a0⟩ := ih _ (.seq hr); ⟨_, .sequence a0⟩
  | seq_nil =>
    intro g' hg
    obtain ⟨_, rfl, ⟨⟩⟩ := stays_seq hg
    exact ⟨_, .seq_nil⟩
  | seq_fail h ih =>
    intro g' hg
    obtain ⟨_, rfl, hl⟩ := stays_seq hg
    cases hl with
    | cons hr hrs => exact let ⟨_, a0⟩ := chg_rule hQ ih hr; ⟨_, .seq_fail a0⟩
  | seq_cons h h' ih ih' =>
    intro g' hg
    obtain ⟨_, rfl, hl⟩ := stays_seq hg
    cases hl with
    | cons hr hrs => exact let ⟨_, a0⟩ := chg_rule hQ ih hr; let ⟨_, a1⟩ := ih' _ (.seq hrs); ⟨_, .seq_cons a0 a1⟩
  | repeat_opt h ih =>
    intro g' hg
    obtain ⟨r', rfl, hr⟩ := stays_repeat hg
    exact let ⟨_, a0⟩ := ih _ (.rep hr); ⟨_, .repeat_opt a0⟩
  | repeat_fail h ih =>
    intro g' hg
    obtain ⟨r', rfl, hr⟩ := stays_repeat hg
    exact let ⟨_, a0⟩ := chg_rule hQ ih hr; ⟨_, .repeat_fail a0⟩
  | repeat_ok h h' ih ih' =>
    intro g' hg
    obtain ⟨r', rfl, hr⟩ := stays_repeat hg
    exact let ⟨_, a0⟩ := chg_rule hQ ih hr; let ⟨_, a1⟩ := ih' _ (.rep hr); ⟨_, .repeat_ok a0 a1⟩
  | rep_stop h ih =>
    intro g' hg
    obtain ⟨_, rfl, hr⟩ := stays_rep hg
    exact let ⟨_, a0⟩ := chg_rule hQ ih hr; ⟨_, .rep_stop a0⟩
  | rep_more h h' ih ih' =>
    intro g' hg
    obtain ⟨_, rfl, hr⟩ := stays_rep hg
    exact let ⟨_, a0⟩ := chg_rule hQ ih hr; let ⟨_, a1⟩ := ih' _ (.rep hr); ⟨_, .rep_more a0 a1⟩
  | sep_none h ih =>
    intro g' hg
    obtain ⟨r', b', rfl, hr, hb⟩ := stays_sep hg
    exact let ⟨_, a0⟩ := chg_rule hQ ih hr; ⟨_, .sep_none a0⟩
  | sep_fail h ih =>
    intro g' hg
    obtain ⟨r', b', rfl, hr, hb⟩ := stays_sep hg
    exact let ⟨_, a0⟩ := chg_rule hQ ih hr; ⟨_, .sep_fail a0⟩
  | sep_first h h' ih ih' =>
    intro g' hg
    obtain ⟨r', b', rfl, hr, hb⟩ := stays_sep hg
    exact let ⟨_, a0⟩ := chg_rule hQ ih hr; let ⟨_, a1⟩ := ih' _ (.sepTail hr hb); ⟨_, .sep_first a0 a1⟩
  | sep_stop h ih =>
    intro g' hg
    obtain ⟨_, _, rfl, hr, hb⟩ := stays_sepTail hg
    exact let ⟨_, a0⟩ := chg_rule hQ ih hb; ⟨_, .sep_stop a0⟩
  | sep_trail h h' ih ih' =>
    intro g' hg
    obtain ⟨_, _, rfl, hr, hb⟩ := stays_sepTail hg
    exact let ⟨_, a0⟩ := chg_rule hQ ih hb; let ⟨_, a1⟩ := chg_rule hQ ih' hr; ⟨_, .sep_trail a0 a1⟩
  | sep_noTrail h h' ih ih' =>
    intro g' hg
    obtain ⟨_, _, rfl, hr, hb⟩ := stays_sepTail hg
    exact let ⟨_, a0⟩ := chg_rule hQ ih hb; let ⟨_, a1⟩ := chg_rule hQ ih' hr; ⟨_, .sep_noTrail a0 a1⟩
  | sep_more h h' h'' ih ih' ih'' =>
    intro g' hg
    obtain ⟨_, _, rfl, hr, hb⟩ := stays_sepTail hg
    exact let ⟨_, a0⟩ := chg_rule hQ ih hb; let ⟨_, a1⟩ := chg_rule hQ ih' hr; let ⟨_, a2⟩ := ih'' _ (.sepTail hr hb); ⟨_, .sep_more a0 a1 a2⟩
  | lines h ih =>
    intro g' hg
    obtain ⟨r', rfl, hr⟩ := stays_lines hg
    exact let ⟨_, a0⟩ := ih _ (.lines hr); ⟨_, .lines a0⟩
  | lines_done h =>
    intro g' hg
    obtain ⟨_, rfl, hr⟩ := stays_linesGoal hg
    exact ⟨_, .lines_done (by rwa [hLe])⟩
  | lines_fail h =>
    intro g' hg
    obtain ⟨_, rfl, hr⟩ := stays_linesGoal hg
    exact ⟨_, .lines_fail (by rwa [hLe])⟩
  | lines_stop h h' ih =>
    intro g' hg
    obtain ⟨_, rfl, hr⟩ := stays_linesGoal hg
    exact let ⟨_, a0⟩ := ih _ (.line hr); ⟨_, .lines_stop (by rwa [hLe]) a0⟩
  | lines_more h h' h'' ih ih' =>
    intro g' hg
    obtain ⟨_, rfl, hr⟩ := stays_linesGoal hg
    exact let ⟨_, a0⟩ := ih _ (.line hr); let ⟨_, a1⟩ := ih' _ (.lines hr); ⟨_, .lines_more (by rwa [hLe]) a0 a1⟩
  | line_plain h ih =>
    intro g' hg
    obtain ⟨_, rfl, hr⟩ := stays_line hg
    exact let ⟨_, a0⟩ := chg_rule hQ ih hr; ⟨_, .line_plain a0⟩
  | line_shallow h =>
    intro g' hg
    obtain ⟨_, rfl, hr⟩ := stays_line hg
    exact ⟨_, .line_shallow (by rwa [htab])⟩
  | line_deep ha h hd =>
    intro g' hg
    obtain ⟨_, rfl, hr⟩ := stays_line hg
    exact ⟨_, .line_deep (by rwa [hal]) (by rwa [htab]) hd⟩
  | line_body ha h hd hi h' ih =>
    intro g' hg
    obtain ⟨_, rfl, hr⟩ := stays_line hg
    exact let ⟨_, a0⟩ := chg_rule hQ ih hr; ⟨_, .line_body (by rwa [hal]) (by rwa [htab]) hd hi a0⟩
  | line_align ha h hm hi h' ih =>
    intro g' hg
    obtain ⟨_, rfl, hr⟩ := stays_line hg
    rw [← htab] at h hi ih ⊢
    exact let ⟨_, a0⟩ := chg_rule hQ ih hr; ⟨_, .line_align (by rwa [hal]) h hm hi a0⟩
  | node_unresolved => rintro _ ⟨⟩; exact ⟨_, .node_unresolved⟩
  | node_fail hr h ih =>
    rintro _ ⟨⟩
    obtain ⟨r', h1, h2⟩ := hrefs.get hr
    exact let ⟨_, a0⟩ := chg_rule hQ ih h2; ⟨_, .node_fail h1 a0⟩
  | node_ok hr h ih =>
    rintro _ ⟨⟩
    obtain ⟨r', h1, h2⟩ := hrefs.get hr
    exact let ⟨_, a0⟩ := chg_rule hQ ih h2; ⟨_, .node_ok h1 a0⟩
  | optional_none h ih =>
    intro g' hg
    obtain ⟨r', rfl, hr⟩ := stays_optional hg
    exact let ⟨_, a0⟩ := chg_rule hQ ih hr; ⟨_, .optional_none a0⟩
  | optional_some h ih =>
    intro g' hg
    obtain ⟨r', rfl, hr⟩ := stays_optional hg
    exact let ⟨_, a0⟩ := chg_rule hQ ih hr; ⟨_, .optional_some a0⟩
  | not_ok h ih =>
    intro g' hg
    obtain ⟨r', rfl, hr⟩ := stays_not hg
    exact let ⟨_, a0⟩ := chg_rule hQ ih hr; ⟨_, .not_ok a0⟩
  | not_fail h ih =>
    intro g' hg
    obtain ⟨r', rfl, hr⟩ := stays_not hg
    exact let ⟨_, a0⟩ := chg_rule hQ ih hr; ⟨_, .not_fail a0⟩

end Verif
