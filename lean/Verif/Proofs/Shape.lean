import Verif.Proofs.Properties
import Verif.Proofs.Renumber
import Verif.Proofs.RunProps
import Verif.Proofs.Counts
import Verif.Spec.Shape
/-
The number of calls depends on the shape of the rules only.
-/
namespace Verif
open Spec

theorem Spec.SameShapes.get {rs rs'} (h : SameShapes rs rs') : ∀ {k : Nat} {r}, rs[k]? = some r →
    ∃ r', rs'[k]? = some r' ∧ SameShape r r' := by
  match h with
  | .nil => intro k r hk; simp at hk
  | .cons h h' =>
    intro k r hk
    cases k with
    | zero => simp at hk; subst hk; exact ⟨_, rfl, h⟩
    | succ k => exact SameShapes.get h' (k := k) (by simpa using hk)

theorem Spec.SameShapes.length {rs rs'} (h : SameShapes rs rs') : rs.length = rs'.length := by
  match h with
  | .nil => rfl
  | .cons _ h' => simp [SameShapes.length h']

theorem Spec.SameShapes.last {rs rs'} (h : SameShapes rs rs') {r} (hr : rs.getLast? = some r) :
    ∃ r', rs'.getLast? = some r' ∧ SameShape r r' := by
  rw [List.getLast?_eq_getElem?] at hr ⊢
  rw [← h.length]
  exact h.get hr

abbrev anyProp : Option Str → Option Str → Prop := fun _ _ => True
abbrev anyId : DebugId → DebugId → Prop := fun _ _ => True

mutual
/-- First the properties, then the debug ids and names. -/
theorem shape_between {r r'} (h : SameShape r r') : ∃ q, Relabelled anyProp r q ∧ Renumbered anyId q r' :=
  match h with
  | .whitespace => ⟨_, .whitespace, .whitespace trivial⟩
  | .tag => ⟨_, .tag trivial, .tag trivial⟩
  | .untilAny => ⟨_, .untilAny trivial, .untilAny trivial⟩
  | .untilAnyOrWs => ⟨_, .untilAnyOrWs trivial, .untilAnyOrWs trivial⟩
  | .text => ⟨_, .text trivial, .text trivial⟩
  | .number => ⟨_, .number trivial, .number trivial⟩
  | .node => ⟨_, .node trivial, .node trivial⟩
  | .select h => let ⟨_, a, b⟩ := shapes_between h; ⟨_, .select a, .select trivial b⟩
  | .fastSelect h => let ⟨_, a, b⟩ := shapes_between h; ⟨_, .fastSelect a, .fastSelect trivial b⟩
  | .sequence h => let ⟨_, a, b⟩ := shapes_between h; ⟨_, .sequence a, .sequence trivial b⟩
  | .separateBy h h' =>
    let ⟨_, a, b⟩ := shape_between h
    let ⟨_, a', b'⟩ := shape_between h'
    ⟨_, .separateBy a a', .separateBy trivial b b'⟩
  | .repeat_ h => let ⟨_, a, b⟩ := shape_between h; ⟨_, .repeat_ a, .repeat_ trivial b⟩
  | .lines h => let ⟨_, a, b⟩ := shape_between h; ⟨_, .lines a, .lines trivial b⟩
  | .optional h => let ⟨_, a, b⟩ := shape_between h; ⟨_, .optional a, .optional trivial b⟩
  | .not h => let ⟨_, a, b⟩ := shape_between h; ⟨_, .not a, .not trivial b⟩
theorem shapes_between {rs rs'} (h : SameShapes rs rs') : ∃ qs, RelabelledL anyProp rs qs ∧ RenumberedL anyId qs rs' :=
  match h with
  | .nil => ⟨[], .nil, .nil⟩
  | .cons h h' =>
    let ⟨_, a, b⟩ := shape_between h
    let ⟨_, a', b'⟩ := shapes_between h'
    ⟨_, .cons a a', .cons b b'⟩
end

/-- Goals of the same shape. -/
inductive GoalShape : Goal → Goal → Prop
  | rule {r r'} (h : SameShape r r') : GoalShape (.rule r) (.rule r')
  | sel {rs rs'} (h : SameShapes rs rs') : GoalShape (.sel rs) (.sel rs')
  | seq {rs rs'} (h : SameShapes rs rs') : GoalShape (.seq rs) (.seq rs')
  | rep {r r'} (h : SameShape r r') : GoalShape (.rep r) (.rep r')
  | sepTail {r r' b b' trail} (h : SameShape r r') (h' : SameShape b b') :
      GoalShape (.sepTail r b trail) (.sepTail r' b' trail)
  | lines {r r' ind id id' first item} (h : SameShape r r') :
      GoalShape (.lines r ind id first item) (.lines r' ind id' first item)
  | line {r r' ind first} (h : SameShape r r') : GoalShape (.line r ind first) (.line r' ind first)

theorem goalShape_between {g g'} (h : GoalShape g g') : ∃ q, GoalSame anyProp g q ∧ GoalLike anyId q g' := by
  cases h with
  | rule h => obtain ⟨_, a, b⟩ := shape_between h; exact ⟨_, .rule a, .rule b⟩
  | sel h => obtain ⟨_, a, b⟩ := shapes_between h; exact ⟨_, .sel a, .sel b⟩
  | seq h => obtain ⟨_, a, b⟩ := shapes_between h; exact ⟨_, .seq a, .seq b⟩
  | rep h => obtain ⟨_, a, b⟩ := shape_between h; exact ⟨_, .rep a, .rep b⟩
  | sepTail h h' =>
    obtain ⟨_, a, b⟩ := shape_between h
    obtain ⟨_, a', b'⟩ := shape_between h'
    exact ⟨_, .sepTail a a', .sepTail b b'⟩
  | lines h => obtain ⟨_, a, b⟩ := shape_between h; exact ⟨_, .lines a, .lines trivial b⟩
  | line h => obtain ⟨_, a, b⟩ := shape_between h; exact ⟨_, .line a, .line b⟩

/-- Any properties, any data. -/
theorem anyLabels : Labels anyProp (fun _ _ => True) := by constructor <;> intros <;> trivial

theorem run_shape {E E' : Env} (hLe : E'.L = E.L) (hal : E'.align = E.align) (htab : E'.tab = E.tab)
    (hrefs : SameShapes E.refs E'.refs) {g g' p i o j tr} (h : Run E g p i o j tr) (hg : GoalShape g g') :
    ∃ o' tr', Run E' g' p i o' j tr' ∧ OutLike (fun _ _ => True) o o' := by
  obtain ⟨qs, h1, h2⟩ := shapes_between hrefs
  obtain ⟨q, g1, g2⟩ := goalShape_between hg
  obtain ⟨o', hr, ho⟩ := run_relabel anyLabels (E := E) (E' := ⟨E.L, qs, E.align, E.tab⟩) rfl rfl rfl h1 h _ g1
  obtain ⟨tr', hr', -⟩ := run_renumber (E := ⟨E.L, qs, E.align, E.tab⟩) hLe hal htab h2 hr _ g2
  exact ⟨o', tr', hr', ho⟩

section
variable {E E' : Env} (hLe : E'.L = E.L) (hal : E'.align = E.align) (htab : E'.tab = E.tab)
  (hrefs : SameShapes E.refs E'.refs)
include hLe hal htab hrefs

theorem fails_shape {g g' p i j tr} (h : Run E g p i none j tr) (hg : GoalShape g g') :
    ∃ tr', Run E' g' p i none j tr' := by
  obtain ⟨o', tr', h', ho⟩ := run_shape hLe hal htab hrefs h hg
  obtain rfl := ho.fails
  exact ⟨tr', h'⟩

theorem reads_shape {g g' p i n ts j tr} (h : Run E g p i (some (n, ts)) j tr) (hg : GoalShape g g') :
    ∃ ts' tr', Run E' g' p i (some (n, ts')) j tr' := by
  obtain ⟨o', tr', h', ho⟩ := run_shape hLe hal htab hrefs h hg
  obtain ⟨ts', rfl, -⟩ := ho.reads
  exact ⟨ts', tr', h'⟩

theorem counts_shape {g p i c d} (h : Counts E g p i c d) : ∀ g', GoalShape g g' → Counts E' g' p i c d := by
  have F : ∀ {g g' p i j tr}, Run E g p i none j tr → GoalShape g g' → ∃ tr', Run E' g' p i none j tr' :=
    fun h hg => fails_shape hLe hal htab hrefs h hg
  have T : ∀ {g g' p i n ts j tr}, Run E g p i (some (n, ts)) j tr → GoalShape g g' →
      ∃ ts' tr', Run E' g' p i (some (n, ts')) j tr' := fun h hg => reads_shape hLe hal htab hrefs h hg
  induction h with
  | leaf hl =>
    intro g' hg
    cases hg with
    | rule h => cases h <;> first | exact .leaf trivial | exact hl.elim
  | select _ ih =>
    intro g' hg
    cases hg with
    | rule h =>
      cases h with
      | select h =>
        exact .select (ih _ (.sel h))
  | sel_nil =>
    intro g' hg
    cases hg with
    | sel h =>
      cases h with
      | nil  =>
        exact .sel_nil
  | sel_here h _ ih =>
    intro g' hg
    cases hg with
    | sel hs =>
      cases hs with
      | cons a b =>
        obtain ⟨_, _, h'⟩ := T h (.rule a)
        exact .sel_here h' (ih _ (.rule a))
  | sel_next h _ _ ih ih' =>
    intro g' hg
    cases hg with
    | sel hs =>
      cases hs with
      | cons a b =>
        obtain ⟨_, h'⟩ := F h (.rule a)
        exact .sel_next h' (ih _ (.rule a)) (ih' _ (.sel b))
  | fast_end h =>
    intro g' hg
    cases hg with
    | rule a =>
      cases a with
      | fastSelect a =>
        exact .fast_end h
  | fast_miss h hb ht =>
    intro g' hg
    cases hg with
    | rule a =>
      cases a with
      | fastSelect a =>
        exact .fast_miss h hb ht
  | fast_hit h hb ht hr _ ih =>
    intro g' hg
    cases hg with
    | rule a =>
      cases a with
      | fastSelect a =>
        obtain ⟨r', hr', a'⟩ := a.get hr
        exact .fast_hit h hb ht hr' (ih _ (.rule a'))
  | fastTail_miss h hb ht hr _ ih =>
    intro g' hg
    cases hg with
    | rule a =>
      cases a with
      | fastSelect a =>
        obtain ⟨r', hr', a'⟩ := a.last hr
        exact .fastTail_miss h hb ht hr' (ih _ (.rule a'))
  | fastTail_hit h hb ht hr h' _ ih =>
    intro g' hg
    cases hg with
    | rule a =>
      cases a with
      | fastSelect a =>
        obtain ⟨r', hr', a'⟩ := a.get hr
        obtain ⟨_, _, h''⟩ := T h' (.rule a')
        exact .fastTail_hit h hb ht hr' h'' (ih _ (.rule a'))
  | fastTail_next h hb ht hr h' _ hr2 _ ih ih' =>
    intro g' hg
    cases hg with
    | rule a =>
      cases a with
      | fastSelect a =>
        obtain ⟨r', hr', a'⟩ := a.get hr
        obtain ⟨r2', hr2', a2'⟩ := a.last hr2
        obtain ⟨_, h''⟩ := F h' (.rule a')
        exact .fastTail_next h hb ht hr' h'' (ih _ (.rule a')) hr2' (ih' _ (.rule a2'))
  | sequence _ ih =>
    intro g' hg
    cases hg with
    | rule h =>
      cases h with
      | sequence h =>
        exact .sequence (ih _ (.seq h))
  | seq_nil =>
    intro g' hg
    cases hg with
    | seq h =>
      cases h with
      | nil  =>
        exact .seq_nil
  | seq_fail h _ ih =>
    intro g' hg
    cases hg with
    | seq hs =>
      cases hs with
      | cons a b =>
        obtain ⟨_, h'⟩ := F h (.rule a)
        exact .seq_fail h' (ih _ (.rule a))
  | seq_cons h _ _ ih ih' =>
    intro g' hg
    cases hg with
    | seq hs =>
      cases hs with
      | cons a b =>
        obtain ⟨_, _, h'⟩ := T h (.rule a)
        exact .seq_cons h' (ih _ (.rule a)) (ih' _ (.seq b))
  | repeat_ _ ih =>
    intro g' hg
    cases hg with
    | rule h =>
      cases h with
      | repeat_ h =>
        exact .repeat_ (ih _ (.rep h))
  | rep_stop h _ ih =>
    intro g' hg
    cases hg with
    | rep a =>
      obtain ⟨_, h'⟩ := F h (.rule a)
      exact .rep_stop h' (ih _ (.rule a))
  | rep_more h _ _ ih ih' =>
    intro g' hg
    cases hg with
    | rep a =>
      obtain ⟨_, _, h'⟩ := T h (.rule a)
      exact .rep_more h' (ih _ (.rule a)) (ih' _ (.rep a))
  | sep_none h _ ih =>
    intro g' hg
    cases hg with
    | rule h0 =>
      cases h0 with
      | separateBy a b =>
        obtain ⟨_, h'⟩ := F h (.rule a)
        exact .sep_none h' (ih _ (.rule a))
  | sep_first h _ _ ih ih' =>
    intro g' hg
    cases hg with
    | rule h0 =>
      cases h0 with
      | separateBy a b =>
        obtain ⟨_, _, h'⟩ := T h (.rule a)
        exact .sep_first h' (ih _ (.rule a)) (ih' _ (.sepTail a b))
  | sep_stop h _ ih =>
    intro g' hg
    cases hg with
    | sepTail a b =>
      obtain ⟨_, h'⟩ := F h (.rule b)
      exact .sep_stop h' (ih _ (.rule b))
  | sep_end h _ h' _ ih ih' =>
    intro g' hg
    cases hg with
    | sepTail a b =>
      obtain ⟨_, _, h1⟩ := T h (.rule b)
      obtain ⟨_, h2⟩ := F h' (.rule a)
      exact .sep_end h1 (ih _ (.rule b)) h2 (ih' _ (.rule a))
  | sep_more h _ h' _ _ ih ih' ih'' =>
    intro g' hg
    cases hg with
    | sepTail a b =>
      obtain ⟨_, _, h1⟩ := T h (.rule b)
      obtain ⟨_, _, h2⟩ := T h' (.rule a)
      exact .sep_more h1 (ih _ (.rule b)) h2 (ih' _ (.rule a)) (ih'' _ (.sepTail a b))
  | lines _ ih =>
    intro g' hg
    cases hg with
    | rule h =>
      cases h with
      | lines a =>
        exact .lines (ih _ (.lines a))
  | lines_done h =>
    intro g' hg
    cases hg with
    | lines a =>
      exact .lines_done (by rw [hLe]; exact h)
  | lines_fail h =>
    intro g' hg
    cases hg with
    | lines a =>
      exact .lines_fail (by rw [hLe]; exact h)
  | lines_stop h h' _ ih =>
    intro g' hg
    cases hg with
    | lines a =>
      obtain ⟨_, h1⟩ := F h' (.line a)
      exact .lines_stop (by rw [hLe]; exact h) h1 (ih _ (.line a))
  | lines_more h h' _ _ ih ih' =>
    intro g' hg
    cases hg with
    | lines a =>
      obtain ⟨_, _, h1⟩ := T h' (.line a)
      exact .lines_more (by rw [hLe]; exact h) h1 (ih _ (.line a)) (ih' _ (.lines a))
  | line_plain _ ih =>
    intro g' hg
    cases hg with
    | line a =>
      exact .line_plain (ih _ (.rule a))
  | line_shallow h =>
    intro g' hg
    cases hg with
    | line a =>
      exact .line_shallow (by rw [htab]; exact h)
  | line_deep ha h hd =>
    intro g' hg
    cases hg with
    | line a =>
      exact .line_deep (by rw [hal]; exact ha) (by rw [htab]; exact h) hd
  | line_body ha h hd _ ih =>
    intro g' hg
    cases hg with
    | line a =>
      exact .line_body (by rw [hal]; exact ha) (by rw [htab]; exact h) hd (ih _ (.rule a))
  | line_align ha h hm _ ih =>
    intro g' hg
    cases hg with
    | line a =>
      exact .line_align (by rw [hal]; exact ha) (by rw [htab]; exact h) hm (by rw [htab]; exact ih _ (.rule a))
  | node_unresolved =>
    intro g' hg
    cases hg with
    | rule a =>
      cases a with
      | node  =>
        exact .node_unresolved
  | node hr _ ih =>
    intro g' hg
    cases hg with
    | rule a =>
      cases a with
      | node  =>
        obtain ⟨r', hr', a'⟩ := hrefs.get hr
        exact .node hr' (ih _ (.rule a'))
  | optional _ ih =>
    intro g' hg
    cases hg with
    | rule h =>
      cases h with
      | optional a =>
        exact .optional (ih _ (.rule a))
  | not _ ih =>
    intro g' hg
    cases hg with
    | rule h =>
      cases h with
      | not a =>
        exact .not (ih _ (.rule a))

end

/-- Nor does the place matter. -/
theorem counts_shift {E : Env} {g p i c d} (k : Nat) (h : Counts E g p i c d) : Counts E g (shiftPos k p) i c d := by
  have S : ∀ {g p i o j tr}, Run E g p i o j tr → Run E g (shiftPos k p) i (shiftOut k o) j (shiftErrs k tr) := run_shift k
  induction h with
  | leaf hl => exact .leaf hl
  | select _ ih => exact .select ih
  | sel_nil => exact .sel_nil
  | sel_here h _ ih => exact .sel_here (S h) ih
  | sel_next h _ _ ih ih' => exact .sel_next (S h) ih ih'
  | fast_end h => exact .fast_end h
  | fast_miss h hb ht => exact .fast_miss (p := shiftPos k _) h hb ht
  | fast_hit h hb ht hr _ ih => exact .fast_hit (p := shiftPos k _) h hb ht hr ih
  | fastTail_miss h hb ht hr _ ih => exact .fastTail_miss (p := shiftPos k _) h hb ht hr ih
  | fastTail_hit h hb ht hr h' _ ih => exact .fastTail_hit (p := shiftPos k _) h hb ht hr (S h') ih
  | fastTail_next h hb ht hr h' _ hr' _ ih ih' =>
    exact .fastTail_next (p := shiftPos k _) h hb ht hr (S h') ih hr' ih'
  | sequence _ ih => exact .sequence ih
  | seq_nil => exact .seq_nil
  | seq_fail h _ ih => exact .seq_fail (S h) ih
  | seq_cons h _ _ ih ih' => rw [shift_adv] at ih'; exact .seq_cons (S h) ih ih'
  | repeat_ _ ih => exact .repeat_ ih
  | rep_stop h _ ih => exact .rep_stop (S h) ih
  | rep_more h _ _ ih ih' => rw [shift_adv] at ih'; exact .rep_more (S h) ih ih'
  | sep_none h _ ih => exact .sep_none (S h) ih
  | sep_first h _ _ ih ih' => rw [shift_adv] at ih'; exact .sep_first (S h) ih ih'
  | sep_stop h _ ih => exact .sep_stop (S h) ih
  | sep_end h _ h' _ ih ih' =>
    have h' := S h'
    rw [shift_adv] at h' ih'
    exact .sep_end (S h) ih h' ih'
  | sep_more h _ h' _ _ ih ih' ih'' =>
    have h' := S h'
    rw [shift_adv] at h' ih' ih''
    exact .sep_more (S h) ih h' ih' ih''
  | lines _ ih => exact .lines ih
  | lines_done h => exact .lines_done h
  | lines_fail h => exact .lines_fail h
  | lines_stop h h' _ ih =>
    have h' := S h'
    rw [shift_adv] at h' ih
    exact .lines_stop h h' ih
  | lines_more h h' _ _ ih ih' =>
    have h' := S h'
    rw [shift_adv] at h' ih ih'
    exact .lines_more h h' ih ih'
  | line_plain _ ih => exact .line_plain ih
  | line_shallow h => exact .line_shallow h
  | line_deep ha h hd => exact .line_deep ha h hd
  | line_body ha h hd _ ih => rw [shift_adv] at ih; exact .line_body ha h hd ih
  | line_align ha h hm _ ih => rw [shift_adv] at ih; exact .line_align ha h hm ih
  | node_unresolved => exact .node_unresolved
  | node hr _ ih => exact .node hr ih
  | optional _ ih => exact .optional ih
  | not _ ih => exact .not ih

end Verif
