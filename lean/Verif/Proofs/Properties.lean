import Verif.Spec.Properties
import Verif.Proofs.Basics
/-
Properties do not influence runs.
-/
namespace Verif
open Spec

theorem Spec.RelabelledL.get {P rs rs'} (h : RelabelledL P rs rs') : ∀ {k : Nat} {r}, rs[k]? = some r →
    ∃ r', rs'[k]? = some r' ∧ Relabelled P r r' := by
  match h with
  | .nil => intro k r hk; simp at hk
  | .cons h h' =>
    intro k r hk
    cases k with
    | zero => simp at hk; subst hk; exact ⟨_, rfl, h⟩
    | succ k => simpa using RelabelledL.get h' (by simpa using hk)

theorem Spec.RelabelledL.length {P rs rs'} (h : RelabelledL P rs rs') : rs.length = rs'.length := by
  match h with
  | .nil => rfl
  | .cons _ h' => simp [RelabelledL.length h']

theorem Spec.RelabelledL.last {P rs rs'} (h : RelabelledL P rs rs') {r} (hr : rs.getLast? = some r) :
    ∃ r', rs'.getLast? = some r' ∧ Relabelled P r r' := by
  rw [List.getLast?_eq_getElem?] at hr ⊢
  rw [← h.length]
  exact h.get hr

mutual
theorem Spec.Relabelled.flip {P : Option Str → Option Str → Prop} {r r'} (h : Relabelled P r r') :
    Relabelled (fun a b => P b a) r' r :=
  match h with
  | .whitespace => .whitespace
  | .tag h => .tag h
  | .untilAny h => .untilAny h
  | .untilAnyOrWs h => .untilAnyOrWs h
  | .text h => .text h
  | .number h => .number h
  | .node h => .node h
  | .select hs => .select (RelabelledL.flip hs)
  | .fastSelect hs => .fastSelect (RelabelledL.flip hs)
  | .sequence hs => .sequence (RelabelledL.flip hs)
  | .separateBy hr hb => .separateBy (Relabelled.flip hr) (Relabelled.flip hb)
  | .repeat_ hr => .repeat_ (Relabelled.flip hr)
  | .lines hr => .lines (Relabelled.flip hr)
  | .optional hr => .optional (Relabelled.flip hr)
  | .not hr => .not (Relabelled.flip hr)
theorem Spec.RelabelledL.flip {P : Option Str → Option Str → Prop} {rs rs'} (h : RelabelledL P rs rs') :
    RelabelledL (fun a b => P b a) rs' rs :=
  match h with
  | .nil => .nil
  | .cons h h' => .cons (Relabelled.flip h) (RelabelledL.flip h')
end

/-- What data has to do with properties. -/
structure Labels (P : Option Str → Option Str → Prop) (D : List Tok → List Tok → Prop) : Prop where
  nil : D [] []
  append {a a' b b'} : D a a' → D b b' → D (a ++ b) (a' ++ b')
  bool {q q'} (off len : Nat) (v : Bool) : P q q' →
    D (named q off len fun n => .bool n v) (named q' off len fun n => .bool n v)
  string {q q'} (off len : Nat) (v : Str) : P q q' →
    D (named q off len fun n => .string n v) (named q' off len fun n => .string n v)
  f64 {q q'} (off len : Nat) (v : F64) : P q q' →
    D (named q off len fun n => .f64 n v) (named q' off len fun n => .f64 n v)
  node {q q' ts ts'} (off len : Nat) : P q q' → D ts ts' → D (wrapped q off len ts) (wrapped q' off len ts')

/-- Outcomes with other data. -/
inductive OutLike (D : List Tok → List Tok → Prop) : Outcome → Outcome → Prop
  | none : OutLike D none none
  | some {n ts ts'} (h : D ts ts') : OutLike D (some (n, ts)) (some (n, ts'))

theorem OutLike.before {P D n ts ts' o o'} (hD : Labels P D) (h : D ts ts') (h' : OutLike D o o') :
    OutLike D (before n ts o) (before n ts' o') := by
  cases h' with
  | none => exact .none
  | some h' => exact .some (hD.append h h')

theorem OutLike.skip {P D n o o'} (hD : Labels P D) (h' : OutLike D o o') :
    OutLike D (Spec.before n [] o) (Spec.before n [] o') := OutLike.before hD hD.nil h'

theorem OutLike.fails {D o'} (h : OutLike D Option.none o') : o' = Option.none := by cases h; rfl
theorem OutLike.reads {D n ts o'} (h : OutLike D (Option.some (n, ts)) o') :
    ∃ ts', o' = Option.some (n, ts') ∧ D ts ts' := by cases h with | some h => exact ⟨_, rfl, h⟩
theorem OutLike.reads' {D x o'} (h : OutLike D (Option.some x) o') :
    ∃ x', o' = Option.some x' := by cases h with | some h => exact ⟨_, rfl⟩

/-- Goals with other properties. -/
inductive GoalSame (P : Option Str → Option Str → Prop) : Goal → Goal → Prop
  | rule {r r'} (h : Relabelled P r r') : GoalSame P (.rule r) (.rule r')
  | sel {rs rs'} (h : RelabelledL P rs rs') : GoalSame P (.sel rs) (.sel rs')
  | seq {rs rs'} (h : RelabelledL P rs rs') : GoalSame P (.seq rs) (.seq rs')
  | rep {r r'} (h : Relabelled P r r') : GoalSame P (.rep r) (.rep r')
  | sepTail {r r' b b' trail} (h : Relabelled P r r') (h' : Relabelled P b b') :
      GoalSame P (.sepTail r b trail) (.sepTail r' b' trail)
  | lines {r r' ind id first item} (h : Relabelled P r r') :
      GoalSame P (.lines r ind id first item) (.lines r' ind id first item)
  | line {r r' ind first} (h : Relabelled P r r') : GoalSame P (.line r ind first) (.line r' ind first)

theorem goal_same_ws {P opt id g'} (h : GoalSame P (.rule (.whitespace opt id)) g') : g' = .rule (.whitespace opt id) := by
  cases h with
  | rule h => cases h with
    | whitespace => rfl
theorem goal_same_tag {P t neg inv prop id g'} (h : GoalSame P (.rule (.tag t neg inv prop id)) g') :
    ∃ prop', g' = .rule (.tag t neg inv prop' id) ∧ P prop prop' := by
  cases h with
  | rule h => cases h with
    | tag h => exact ⟨_, rfl, h⟩
theorem goal_same_until {P any opt prop id g'} (h : GoalSame P (.rule (.untilAny any opt prop id)) g') :
    ∃ prop', g' = .rule (.untilAny any opt prop' id) ∧ P prop prop' := by
  cases h with
  | rule h => cases h with
    | untilAny h => exact ⟨_, rfl, h⟩
theorem goal_same_untilWs {P any opt prop id g'} (h : GoalSame P (.rule (.untilAnyOrWs any opt prop id)) g') :
    ∃ prop', g' = .rule (.untilAnyOrWs any opt prop' id) ∧ P prop prop' := by
  cases h with
  | rule h => cases h with
    | untilAnyOrWs h => exact ⟨_, rfl, h⟩
theorem goal_same_text {P empty prop id g'} (h : GoalSame P (.rule (.text empty prop id)) g') :
    ∃ prop', g' = .rule (.text empty prop' id) ∧ P prop prop' := by
  cases h with
  | rule h => cases h with
    | text h => exact ⟨_, rfl, h⟩
theorem goal_same_number {P prop us id g'} (h : GoalSame P (.rule (.number prop us id)) g') :
    ∃ prop', g' = .rule (.number prop' us id) ∧ P prop prop' := by
  cases h with
  | rule h => cases h with
    | number h => exact ⟨_, rfl, h⟩
theorem goal_same_node {P name prop ix id g'} (h : GoalSame P (.rule (.node name prop ix id)) g') :
    ∃ prop', g' = .rule (.node name prop' ix id) ∧ P prop prop' := by
  cases h with
  | rule h => cases h with
    | node h => exact ⟨_, rfl, h⟩
theorem goal_same_select {P rs  id g'} (h : GoalSame P (.rule (.select rs id)) g') :
    ∃ rs', g' = .rule (.select rs' id) ∧ RelabelledL P rs rs' := by
  cases h with
  | rule h => cases h with
    | select hs => exact ⟨_, rfl, hs⟩
theorem goal_same_fast {P rs tb tail id g'} (h : GoalSame P (.rule (.fastSelect tb rs tail id)) g') :
    ∃ rs', g' = .rule (.fastSelect tb rs' tail id) ∧ RelabelledL P rs rs' := by
  cases h with
  | rule h => cases h with
    | fastSelect hs => exact ⟨_, rfl, hs⟩
theorem goal_same_sequence {P rs  id g'} (h : GoalSame P (.rule (.sequence rs id)) g') :
    ∃ rs', g' = .rule (.sequence rs' id) ∧ RelabelledL P rs rs' := by
  cases h with
  | rule h => cases h with
    | sequence hs => exact ⟨_, rfl, hs⟩
theorem goal_same_repeat {P r opt id g'} (h : GoalSame P (.rule (.repeat_ r opt id)) g') :
    ∃ r', g' = .rule (.repeat_ r' opt id) ∧ Relabelled P r r' := by
  cases h with
  | rule h => cases h with
    | repeat_ hs => exact ⟨_, rfl, hs⟩
theorem goal_same_lines {P r ind id g'} (h : GoalSame P (.rule (.lines r ind id)) g') :
    ∃ r', g' = .rule (.lines r' ind id) ∧ Relabelled P r r' := by
  cases h with
  | rule h => cases h with
    | lines hs => exact ⟨_, rfl, hs⟩
theorem goal_same_optional {P r  id g'} (h : GoalSame P (.rule (.optional r id)) g') :
    ∃ r', g' = .rule (.optional r' id) ∧ Relabelled P r r' := by
  cases h with
  | rule h => cases h with
    | optional hs => exact ⟨_, rfl, hs⟩
theorem goal_same_not {P r  id g'} (h : GoalSame P (.rule (.not r id)) g') :
    ∃ r', g' = .rule (.not r' id) ∧ Relabelled P r r' := by
  cases h with
  | rule h => cases h with
    | not hs => exact ⟨_, rfl, hs⟩
theorem goal_same_sep {P r b opt trail id g'} (h : GoalSame P (.rule (.separateBy r b opt trail id)) g') :
    ∃ r' b', g' = .rule (.separateBy r' b' opt trail id) ∧ Relabelled P r r' ∧
      Relabelled P b b' := by
  cases h with
  | rule h => cases h with
    | separateBy hr hb => exact ⟨_, _, rfl, hr, hb⟩
theorem goal_same_sel {P rs g'} (h : GoalSame P (.sel rs) g') :
    ∃ rs', g' = .sel rs' ∧ RelabelledL P rs rs' := by
  cases h with
  | sel h => exact ⟨_, rfl, h⟩
theorem goal_same_seq {P rs g'} (h : GoalSame P (.seq rs) g') :
    ∃ rs', g' = .seq rs' ∧ RelabelledL P rs rs' := by
  cases h with
  | seq h => exact ⟨_, rfl, h⟩
theorem goal_same_rep {P r g'} (h : GoalSame P (.rep r) g') : ∃ r', g' = .rep r' ∧ Relabelled P r r' := by
  cases h with
  | rep h => exact ⟨_, rfl, h⟩
theorem goal_same_sepTail {P r b trail g'} (h : GoalSame P (.sepTail r b trail) g') :
    ∃ r' b', g' = .sepTail r' b' trail ∧ Relabelled P r r' ∧ Relabelled P b b' := by
  cases h with
  | sepTail h h' => exact ⟨_, _, rfl, h, h'⟩
theorem goal_same_linesGoal {P r ind id first item g'} (h : GoalSame P (.lines r ind id first item) g') :
    ∃ r', g' = .lines r' ind id first item ∧ Relabelled P r r' := by
  cases h with
  | lines h => exact ⟨_, rfl, h⟩
theorem goal_same_line {P r ind first g'} (h : GoalSame P (.line r ind first) g') :
    ∃ r', g' = .line r' ind first ∧ Relabelled P r r' := by
  cases h with
  | line h => exact ⟨_, rfl, h⟩
theorem goal_same_cons {P r rs rs'} (h : RelabelledL P (r :: rs) rs') :
    ∃ r' rs'', rs' = r' :: rs'' ∧ Relabelled P r r' ∧ RelabelledL P rs rs'' := by
  cases h with
  | cons h h' => exact ⟨_, _, rfl, h, h'⟩
theorem goal_same_nil {P rs'} (h : RelabelledL P [] rs') : rs' = [] := by
  cases h; rfl

/-- A run stays a run when properties change, with the same failures. -/
theorem run_relabel {P : Option Str → Option Str → Prop} {D : List Tok → List Tok → Prop} (hD : Labels P D) {E E' : Env} (hLe : E'.L = E.L)
    (hal : E'.align = E.align) (htab : E'.tab = E.tab) (hrefs : RelabelledL P E.refs E'.refs)
    {g p i o j tr} (h : Run E g p i o j tr) :
    ∀ g', GoalSame P g g' → ∃ o', Run E' g' p i o' j tr ∧ OutLike D o o' := by
  induction h with
  | ws_ok h h0 =>
    intro g' hg
    obtain rfl := goal_same_ws hg
    exact ⟨_, .ws_ok h h0, .some hD.nil⟩
  | ws_fail h =>
    intro g' hg
    obtain rfl := goal_same_ws hg
    exact ⟨_, .ws_fail h, .none⟩
  | tag_ok h =>
    intro g' hg
    obtain ⟨_, rfl, hid⟩ := goal_same_tag hg
    exact ⟨_, .tag_ok h, .some (hD.bool _ _ _ hid)⟩
  | tag_fail h =>
    intro g' hg
    obtain ⟨_, rfl, hid⟩ := goal_same_tag hg
    exact ⟨_, .tag_fail h, .none⟩
  | notTag_ok h =>
    intro g' hg
    obtain ⟨_, rfl, hid⟩ := goal_same_tag hg
    exact ⟨_, .notTag_ok h, .some (hD.bool _ _ _ hid)⟩
  | notTag_fail h =>
    intro g' hg
    obtain ⟨_, rfl, hid⟩ := goal_same_tag hg
    exact ⟨_, .notTag_fail h, .none⟩
  | until_ok h h0 =>
    intro g' hg
    obtain ⟨_, rfl, hid⟩ := goal_same_until hg
    exact ⟨_, .until_ok h h0, .some (hD.string _ _ _ hid)⟩
  | until_fail h =>
    intro g' hg
    obtain ⟨_, rfl, hid⟩ := goal_same_until hg
    exact ⟨_, .until_fail h, .none⟩
  | untilWs_ok h h0 =>
    intro g' hg
    obtain ⟨_, rfl, hid⟩ := goal_same_untilWs hg
    exact ⟨_, .untilWs_ok h h0, .some (hD.string _ _ _ hid)⟩
  | untilWs_fail h =>
    intro g' hg
    obtain ⟨_, rfl, hid⟩ := goal_same_untilWs hg
    exact ⟨_, .untilWs_fail h, .none⟩
  | text_ok h h2 ht =>
    intro g' hg
    obtain ⟨_, rfl, hid⟩ := goal_same_text hg
    exact ⟨_, .text_ok (by rwa [hLe]) h2 (by rwa [hLe]), .some (hD.string _ _ _ hid)⟩
  | text_none h =>
    intro g' hg
    obtain ⟨_, rfl, hid⟩ := goal_same_text hg
    exact ⟨_, .text_none (by rwa [hLe]), .none⟩
  | text_empty h =>
    intro g' hg
    obtain ⟨_, rfl, hid⟩ := goal_same_text hg
    exact ⟨_, .text_empty (by rwa [hLe]), .none⟩
  | text_bad h h2 ht =>
    intro g' hg
    obtain ⟨_, rfl, hid⟩ := goal_same_text hg
    exact ⟨_, .text_bad (by rwa [hLe]) h2 (by rwa [hLe]), .none⟩
  | num_ok h hv =>
    intro g' hg
    obtain ⟨_, rfl, hid⟩ := goal_same_number hg
    exact ⟨_, .num_ok (by rwa [hLe]) (by rwa [hLe]), .some (hD.f64 _ _ _ hid)⟩
  | num_none h =>
    intro g' hg
    obtain ⟨_, rfl, hid⟩ := goal_same_number hg
    exact ⟨_, .num_none (by rwa [hLe]), .none⟩
  | num_bad h hv =>
    intro g' hg
    obtain ⟨_, rfl, hid⟩ := goal_same_number hg
    exact ⟨_, .num_bad (by rwa [hLe]) (by rwa [hLe]), .none⟩
  | select_empty  =>
    intro g' hg
    obtain ⟨_, rfl, hs⟩ := goal_same_select hg
    obtain rfl := goal_same_nil hs
    exact ⟨_, .select_empty , .none⟩
  | select h ih =>
    intro g' hg
    obtain ⟨_, rfl, hs⟩ := goal_same_select hg
    obtain ⟨t, h1, h2⟩ := ih _ (.sel hs)
    cases hs with
    | cons => exact ⟨t, .select h1, h2⟩
  | sel_nil =>
    intro g' hg
    obtain ⟨_, rfl, hs⟩ := goal_same_sel hg
    obtain rfl := goal_same_nil hs
    exact ⟨_, .sel_nil, .none⟩
  | sel_here h ih =>
    intro g' hg
    obtain ⟨_, rfl, hl⟩ := goal_same_sel hg
    obtain ⟨_, _, rfl, hr, hs⟩ := goal_same_cons hl
    obtain ⟨t, h1, h2⟩ := ih _ (.rule hr)
    obtain ⟨us, rfl⟩ := h2.reads'
    exact ⟨_, .sel_here h1, h2⟩
  | sel_next h h' ih ih' =>
    intro g' hg
    obtain ⟨_, rfl, hl⟩ := goal_same_sel hg
    obtain ⟨_, _, rfl, hr, hs⟩ := goal_same_cons hl
    obtain ⟨t, h1, h2⟩ := ih _ (.rule hr)
    obtain rfl := h2.fails
    obtain ⟨t', h1', h2'⟩ := ih' _ (.sel hs)
    exact ⟨_, .sel_next h1 h1', h2'⟩
  | fast_end h =>
    intro g' hg
    obtain ⟨_, rfl, hs⟩ := goal_same_fast hg
    exact ⟨_, .fast_end h, .none⟩
  | fast_miss h hb ht =>
    intro g' hg
    obtain ⟨_, rfl, hs⟩ := goal_same_fast hg
    exact ⟨_, .fast_miss h hb ht, .none⟩
  | fast_hit h hb ht hr h' ih =>
    intro g' hg
    obtain ⟨_, rfl, hs⟩ := goal_same_fast hg
    obtain ⟨r', h3, h4⟩ := hs.get hr
    obtain ⟨t, h1, h2⟩ := ih _ (.rule h4)
    exact ⟨_, .fast_hit h hb ht h3 h1, h2⟩
  | fastTail_miss h hb ht hr h' ih =>
    intro g' hg
    obtain ⟨_, rfl, hs⟩ := goal_same_fast hg
    obtain ⟨r', h3, h4⟩ := hs.last hr
    obtain ⟨t, h1, h2⟩ := ih _ (.rule h4)
    exact ⟨_, .fastTail_miss h hb ht h3 h1, h2⟩
  | fastTail_hit h hb ht hr h' ih =>
    intro g' hg
    obtain ⟨_, rfl, hs⟩ := goal_same_fast hg
    obtain ⟨r', h3, h4⟩ := hs.get hr
    obtain ⟨t, h1, h2⟩ := ih _ (.rule h4)
    obtain ⟨us, rfl⟩ := h2.reads'
    exact ⟨_, .fastTail_hit h hb ht h3 h1, h2⟩
  | fastTail_next h hb ht hr h' hr' h'' ih ih' =>
    intro g' hg
    obtain ⟨_, rfl, hs⟩ := goal_same_fast hg
    obtain ⟨r', h3, h4⟩ := hs.get hr
    obtain ⟨r'', h5, h6⟩ := hs.last hr'
    obtain ⟨t, h1, h2⟩ := ih _ (.rule h4)
    obtain rfl := h2.fails
    obtain ⟨t', h1', h2'⟩ := ih' _ (.rule h6)
    exact ⟨_, .fastTail_next h hb ht h3 h1 h5 h1', h2'⟩
  | sequence h ih =>
    intro g' hg
    obtain ⟨_, rfl, hs⟩ := goal_same_sequence hg
    obtain ⟨t, h1, h2⟩ := ih _ (.seq hs)
    exact ⟨_, .sequence h1, h2⟩
  | seq_nil =>
    intro g' hg
    obtain ⟨_, rfl, hs⟩ := goal_same_seq hg
    obtain rfl := goal_same_nil hs
    exact ⟨_, .seq_nil, .some hD.nil⟩
  | seq_fail h ih =>
    intro g' hg
    obtain ⟨_, rfl, hl⟩ := goal_same_seq hg
    obtain ⟨_, _, rfl, hr, hs⟩ := goal_same_cons hl
    obtain ⟨t, h1, h2⟩ := ih _ (.rule hr)
    obtain rfl := h2.fails
    exact ⟨_, .seq_fail h1, .none⟩
  | seq_cons h h' ih ih' =>
    intro g' hg
    obtain ⟨_, rfl, hl⟩ := goal_same_seq hg
    obtain ⟨_, _, rfl, hr, hs⟩ := goal_same_cons hl
    obtain ⟨t, h1, h2⟩ := ih _ (.rule hr)
    obtain ⟨us, rfl, h3⟩ := h2.reads
    obtain ⟨t', h1', h2'⟩ := ih' _ (.seq hs)
    exact ⟨_, .seq_cons h1 h1', .before hD h3 h2'⟩
  | repeat_opt h ih =>
    intro g' hg
    obtain ⟨_, rfl, hr⟩ := goal_same_repeat hg
    obtain ⟨t, h1, h2⟩ := ih _ (.rep hr)
    exact ⟨_, .repeat_opt h1, h2⟩
  | repeat_fail h ih =>
    intro g' hg
    obtain ⟨_, rfl, hr⟩ := goal_same_repeat hg
    obtain ⟨t, h1, h2⟩ := ih _ (.rule hr)
    obtain rfl := h2.fails
    exact ⟨_, .repeat_fail h1, .none⟩
  | repeat_ok h h' ih ih' =>
    intro g' hg
    obtain ⟨_, rfl, hr⟩ := goal_same_repeat hg
    obtain ⟨t, h1, h2⟩ := ih _ (.rule hr)
    obtain ⟨us, rfl, h3⟩ := h2.reads
    obtain ⟨t', h1', h2'⟩ := ih' _ (.rep hr)
    exact ⟨_, .repeat_ok h1 h1', .before hD h3 h2'⟩
  | rep_stop h ih =>
    intro g' hg
    obtain ⟨_, rfl, hr⟩ := goal_same_rep hg
    obtain ⟨t, h1, h2⟩ := ih _ (.rule hr)
    obtain rfl := h2.fails
    exact ⟨_, .rep_stop h1, .some hD.nil⟩
  | rep_more h h' ih ih' =>
    intro g' hg
    obtain ⟨_, rfl, hr⟩ := goal_same_rep hg
    obtain ⟨t, h1, h2⟩ := ih _ (.rule hr)
    obtain ⟨us, rfl, h3⟩ := h2.reads
    obtain ⟨t', h1', h2'⟩ := ih' _ (.rep hr)
    exact ⟨_, .rep_more h1 h1', .before hD h3 h2'⟩
  | sep_none h ih =>
    intro g' hg
    obtain ⟨_, _, rfl, hr, hb⟩ := goal_same_sep hg
    obtain ⟨t, h1, h2⟩ := ih _ (.rule hr)
    obtain rfl := h2.fails
    exact ⟨_, .sep_none h1, .some hD.nil⟩
  | sep_fail h ih =>
    intro g' hg
    obtain ⟨_, _, rfl, hr, hb⟩ := goal_same_sep hg
    obtain ⟨t, h1, h2⟩ := ih _ (.rule hr)
    obtain rfl := h2.fails
    exact ⟨_, .sep_fail h1, .none⟩
  | sep_first h h' ih ih' =>
    intro g' hg
    obtain ⟨_, _, rfl, hr, hb⟩ := goal_same_sep hg
    obtain ⟨t, h1, h2⟩ := ih _ (.rule hr)
    obtain ⟨us, rfl, h3⟩ := h2.reads
    obtain ⟨t', h1', h2'⟩ := ih' _ (.sepTail hr hb)
    exact ⟨_, .sep_first h1 h1', .before hD h3 h2'⟩
  | sep_stop h ih =>
    intro g' hg
    obtain ⟨_, _, rfl, hr, hb⟩ := goal_same_sepTail hg
    obtain ⟨t, h1, h2⟩ := ih _ (.rule hb)
    obtain rfl := h2.fails
    exact ⟨_, .sep_stop h1, .some hD.nil⟩
  | sep_trail h h' ih ih' =>
    intro g' hg
    obtain ⟨_, _, rfl, hr, hb⟩ := goal_same_sepTail hg
    obtain ⟨t, h1, h2⟩ := ih _ (.rule hb)
    obtain ⟨us, rfl, h3⟩ := h2.reads
    obtain ⟨t', h1', h2'⟩ := ih' _ (.rule hr)
    obtain rfl := h2'.fails
    exact ⟨_, .sep_trail h1 h1', h2⟩
  | sep_noTrail h h' ih ih' =>
    intro g' hg
    obtain ⟨_, _, rfl, hr, hb⟩ := goal_same_sepTail hg
    obtain ⟨t, h1, h2⟩ := ih _ (.rule hb)
    obtain ⟨us, rfl, h3⟩ := h2.reads
    obtain ⟨t', h1', h2'⟩ := ih' _ (.rule hr)
    obtain rfl := h2'.fails
    exact ⟨_, .sep_noTrail h1 h1', .none⟩
  | sep_more h h' h'' ih ih' ih'' =>
    intro g' hg
    obtain ⟨_, _, rfl, hr, hb⟩ := goal_same_sepTail hg
    obtain ⟨t, h1, h2⟩ := ih _ (.rule hb)
    obtain ⟨us, rfl, h3⟩ := h2.reads
    obtain ⟨t', h1', h2'⟩ := ih' _ (.rule hr)
    obtain ⟨us', rfl, h3'⟩ := h2'.reads
    obtain ⟨t'', h1'', h2''⟩ := ih'' _ (.sepTail hr hb)
    exact ⟨_, .sep_more h1 h1' h1'', .before hD (hD.append h3 h3') h2''⟩
  | lines h ih =>
    intro g' hg
    obtain ⟨_, rfl, hr⟩ := goal_same_lines hg
    obtain ⟨t, h1, h2⟩ := ih _ (.lines hr)
    exact ⟨_, .lines h1, h2⟩
  | lines_done h =>
    intro g' hg
    obtain ⟨_, rfl, hr⟩ := goal_same_linesGoal hg
    exact ⟨_, .lines_done (by rwa [hLe]), .some hD.nil⟩
  | lines_fail h =>
    intro g' hg
    obtain ⟨_, rfl, hr⟩ := goal_same_linesGoal hg
    exact ⟨_, .lines_fail (by rwa [hLe]), .none⟩
  | lines_stop h h' ih =>
    intro g' hg
    obtain ⟨_, rfl, hr⟩ := goal_same_linesGoal hg
    obtain ⟨t, h1, h2⟩ := ih _ (.line hr)
    obtain rfl := h2.fails
    exact ⟨_, .lines_stop (by rwa [hLe]) h1, .some hD.nil⟩
  | lines_more h h' h'' ih ih' =>
    intro g' hg
    obtain ⟨_, rfl, hr⟩ := goal_same_linesGoal hg
    obtain ⟨t, h1, h2⟩ := ih _ (.line hr)
    obtain ⟨us, rfl, h3⟩ := h2.reads
    obtain ⟨t', h1', h2'⟩ := ih' _ (.lines hr)
    exact ⟨_, .lines_more (by rwa [hLe]) h1 h1', .before hD h3 h2'⟩
  | line_plain h ih =>
    intro g' hg
    obtain ⟨_, rfl, hr⟩ := goal_same_line hg
    obtain ⟨t, h1, h2⟩ := ih _ (.rule hr)
    exact ⟨_, .line_plain h1, h2⟩
  | line_shallow h =>
    intro g' hg
    obtain ⟨_, rfl, hr⟩ := goal_same_line hg
    exact ⟨_, .line_shallow (by rwa [htab]), .none⟩
  | line_deep ha h hd =>
    intro g' hg
    obtain ⟨_, rfl, hr⟩ := goal_same_line hg
    exact ⟨_, .line_deep (by rwa [hal]) (by rwa [htab]) hd, .none⟩
  | line_body ha h hd hi h' ih =>
    intro g' hg
    obtain ⟨_, rfl, hr⟩ := goal_same_line hg
    obtain ⟨t, h1, h2⟩ := ih _ (.rule hr)
    exact ⟨_, .line_body (by rwa [hal]) (by rwa [htab]) hd hi h1, .skip hD h2⟩
  | line_align ha h hm hi h' ih =>
    intro g' hg
    obtain ⟨_, rfl, hr⟩ := goal_same_line hg
    rw [← htab] at h hi ih ⊢
    obtain ⟨t, h1, h2⟩ := ih _ (.rule hr)
    exact ⟨_, .line_align (by rwa [hal]) h hm hi h1, .skip hD h2⟩
  | node_unresolved =>
    intro g' hg
    obtain ⟨_, rfl, hid⟩ := goal_same_node hg
    exact ⟨_, .node_unresolved, .none⟩
  | node_fail hr h ih =>
    intro g' hg
    obtain ⟨_, rfl, hid⟩ := goal_same_node hg
    obtain ⟨r', h3, h4⟩ := hrefs.get hr
    obtain ⟨t, h1, h2⟩ := ih _ (.rule h4)
    obtain rfl := h2.fails
    exact ⟨_, .node_fail h3 h1, .none⟩
  | node_ok hr h ih =>
    intro g' hg
    obtain ⟨_, rfl, hid⟩ := goal_same_node hg
    obtain ⟨r', h3, h4⟩ := hrefs.get hr
    obtain ⟨t, h1, h2⟩ := ih _ (.rule h4)
    obtain ⟨us, rfl, h5⟩ := h2.reads
    exact ⟨_, .node_ok h3 h1, .some (hD.node _ _ hid h5)⟩
  | optional_none h ih =>
    intro g' hg
    obtain ⟨_, rfl, hr⟩ := goal_same_optional hg
    obtain ⟨t, h1, h2⟩ := ih _ (.rule hr)
    obtain rfl := h2.fails
    exact ⟨_, .optional_none h1, .some hD.nil⟩
  | optional_some h ih =>
    intro g' hg
    obtain ⟨_, rfl, hr⟩ := goal_same_optional hg
    obtain ⟨t, h1, h2⟩ := ih _ (.rule hr)
    obtain ⟨us, rfl⟩ := h2.reads'
    exact ⟨_, .optional_some h1, h2⟩
  | not_ok h ih =>
    intro g' hg
    obtain ⟨_, rfl, hr⟩ := goal_same_not hg
    obtain ⟨t, h1, h2⟩ := ih _ (.rule hr)
    obtain rfl := h2.fails
    exact ⟨_, .not_ok h1, .some hD.nil⟩
  | not_fail h ih =>
    intro g' hg
    obtain ⟨_, rfl, hr⟩ := goal_same_not hg
    obtain ⟨t, h1, h2⟩ := ih _ (.rule hr)
    obtain ⟨us, rfl, h3⟩ := h2.reads
    exact ⟨_, .not_fail h1, .none⟩

end Verif
