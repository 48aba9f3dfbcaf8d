import Verif.Spec.Renumber
import Verif.Proofs.Basics
/-
Debug ids do not influence runs.
-/
namespace Verif
open Spec

theorem Spec.RenumberedL.get {R rs rs'} (h : RenumberedL R rs rs') : ∀ {k : Nat} {r}, rs[k]? = some r →
    ∃ r', rs'[k]? = some r' ∧ Renumbered R r r' := by
  match h with
  | .nil => intro k r hk; simp at hk
  | .cons h h' =>
    intro k r hk
    cases k with
    | zero => simp at hk; subst hk; exact ⟨_, rfl, h⟩
    | succ k => simpa using RenumberedL.get h' (by simpa using hk)

theorem Spec.RenumberedL.length {R rs rs'} (h : RenumberedL R rs rs') : rs.length = rs'.length := by
  match h with
  | .nil => rfl
  | .cons _ h' => simp [RenumberedL.length h']

theorem Spec.RenumberedL.last {R rs rs'} (h : RenumberedL R rs rs') {r} (hr : rs.getLast? = some r) :
    ∃ r', rs'.getLast? = some r' ∧ Renumbered R r r' := by
  rw [List.getLast?_eq_getElem?] at hr ⊢
  rw [← h.length]
  exact h.get hr

mutual
theorem Spec.Renumbered.flip {R : DebugId → DebugId → Prop} {r r'} (h : Renumbered R r r') :
    Renumbered (fun a b => R b a) r' r :=
  match h with
  | .whitespace h => .whitespace h
  | .tag h => .tag h
  | .untilAny h => .untilAny h
  | .untilAnyOrWs h => .untilAnyOrWs h
  | .text h => .text h
  | .number h => .number h
  | .node h => .node h
  | .select h hs => .select h (RenumberedL.flip hs)
  | .fastSelect h hs => .fastSelect h (RenumberedL.flip hs)
  | .sequence h hs => .sequence h (RenumberedL.flip hs)
  | .separateBy h hr hb => .separateBy h (Renumbered.flip hr) (Renumbered.flip hb)
  | .repeat_ h hr => .repeat_ h (Renumbered.flip hr)
  | .lines h hr => .lines h (Renumbered.flip hr)
  | .optional h hr => .optional h (Renumbered.flip hr)
  | .not h hr => .not h (Renumbered.flip hr)
theorem Spec.RenumberedL.flip {R : DebugId → DebugId → Prop} {rs rs'} (h : RenumberedL R rs rs') :
    RenumberedL (fun a b => R b a) rs' rs :=
  match h with
  | .nil => .nil
  | .cons h h' => .cons (Renumbered.flip h) (RenumberedL.flip h')
end

theorem Spec.ErrorLike.flip {R : DebugId → DebugId → Prop} {e e'} (h : ErrorLike R e e') :
    ErrorLike (fun a b => R b a) e' e := by
  cases h <;> constructor <;> assumption

theorem RErrLike_flip {R : DebugId → DebugId → Prop} {e e'} (h : RErrLike R e e') :
    RErrLike (fun a b => R b a) e' e := ⟨h.1.symm, h.2.flip⟩

/-- Lists of failures that are alike one by one. -/
inductive Alike (R : DebugId → DebugId → Prop) : List RErr → List RErr → Prop
  | nil : Alike R [] []
  | cons {e e' t t'} (h : RErrLike R e e') (h' : Alike R t t') : Alike R (e :: t) (e' :: t')

theorem Alike.append {R a a' b b'} (h : Alike R a a') (h' : Alike R b b') :
    Alike R (a ++ b) (a' ++ b') := by
  induction h with
  | nil => exact h'
  | cons h _ ih => exact .cons h ih

theorem Alike.one {R ran e e'} (h : ErrorLike R e e') : Alike R [⟨ran, e⟩] [⟨ran, e'⟩] :=
  .cons ⟨rfl, h⟩ .nil

theorem Alike.split {R a b t} (h : Alike R (a ++ b) t) :
    ∃ a' b', t = a' ++ b' ∧ Alike R a a' ∧ Alike R b b' := by
  induction a generalizing t with
  | nil => exact ⟨[], t, rfl, .nil, h⟩
  | cons e a ih =>
    cases h with
    | cons h h' =>
      obtain ⟨a', b', rfl, h1, h2⟩ := ih h'
      exact ⟨_ :: a', b', rfl, .cons h h1, h2⟩

theorem Alike.mem {R t t'} (h : Alike R t t') : ∀ {x}, x ∈ t' → ∃ y ∈ t, y.depth = x.depth := by
  induction h with
  | nil => intro x hx; simp at hx
  | cons h _ ih =>
    intro x hx
    rcases List.mem_cons.1 hx with rfl | hx
    · exact ⟨_, List.mem_cons_self, by simp [RErr.depth, h.1]⟩
    · obtain ⟨y, hy, h1⟩ := ih hx
      exact ⟨y, by simp [hy], h1⟩

/-- The errors reported are alike. -/
theorem Alike.reported {R t t' e} (h : Alike R t t') (he : Reported t e) :
    ∃ e', Reported t' e' ∧ RErrLike R e e' := by
  obtain ⟨a, b, rfl, h1, h2⟩ := he
  obtain ⟨a', _, rfl, ha, hb⟩ := h.split
  cases hb with
  | @cons _ e' _ b' h0 hb =>
    have hd : e.depth = e'.depth := by simp [RErr.depth, h0.1]
    refine ⟨e', ⟨a', b', rfl, fun x hx => ?_, fun x hx => ?_⟩, h0⟩
    · obtain ⟨y, hy, h3⟩ := ha.mem hx
      have := h1 y hy
      omega
    · obtain ⟨y, hy, h3⟩ := hb.mem hx
      have := h2 y hy
      omega

/-- Goals with other debug ids. -/
inductive GoalLike (R : DebugId → DebugId → Prop) : Goal → Goal → Prop
  | rule {r r'} (h : Renumbered R r r') : GoalLike R (.rule r) (.rule r')
  | sel {rs rs'} (h : RenumberedL R rs rs') : GoalLike R (.sel rs) (.sel rs')
  | seq {rs rs'} (h : RenumberedL R rs rs') : GoalLike R (.seq rs) (.seq rs')
  | rep {r r'} (h : Renumbered R r r') : GoalLike R (.rep r) (.rep r')
  | sepTail {r r' b b' trail} (h : Renumbered R r r') (h' : Renumbered R b b') :
      GoalLike R (.sepTail r b trail) (.sepTail r' b' trail)
  | lines {r r' ind id id' first item} (h0 : R id id') (h : Renumbered R r r') :
      GoalLike R (.lines r ind id first item) (.lines r' ind id' first item)
  | line {r r' ind first} (h : Renumbered R r r') : GoalLike R (.line r ind first) (.line r' ind first)

theorem like_ws {R opt id g'} (h : GoalLike R (.rule (.whitespace opt id)) g') :
    ∃ id', g' = .rule (.whitespace opt id') ∧ R id id' := by
  cases h with
  | rule h => cases h with
    | whitespace h => exact ⟨_, rfl, h⟩
theorem like_tag {R t neg inv prop id g'} (h : GoalLike R (.rule (.tag t neg inv prop id)) g') :
    ∃ id', g' = .rule (.tag t neg inv prop id') ∧ R id id' := by
  cases h with
  | rule h => cases h with
    | tag h => exact ⟨_, rfl, h⟩
theorem like_until {R any opt prop id g'} (h : GoalLike R (.rule (.untilAny any opt prop id)) g') :
    ∃ id', g' = .rule (.untilAny any opt prop id') ∧ R id id' := by
  cases h with
  | rule h => cases h with
    | untilAny h => exact ⟨_, rfl, h⟩
theorem like_untilWs {R any opt prop id g'} (h : GoalLike R (.rule (.untilAnyOrWs any opt prop id)) g') :
    ∃ id', g' = .rule (.untilAnyOrWs any opt prop id') ∧ R id id' := by
  cases h with
  | rule h => cases h with
    | untilAnyOrWs h => exact ⟨_, rfl, h⟩
theorem like_text {R empty prop id g'} (h : GoalLike R (.rule (.text empty prop id)) g') :
    ∃ id', g' = .rule (.text empty prop id') ∧ R id id' := by
  cases h with
  | rule h => cases h with
    | text h => exact ⟨_, rfl, h⟩
theorem like_number {R prop us id g'} (h : GoalLike R (.rule (.number prop us id)) g') :
    ∃ id', g' = .rule (.number prop us id') ∧ R id id' := by
  cases h with
  | rule h => cases h with
    | number h => exact ⟨_, rfl, h⟩
theorem like_node {R name prop ix id g'} (h : GoalLike R (.rule (.node name prop ix id)) g') :
    ∃ name' id', g' = .rule (.node name' prop ix id') ∧ R id id' := by
  cases h with
  | rule h => cases h with
    | node h => exact ⟨_, _, rfl, h⟩
theorem like_select {R rs  id g'} (h : GoalLike R (.rule (.select rs id)) g') :
    ∃ rs' id', g' = .rule (.select rs' id') ∧ R id id' ∧ RenumberedL R rs rs' := by
  cases h with
  | rule h => cases h with
    | select h hs => exact ⟨_, _, rfl, h, hs⟩
theorem like_fast {R rs tb tail id g'} (h : GoalLike R (.rule (.fastSelect tb rs tail id)) g') :
    ∃ rs' id', g' = .rule (.fastSelect tb rs' tail id') ∧ R id id' ∧ RenumberedL R rs rs' := by
  cases h with
  | rule h => cases h with
    | fastSelect h hs => exact ⟨_, _, rfl, h, hs⟩
theorem like_sequence {R rs  id g'} (h : GoalLike R (.rule (.sequence rs id)) g') :
    ∃ rs' id', g' = .rule (.sequence rs' id') ∧ R id id' ∧ RenumberedL R rs rs' := by
  cases h with
  | rule h => cases h with
    | sequence h hs => exact ⟨_, _, rfl, h, hs⟩
theorem like_repeat {R r opt id g'} (h : GoalLike R (.rule (.repeat_ r opt id)) g') :
    ∃ r' id', g' = .rule (.repeat_ r' opt id') ∧ R id id' ∧ Renumbered R r r' := by
  cases h with
  | rule h => cases h with
    | repeat_ h hs => exact ⟨_, _, rfl, h, hs⟩
theorem like_lines {R r ind id g'} (h : GoalLike R (.rule (.lines r ind id)) g') :
    ∃ r' id', g' = .rule (.lines r' ind id') ∧ R id id' ∧ Renumbered R r r' := by
  cases h with
  | rule h => cases h with
    | lines h hs => exact ⟨_, _, rfl, h, hs⟩
theorem like_optional {R r  id g'} (h : GoalLike R (.rule (.optional r id)) g') :
    ∃ r' id', g' = .rule (.optional r' id') ∧ R id id' ∧ Renumbered R r r' := by
  cases h with
  | rule h => cases h with
    | optional h hs => exact ⟨_, _, rfl, h, hs⟩
theorem like_not {R r  id g'} (h : GoalLike R (.rule (.not r id)) g') :
    ∃ r' id', g' = .rule (.not r' id') ∧ R id id' ∧ Renumbered R r r' := by
  cases h with
  | rule h => cases h with
    | not h hs => exact ⟨_, _, rfl, h, hs⟩
theorem like_sep {R r b opt trail id g'} (h : GoalLike R (.rule (.separateBy r b opt trail id)) g') :
    ∃ r' b' id', g' = .rule (.separateBy r' b' opt trail id') ∧ R id id' ∧ Renumbered R r r' ∧
      Renumbered R b b' := by
  cases h with
  | rule h => cases h with
    | separateBy h hr hb => exact ⟨_, _, _, rfl, h, hr, hb⟩
theorem like_sel {R rs g'} (h : GoalLike R (.sel rs) g') :
    ∃ rs', g' = .sel rs' ∧ RenumberedL R rs rs' := by
  cases h with
  | sel h => exact ⟨_, rfl, h⟩
theorem like_seq {R rs g'} (h : GoalLike R (.seq rs) g') :
    ∃ rs', g' = .seq rs' ∧ RenumberedL R rs rs' := by
  cases h with
  | seq h => exact ⟨_, rfl, h⟩
theorem like_rep {R r g'} (h : GoalLike R (.rep r) g') : ∃ r', g' = .rep r' ∧ Renumbered R r r' := by
  cases h with
  | rep h => exact ⟨_, rfl, h⟩
theorem like_sepTail {R r b trail g'} (h : GoalLike R (.sepTail r b trail) g') :
    ∃ r' b', g' = .sepTail r' b' trail ∧ Renumbered R r r' ∧ Renumbered R b b' := by
  cases h with
  | sepTail h h' => exact ⟨_, _, rfl, h, h'⟩
theorem like_linesGoal {R r ind id first item g'} (h : GoalLike R (.lines r ind id first item) g') :
    ∃ r' id', g' = .lines r' ind id' first item ∧ R id id' ∧ Renumbered R r r' := by
  cases h with
  | lines h0 h => exact ⟨_, _, rfl, h0, h⟩
theorem like_line {R r ind first g'} (h : GoalLike R (.line r ind first) g') :
    ∃ r', g' = .line r' ind first ∧ Renumbered R r r' := by
  cases h with
  | line h => exact ⟨_, rfl, h⟩
theorem like_cons {R r rs rs'} (h : RenumberedL R (r :: rs) rs') :
    ∃ r' rs'', rs' = r' :: rs'' ∧ Renumbered R r r' ∧ RenumberedL R rs rs'' := by
  cases h with
  | cons h h' => exact ⟨_, _, rfl, h, h'⟩
theorem like_nil {R rs'} (h : RenumberedL R [] rs') : rs' = [] := by
  cases h; rfl

/-- A run stays a run when debug ids change; its failures are alike. -/
theorem run_renumber {R : DebugId → DebugId → Prop} {E E' : Env} (hLe : E'.L = E.L)
    (hal : E'.align = E.align) (htab : E'.tab = E.tab) (hrefs : RenumberedL R E.refs E'.refs)
    {g p i o j tr} (h : Run E g p i o j tr) :
    ∀ g', GoalLike R g g' → ∃ tr', Run E' g' p i o j tr' ∧ Alike R tr tr' := by
  induction h with
  | ws_ok h h0 =>
    intro g' hg
    obtain ⟨_, rfl, hid⟩ := like_ws hg
    exact ⟨_, .ws_ok h h0, .nil⟩
  | ws_fail h =>
    intro g' hg
    obtain ⟨_, rfl, hid⟩ := like_ws hg
    exact ⟨_, .ws_fail h, .one (.expectedWhitespace hid)⟩
  | tag_ok h =>
    intro g' hg
    obtain ⟨_, rfl, hid⟩ := like_tag hg
    exact ⟨_, .tag_ok h, .nil⟩
  | tag_fail h =>
    intro g' hg
    obtain ⟨_, rfl, hid⟩ := like_tag hg
    exact ⟨_, .tag_fail h, .one (.expectedTag hid)⟩
  | notTag_ok h =>
    intro g' hg
    obtain ⟨_, rfl, hid⟩ := like_tag hg
    exact ⟨_, .notTag_ok h, .nil⟩
  | notTag_fail h =>
    intro g' hg
    obtain ⟨_, rfl, hid⟩ := like_tag hg
    exact ⟨_, .notTag_fail h, .one (.didNotExpectTag hid)⟩
  | until_ok h h0 =>
    intro g' hg
    obtain ⟨_, rfl, hid⟩ := like_until hg
    exact ⟨_, .until_ok h h0, .nil⟩
  | until_fail h =>
    intro g' hg
    obtain ⟨_, rfl, hid⟩ := like_until hg
    exact ⟨_, .until_fail h, .one (.expectedSomething hid)⟩
  | untilWs_ok h h0 =>
    intro g' hg
    obtain ⟨_, rfl, hid⟩ := like_untilWs hg
    exact ⟨_, .untilWs_ok h h0, .nil⟩
  | untilWs_fail h =>
    intro g' hg
    obtain ⟨_, rfl, hid⟩ := like_untilWs hg
    exact ⟨_, .untilWs_fail h, .one (.expectedSomething hid)⟩
  | text_ok h h2 ht =>
    intro g' hg
    obtain ⟨_, rfl, hid⟩ := like_text hg
    exact ⟨_, .text_ok (by rwa [hLe]) h2 (by rwa [hLe]), .nil⟩
  | text_none h =>
    intro g' hg
    obtain ⟨_, rfl, hid⟩ := like_text hg
    exact ⟨_, .text_none (by rwa [hLe]), .one (.expectedText hid)⟩
  | text_empty h =>
    intro g' hg
    obtain ⟨_, rfl, hid⟩ := like_text hg
    exact ⟨_, .text_empty (by rwa [hLe]), .one (.emptyTextNotAllowed hid)⟩
  | text_bad h h2 ht =>
    intro g' hg
    obtain ⟨_, rfl, hid⟩ := like_text hg
    exact ⟨_, .text_bad (by rwa [hLe]) h2 (by rwa [hLe]), .one (.parseStringError hid)⟩
  | num_ok h hv =>
    intro g' hg
    obtain ⟨_, rfl, hid⟩ := like_number hg
    exact ⟨_, .num_ok (by rwa [hLe]) (by rwa [hLe]), .nil⟩
  | num_none h =>
    intro g' hg
    obtain ⟨_, rfl, hid⟩ := like_number hg
    exact ⟨_, .num_none (by rwa [hLe]), .one (.expectedNumber hid)⟩
  | num_bad h hv =>
    intro g' hg
    obtain ⟨_, rfl, hid⟩ := like_number hg
    exact ⟨_, .num_bad (by rwa [hLe]) (by rwa [hLe]), .one (.parseNumberError hid)⟩
  | select_empty  =>
    intro g' hg
    obtain ⟨_, _, rfl, hid, hs⟩ := like_select hg
    obtain rfl := like_nil hs
    exact ⟨_, .select_empty , .one (.invalidRule hid)⟩
  | select h ih =>
    intro g' hg
    obtain ⟨_, _, rfl, hid, hs⟩ := like_select hg
    obtain ⟨t, h1, h2⟩ := ih _ (.sel hs)
    cases hs with
    | cons => exact ⟨t, .select h1, h2⟩
  | sel_nil =>
    intro g' hg
    obtain ⟨_, rfl, hs⟩ := like_sel hg
    obtain rfl := like_nil hs
    exact ⟨_, .sel_nil, .nil⟩
  | sel_here h ih =>
    intro g' hg
    obtain ⟨_, rfl, hl⟩ := like_sel hg
    obtain ⟨_, _, rfl, hr, hs⟩ := like_cons hl
    obtain ⟨t, h1, h2⟩ := ih _ (.rule hr)
    exact ⟨t, .sel_here h1, h2⟩
  | sel_next h h' ih ih' =>
    intro g' hg
    obtain ⟨_, rfl, hl⟩ := like_sel hg
    obtain ⟨_, _, rfl, hr, hs⟩ := like_cons hl
    obtain ⟨t, h1, h2⟩ := ih _ (.rule hr)
    obtain ⟨t', h1', h2'⟩ := ih' _ (.sel hs)
    exact ⟨_, .sel_next h1 h1', h2.append h2'⟩
  | fast_end h =>
    intro g' hg
    obtain ⟨_, _, rfl, hid, hs⟩ := like_fast hg
    exact ⟨_, .fast_end h, .one (.expectedSomething hid)⟩
  | fast_miss h hb ht =>
    intro g' hg
    obtain ⟨_, _, rfl, hid, hs⟩ := like_fast hg
    exact ⟨_, .fast_miss h hb ht, .one (.expectedSomething hid)⟩
  | fast_hit h hb ht hr h' ih =>
    intro g' hg
    obtain ⟨_, _, rfl, hid, hs⟩ := like_fast hg
    obtain ⟨r', h3, h4⟩ := hs.get hr
    obtain ⟨t, h1, h2⟩ := ih _ (.rule h4)
    exact ⟨_, .fast_hit h hb ht h3 h1, h2⟩
  | fastTail_miss h hb ht hr h' ih =>
    intro g' hg
    obtain ⟨_, _, rfl, hid, hs⟩ := like_fast hg
    obtain ⟨r', h3, h4⟩ := hs.last hr
    obtain ⟨t, h1, h2⟩ := ih _ (.rule h4)
    exact ⟨_, .fastTail_miss h hb ht h3 h1, h2⟩
  | fastTail_hit h hb ht hr h' ih =>
    intro g' hg
    obtain ⟨_, _, rfl, hid, hs⟩ := like_fast hg
    obtain ⟨r', h3, h4⟩ := hs.get hr
    obtain ⟨t, h1, h2⟩ := ih _ (.rule h4)
    exact ⟨_, .fastTail_hit h hb ht h3 h1, h2⟩
  | fastTail_next h hb ht hr h' hr' h'' ih ih' =>
    intro g' hg
    obtain ⟨_, _, rfl, hid, hs⟩ := like_fast hg
    obtain ⟨r', h3, h4⟩ := hs.get hr
    obtain ⟨r'', h5, h6⟩ := hs.last hr'
    obtain ⟨t, h1, h2⟩ := ih _ (.rule h4)
    obtain ⟨t', h1', h2'⟩ := ih' _ (.rule h6)
    exact ⟨_, .fastTail_next h hb ht h3 h1 h5 h1', h2.append h2'⟩
  | sequence h ih =>
    intro g' hg
    obtain ⟨_, _, rfl, hid, hs⟩ := like_sequence hg
    obtain ⟨t, h1, h2⟩ := ih _ (.seq hs)
    exact ⟨_, .sequence h1, h2⟩
  | seq_nil =>
    intro g' hg
    obtain ⟨_, rfl, hs⟩ := like_seq hg
    obtain rfl := like_nil hs
    exact ⟨_, .seq_nil, .nil⟩
  | seq_fail h ih =>
    intro g' hg
    obtain ⟨_, rfl, hl⟩ := like_seq hg
    obtain ⟨_, _, rfl, hr, hs⟩ := like_cons hl
    obtain ⟨t, h1, h2⟩ := ih _ (.rule hr)
    exact ⟨_, .seq_fail h1, h2⟩
  | seq_cons h h' ih ih' =>
    intro g' hg
    obtain ⟨_, rfl, hl⟩ := like_seq hg
    obtain ⟨_, _, rfl, hr, hs⟩ := like_cons hl
    obtain ⟨t, h1, h2⟩ := ih _ (.rule hr)
    obtain ⟨t', h1', h2'⟩ := ih' _ (.seq hs)
    exact ⟨_, .seq_cons h1 h1', h2.append h2'⟩
  | repeat_opt h ih =>
    intro g' hg
    obtain ⟨_, _, rfl, hid, hr⟩ := like_repeat hg
    obtain ⟨t, h1, h2⟩ := ih _ (.rep hr)
    exact ⟨_, .repeat_opt h1, h2⟩
  | repeat_fail h ih =>
    intro g' hg
    obtain ⟨_, _, rfl, hid, hr⟩ := like_repeat hg
    obtain ⟨t, h1, h2⟩ := ih _ (.rule hr)
    exact ⟨_, .repeat_fail h1, h2⟩
  | repeat_ok h h' ih ih' =>
    intro g' hg
    obtain ⟨_, _, rfl, hid, hr⟩ := like_repeat hg
    obtain ⟨t, h1, h2⟩ := ih _ (.rule hr)
    obtain ⟨t', h1', h2'⟩ := ih' _ (.rep hr)
    exact ⟨_, .repeat_ok h1 h1', h2.append h2'⟩
  | rep_stop h ih =>
    intro g' hg
    obtain ⟨_, rfl, hr⟩ := like_rep hg
    obtain ⟨t, h1, h2⟩ := ih _ (.rule hr)
    exact ⟨_, .rep_stop h1, h2⟩
  | rep_more h h' ih ih' =>
    intro g' hg
    obtain ⟨_, rfl, hr⟩ := like_rep hg
    obtain ⟨t, h1, h2⟩ := ih _ (.rule hr)
    obtain ⟨t', h1', h2'⟩ := ih' _ (.rep hr)
    exact ⟨_, .rep_more h1 h1', h2.append h2'⟩
  | sep_none h ih =>
    intro g' hg
    obtain ⟨_, _, _, rfl, hid, hr, hb⟩ := like_sep hg
    obtain ⟨t, h1, h2⟩ := ih _ (.rule hr)
    exact ⟨_, .sep_none h1, h2⟩
  | sep_fail h ih =>
    intro g' hg
    obtain ⟨_, _, _, rfl, hid, hr, hb⟩ := like_sep hg
    obtain ⟨t, h1, h2⟩ := ih _ (.rule hr)
    exact ⟨_, .sep_fail h1, h2⟩
  | sep_first h h' ih ih' =>
    intro g' hg
    obtain ⟨_, _, _, rfl, hid, hr, hb⟩ := like_sep hg
    obtain ⟨t, h1, h2⟩ := ih _ (.rule hr)
    obtain ⟨t', h1', h2'⟩ := ih' _ (.sepTail hr hb)
    exact ⟨_, .sep_first h1 h1', h2.append h2'⟩
  | sep_stop h ih =>
    intro g' hg
    obtain ⟨_, _, rfl, hr, hb⟩ := like_sepTail hg
    obtain ⟨t, h1, h2⟩ := ih _ (.rule hb)
    exact ⟨_, .sep_stop h1, h2⟩
  | sep_trail h h' ih ih' =>
    intro g' hg
    obtain ⟨_, _, rfl, hr, hb⟩ := like_sepTail hg
    obtain ⟨t, h1, h2⟩ := ih _ (.rule hb)
    obtain ⟨t', h1', h2'⟩ := ih' _ (.rule hr)
    exact ⟨_, .sep_trail h1 h1', h2.append h2'⟩
  | sep_noTrail h h' ih ih' =>
    intro g' hg
    obtain ⟨_, _, rfl, hr, hb⟩ := like_sepTail hg
    obtain ⟨t, h1, h2⟩ := ih _ (.rule hb)
    obtain ⟨t', h1', h2'⟩ := ih' _ (.rule hr)
    exact ⟨_, .sep_noTrail h1 h1', h2.append h2'⟩
  | sep_more h h' h'' ih ih' ih'' =>
    intro g' hg
    obtain ⟨_, _, rfl, hr, hb⟩ := like_sepTail hg
    obtain ⟨t, h1, h2⟩ := ih _ (.rule hb)
    obtain ⟨t', h1', h2'⟩ := ih' _ (.rule hr)
    obtain ⟨t'', h1'', h2''⟩ := ih'' _ (.sepTail hr hb)
    exact ⟨_, .sep_more h1 h1' h1'', h2.append (h2'.append h2'')⟩
  | lines h ih =>
    intro g' hg
    obtain ⟨_, _, rfl, hid, hr⟩ := like_lines hg
    obtain ⟨t, h1, h2⟩ := ih _ (.lines hid hr)
    exact ⟨_, .lines h1, h2⟩
  | lines_done h =>
    intro g' hg
    obtain ⟨_, _, rfl, hid, hr⟩ := like_linesGoal hg
    exact ⟨_, .lines_done (by rwa [hLe]), .nil⟩
  | lines_fail h =>
    intro g' hg
    obtain ⟨_, _, rfl, hid, hr⟩ := like_linesGoal hg
    exact ⟨_, .lines_fail (by rwa [hLe]), .one (.expectedNewLine hid)⟩
  | lines_stop h h' ih =>
    intro g' hg
    obtain ⟨_, _, rfl, hid, hr⟩ := like_linesGoal hg
    obtain ⟨t, h1, h2⟩ := ih _ (.line hr)
    exact ⟨_, .lines_stop (by rwa [hLe]) h1, h2⟩
  | lines_more h h' h'' ih ih' =>
    intro g' hg
    obtain ⟨_, _, rfl, hid, hr⟩ := like_linesGoal hg
    obtain ⟨t, h1, h2⟩ := ih _ (.line hr)
    obtain ⟨t', h1', h2'⟩ := ih' _ (.lines hid hr)
    exact ⟨_, .lines_more (by rwa [hLe]) h1 h1', h2.append h2'⟩
  | line_plain h ih =>
    intro g' hg
    obtain ⟨_, rfl, hr⟩ := like_line hg
    obtain ⟨t, h1, h2⟩ := ih _ (.rule hr)
    exact ⟨_, .line_plain h1, h2⟩
  | line_shallow h =>
    intro g' hg
    obtain ⟨_, rfl, hr⟩ := like_line hg
    exact ⟨_, .line_shallow (by rwa [htab]), .nil⟩
  | line_deep ha h hd =>
    intro g' hg
    obtain ⟨_, rfl, hr⟩ := like_line hg
    exact ⟨_, .line_deep (by rwa [hal]) (by rwa [htab]) hd, .nil⟩
  | line_body ha h hd hi h' ih =>
    intro g' hg
    obtain ⟨_, rfl, hr⟩ := like_line hg
    obtain ⟨t, h1, h2⟩ := ih _ (.rule hr)
    exact ⟨_, .line_body (by rwa [hal]) (by rwa [htab]) hd hi h1, h2⟩
  | line_align ha h hm hi h' ih =>
    intro g' hg
    obtain ⟨_, rfl, hr⟩ := like_line hg
    rw [← htab] at h hi ih ⊢
    obtain ⟨t, h1, h2⟩ := ih _ (.rule hr)
    exact ⟨_, .line_align (by rwa [hal]) h hm hi h1, h2⟩
  | node_unresolved =>
    intro g' hg
    obtain ⟨_, _, rfl, hid⟩ := like_node hg
    exact ⟨_, .node_unresolved, .one (.invalidRule hid)⟩
  | node_fail hr h ih =>
    intro g' hg
    obtain ⟨_, _, rfl, hid⟩ := like_node hg
    obtain ⟨r', h3, h4⟩ := hrefs.get hr
    obtain ⟨t, h1, h2⟩ := ih _ (.rule h4)
    exact ⟨_, .node_fail h3 h1, h2⟩
  | node_ok hr h ih =>
    intro g' hg
    obtain ⟨_, _, rfl, hid⟩ := like_node hg
    obtain ⟨r', h3, h4⟩ := hrefs.get hr
    obtain ⟨t, h1, h2⟩ := ih _ (.rule h4)
    exact ⟨_, .node_ok h3 h1, h2⟩
  | optional_none h ih =>
    intro g' hg
    obtain ⟨_, _, rfl, hid, hr⟩ := like_optional hg
    obtain ⟨t, h1, h2⟩ := ih _ (.rule hr)
    exact ⟨_, .optional_none h1, h2⟩
  | optional_some h ih =>
    intro g' hg
    obtain ⟨_, _, rfl, hid, hr⟩ := like_optional hg
    obtain ⟨t, h1, h2⟩ := ih _ (.rule hr)
    exact ⟨_, .optional_some h1, h2⟩
  | not_ok h ih =>
    intro g' hg
    obtain ⟨_, _, rfl, hid, hr⟩ := like_not hg
    obtain ⟨t, h1, h2⟩ := ih _ (.rule hr)
    exact ⟨_, .not_ok h1, .nil⟩
  | not_fail h ih =>
    intro g' hg
    obtain ⟨_, _, rfl, hid, hr⟩ := like_not hg
    obtain ⟨t, h1, h2⟩ := ih _ (.rule hr)
    exact ⟨_, .not_fail h1, .one (.didNotExpectTag hid)⟩

end Verif
