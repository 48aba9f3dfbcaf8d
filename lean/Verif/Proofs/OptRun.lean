import Verif.Proofs.OptSim
/-
Runs of a syntax and of the optimized syntax.
-/
namespace Verif
open Spec

/-- Related goals. -/
inductive SimGoal (refs : List Rule) (n : Nat) (Q : Rule → Prop) : Goal → Goal → Prop
  | rule {r r'} (h : Sim refs n Q r r') : SimGoal refs n Q (.rule r) (.rule r')
  | sel {rs rs'} (h : SimL refs n Q rs rs') : SimGoal refs n Q (.sel rs) (.sel rs')
  | seq {rs rs'} (h : SimL refs n Q rs rs') : SimGoal refs n Q (.seq rs) (.seq rs')
  | rep {r r'} (h : Sim refs n Q r r') : SimGoal refs n Q (.rep r) (.rep r')
  | sepTail {r r' b b' t} (h : Sim refs n Q r r') (h' : Sim refs n Q b b') :
      SimGoal refs n Q (.sepTail r b t) (.sepTail r' b' t)
  | lines {r r' ind id first item} (h : Sim refs n Q r r') :
      SimGoal refs n Q (.lines r ind id first item) (.lines r' ind id first item)
  | line {r r' ind first} (h : Sim refs n Q r r') :
      SimGoal refs n Q (.line r ind first) (.line r' ind first)

theorem before_before {a b : Nat} {ts us o} :
    before a ts (before b us o) = before (a + b) (ts ++ us) o := by
  cases o with
  | none => rfl
  | some x => simp [before, Nat.add_assoc]

theorem sel_endRefused {E : Env} {off : Nat} : ∀ {B : List Rule}, (∀ b ∈ B, EndRefused E b) →
    ∀ i, ∃ tr, Run E (.sel B) ⟨[], off⟩ i none i tr
  | [], _, i => ⟨_, .sel_nil⟩
  | b :: B, h, i => by
    obtain ⟨tr, h1⟩ := h b (by simp) off i
    obtain ⟨tr', h2⟩ := sel_endRefused (B := B) (off := off) (fun b hb => h b (by simp [hb])) i
    exact ⟨_, .sel_next h1 h2⟩

/-! ### Alternatives that are not tried at the end of the text -/

theorem nonEnd_ok {E : Env} {p : Pos} {i} (hp : p.src ≠ []) :
    Run E (.rule nonEnd) p i (some (0, [])) i [] := by
  refine .not_ok (.not_fail (.until_ok (n := p.src.length) ⟨Nat.le_refl _, ?_, ?_⟩ ?_))
  all_goals first
    | (intro h0; exact absurd (List.length_eq_zero_iff.1 h0) hp)
    | simp

theorem nonEnd_fail {E : Env} {p : Pos} {i} (hp : p.src = []) :
    ∃ tr, Run E (.rule nonEnd) p i none i tr := by
  refine ⟨_, .not_fail (.not_ok (.until_fail ⟨?_, ?_, ?_⟩))⟩ <;> simp [hp]

theorem guard_endRefused (E : Env) (r : Rule) : EndRefused E (notAtEnd r) := by
  intro off i
  obtain ⟨tr, h⟩ := nonEnd_fail (E := E) (p := ⟨[], off⟩) (i := i) rfl
  exact ⟨_, .sequence (.seq_fail h)⟩

/-- Elsewhere a guarded rule does what the rule does. -/
theorem guard_iff {E : Env} {r : Rule} {p : Pos} {i o j tr} (hp : p.src ≠ []) :
    Run E (.rule (notAtEnd r)) p i o j tr ↔ Run E (.rule r) p i o j tr := by
  have key : ∀ {o j tr}, Run E (.rule r) p i o j tr → Run E (.rule (notAtEnd r)) p i o j tr := by
    intro o j tr h
    have h0 := nonEnd_ok (E := E) (i := i) hp
    cases o with
    | none =>
      have := Run.sequence (id := 0) (Run.seq_cons (rs := [r]) h0 (by rw [adv_zero]; exact .seq_fail h))
      simpa [before, notAtEnd] using this
    | some x =>
      obtain ⟨n, ts⟩ := x
      have := Run.sequence (id := 0) (Run.seq_cons h0
        (by rw [adv_zero]; exact Run.seq_cons h Run.seq_nil))
      simpa [before, notAtEnd] using this
  refine ⟨fun h => ?_, key⟩
  have h0 := nonEnd_ok (E := E) (i := i) hp
  have : ∃ o j tr, Run E (.rule r) p i o j tr := by
    cases h with
    | sequence h =>
      cases h with
      | seq_fail h => have := (Run.det h0 h).1; simp at this
      | seq_cons h h' =>
        obtain ⟨h1, rfl, _⟩ := Run.det h0 h
        cases h1
        rw [adv_zero] at h'
        cases h' with
        | seq_fail h => exact ⟨_, _, _, h⟩
        | seq_cons h _ => exact ⟨_, _, _, h⟩
  obtain ⟨o', j', tr', h'⟩ := this
  obtain ⟨rfl, rfl, rfl⟩ := Run.det h (key h')
  exact h'

theorem sel_guard_iff {E : Env} {p : Pos} (hp : p.src ≠ []) : ∀ {B : List Rule} {i o j tr},
    Run E (.sel (B.map notAtEnd)) p i o j tr ↔ Run E (.sel B) p i o j tr
  | [], _, _, _, _ => Iff.rfl
  | b :: B, i, o, j, tr => by
    constructor
    · intro h
      cases h with
      | sel_here h => exact .sel_here ((guard_iff hp).1 h)
      | sel_next h h' => exact .sel_next ((guard_iff hp).1 h) ((sel_guard_iff hp).1 h')
    · intro h
      cases h with
      | sel_here h => exact .sel_here ((guard_iff hp).2 h)
      | sel_next h h' => exact .sel_next ((guard_iff hp).2 h) ((sel_guard_iff hp).2 h')

theorem sel_unguard {E : Env} {p : Pos} (hp : p.src ≠ []) {B : List Rule} :
    ∀ {A : List Rule} {i o j tr}, Run E (.sel (A ++ B.map notAtEnd)) p i o j tr →
      Run E (.sel (A ++ B)) p i o j tr
  | [], i, o, j, tr, h => (sel_guard_iff hp).1 h
  | a :: A, i, o, j, tr, h => by
    cases h with
    | sel_here h => exact .sel_here h
    | sel_next h h' => exact .sel_next h (sel_unguard hp h')

theorem guarded_select {E : Env} {gs rs : List Rule} {u : Nat} (hg : gs = guardFrom u rs)
    (hu : u < rs.length) {p i o j tr id} (h : Run E (.sel gs) p i o j tr) :
    ∃ tr, Run E (.rule (.select gs id)) p i o j tr := by
  cases gs with
  | nil =>
    have := congrArg List.length hg
    rw [guardFrom_length] at this
    simp at this
    omega
  | cons g gs => exact ⟨_, .select h⟩

section
variable {L : Lexer} {refs refs' : List Rule} {align : Bool} {tab : Nat} {n : Nat}

/-- The original syntax. -/
local notation "EE" => (Env.mk L refs align tab)
/-- The optimized syntax. -/
local notation "EO" => (Env.mk L refs' align tab)

theorem sel_eof_none {Q : Rule → Prop} (hL : L.Lawful) (hQ : Q = EndRefused EE)
    {args t u} (ht : uniqueTable refs n args = .ok (t, u))
    (hq : ∀ b ∈ args.drop u, Q b) {p : Pos} (hp : p.src = []) (i : Nat) :
    ∃ tr, Run EE (.sel args) p i none i tr := by
  have hfit := tableFits_of_spec (E' := EE) hL (SimL.refl (n := n) (Q := Q) refs) (uniqueTable_spec ht).1
    (SimL.refl args)
  subst hQ
  obtain ⟨src, off⟩ := p
  simp at hp
  subst hp
  obtain ⟨tr, h1⟩ := sel_endRefused (off := off) hq i
  have := sel_add (fits_eof hfit (p := ⟨[], off⟩) rfl) h1
  rwa [List.take_append_drop] at this

/-- Whatever the original does, the optimized syntax does too. -/
theorem run_opt (hL : L.Lawful) {Q : Rule → Prop} (hQ : Q = EndRefused EE)
    (hrefs : SimL refs n Q refs refs') {g p i o j tr} (h : Run EE g p i o j tr) :
    ∀ g', SimGoal refs n Q g g' → ∃ tr', Run EO g' p i o j tr' ∧ SameReach p o tr tr' := by
  induction h with
  | ws_ok h h0 => rintro _ ⟨⟨⟩⟩; exact ⟨_, .ws_ok h h0, sameReach_refl⟩
  | ws_fail h => rintro _ ⟨⟨⟩⟩; exact ⟨_, .ws_fail h, sameReach_refl⟩
  | tag_ok h => rintro _ ⟨⟨⟩⟩; exact ⟨_, .tag_ok h, sameReach_refl⟩
  | tag_fail h => rintro _ ⟨⟨⟩⟩; exact ⟨_, .tag_fail h, sameReach_refl⟩
  | notTag_ok h => rintro _ ⟨⟨⟩⟩; exact ⟨_, .notTag_ok h, sameReach_refl⟩
  | notTag_fail h => rintro _ ⟨⟨⟩⟩; exact ⟨_, .notTag_fail h, sameReach_refl⟩
  | until_ok h h0 => rintro _ ⟨⟨⟩⟩; exact ⟨_, .until_ok h h0, sameReach_refl⟩
  | until_fail h => rintro _ ⟨⟨⟩⟩; exact ⟨_, .until_fail h, sameReach_refl⟩
  | untilWs_ok h h0 => rintro _ ⟨⟨⟩⟩; exact ⟨_, .untilWs_ok h h0, sameReach_refl⟩
  | untilWs_fail h => rintro _ ⟨⟨⟩⟩; exact ⟨_, .untilWs_fail h, sameReach_refl⟩
  | text_ok h h2 ht => rintro _ ⟨⟨⟩⟩; exact ⟨_, .text_ok h h2 ht, sameReach_refl⟩
  | text_none h => rintro _ ⟨⟨⟩⟩; exact ⟨_, .text_none h, sameReach_refl⟩
  | text_empty h => rintro _ ⟨⟨⟩⟩; exact ⟨_, .text_empty h, sameReach_refl⟩
  | text_bad h h2 ht => rintro _ ⟨⟨⟩⟩; exact ⟨_, .text_bad h h2 ht, sameReach_refl⟩
  | num_ok h hv => rintro _ ⟨⟨⟩⟩; exact ⟨_, .num_ok h hv, sameReach_refl⟩
  | num_none h => rintro _ ⟨⟨⟩⟩; exact ⟨_, .num_none h, sameReach_refl⟩
  | num_bad h hv => rintro _ ⟨⟨⟩⟩; exact ⟨_, .num_bad h hv, sameReach_refl⟩
  | select_empty =>
    rintro _ ⟨hs⟩
    cases hs with
    | select hs => cases hs; exact ⟨_, .select_empty, sameReach_refl⟩
    | fast _ hne _ => simp at hne
    | tail _ _ hu _ _ => simp at hu
    | guarded hg _ _ hu _ =>
      have := congrArg List.length hg
      rw [guardFrom_length] at this
      simp at this
      omega
  | @select r rs id p i o j tr h ih =>
    rintro _ ⟨hs⟩
    cases hs with
    | select hs =>
      obtain ⟨tr', h1, h2⟩ := ih _ (.sel hs)
      cases hs
      exact ⟨_, .select h1, h2⟩
    | fast ht hne hs =>
      obtain ⟨tr', h1, h2⟩ := ih _ (.sel hs)
      have hfit := tableFits_of_spec (E' := EO) hL hrefs (uniqueTable_spec ht).1 hs
      rw [hs.length, List.take_length] at hfit
      obtain ⟨tr'', h3, h4⟩ := fast_of_sel (id := id) hL hfit h1 (by cases hs; simp)
      refine ⟨_, h3, ?_⟩
      cases o with
      | none => exact h2.trans h4
      | some x => exact h2.trans h4
    | @tail _ rs' _ t u ht h0 hu hq hs =>
      obtain ⟨tr', h1, h2⟩ := ih _ (.sel hs)
      have hfit := tableFits_of_spec (E' := EO) hL hrefs (uniqueTable_spec ht).1 hs
      rw [← List.take_append_drop u rs'] at h1
      have hlen := hs.length
      obtain ⟨tr'', h3, h4⟩ := fast_of_sel_tail (id := id) hL hfit
        (by intro he; have := congrArg List.length he; simp at this hu hlen; omega) h1 (by
          intro hp
          obtain ⟨tr0, h5⟩ := sel_eof_none (align := align) (tab := tab) hL hQ ht hq hp i
          exact (Run.det h h5).1)
        (by
          intro he
          have := congrArg List.length he
          rw [List.length_take, List.length_nil] at this
          omega)
      refine ⟨_, h3, ?_⟩
      cases o with
      | none => exact h2.trans h4
      | some x => exact h2.trans h4
    | @guarded _ ss ss' _ t u hg ht h0 hu hs =>
      have hsg := hs.guardFrom u
      have hlen := hs.length
      have hfit := tableFits_of_spec (E' := EO) hL hrefs (uniqueTable_spec ht).1 (hg ▸ hsg)
      rw [guardFrom_take (by omega)] at hfit
      obtain ⟨tr', h1, h2⟩ := ih _ (.sel (hg ▸ hsg))
      have hne : ss'.take u ≠ [] := by
        intro he
        have := congrArg List.length he
        rw [List.length_take, List.length_nil] at this
        omega
      by_cases hp : p.src = []
      · have hq : ∀ b ∈ (r :: rs).drop u, Q b := by
          rw [hg, guardFrom_drop (by omega), hQ]
          intro b hb
          obtain ⟨c, _, rfl⟩ := List.mem_map.1 hb
          exact guard_endRefused _ c
        obtain ⟨tr0, h5⟩ := sel_eof_none (align := align) (tab := tab) hL hQ ht hq hp i
        obtain ⟨rfl, rfl, _⟩ := Run.det h h5
        obtain ⟨tr'', h3, h4⟩ := fast_of_sel_tail (id := id) (B := (ss'.drop u).map notAtEnd) hL hfit
          (by
            intro he
            have := congrArg List.length he
            rw [List.length_map, List.length_drop, List.length_nil] at this
            omega) h1 (fun _ => rfl) hne
        cases h3 with
        | fast_end _ => exact ⟨_, .fast_end hp, h2.trans h4⟩
        | fastTail_miss hsrc => rw [hp] at hsrc; simp at hsrc
        | fastTail_next hsrc => rw [hp] at hsrc; simp at hsrc
      · have h1' := sel_unguard hp h1
        obtain ⟨tr'', h3, h4⟩ := fast_of_sel_tail (id := id) hL hfit
          (by
            intro he
            have := congrArg List.length he
            rw [List.length_drop, List.length_nil] at this
            omega) h1' (fun hp' => absurd hp' hp) hne
        refine ⟨_, h3, ?_⟩
        cases o with
        | none => exact h2.trans h4
        | some x => exact h2.trans h4
  | sel_nil => rintro _ ⟨⟩; rename_i hs; cases hs; exact ⟨_, .sel_nil, sameReach_refl⟩
  | sel_here h ih =>
    intro _ hg
    cases hg with
    | sel hs =>
      cases hs with
      | cons hs _ =>
        obtain ⟨tr', h1, h2⟩ := ih _ (.rule hs)
        exact ⟨_, .sel_here h1, h2⟩
  | sel_next h h' ih ih' =>
    intro _ hg
    cases hg with
    | sel hs =>
      cases hs with
      | cons hs hs' =>
        obtain ⟨tr', h1, h2⟩ := ih _ (.rule hs)
        obtain ⟨tr'', h3, h4⟩ := ih' _ (.sel hs')
        exact ⟨_, .sel_next h1 h3, sameReach_after_fail h2 h4⟩
  | fast_end h =>
    intro _ hg
    cases hg with | rule hs => cases hs with | fastSelect hs =>
    exact ⟨_, .fast_end h, sameReach_refl⟩
  | fast_miss h hb ht =>
    intro _ hg
    cases hg with | rule hs => cases hs with | fastSelect hs =>
    exact ⟨_, .fast_miss h hb ht, sameReach_refl⟩
  | fast_hit h hb ht hr h' ih =>
    intro _ hg
    cases hg with | rule hs => cases hs with | fastSelect hs =>
    obtain ⟨r', hr', hs'⟩ := hs.get _ _ hr
    obtain ⟨tr', h1, h2⟩ := ih _ (.rule hs')
    exact ⟨_, .fast_hit h hb ht hr' h1, h2⟩
  | fastTail_miss h hb ht hr h' ih =>
    intro _ hg
    cases hg with | rule hs => cases hs with | fastSelect hs =>
    obtain ⟨r', hr', hs'⟩ := hs.last hr
    obtain ⟨tr', h1, h2⟩ := ih _ (.rule hs')
    exact ⟨_, .fastTail_miss h hb ht hr' h1, h2⟩
  | fastTail_hit h hb ht hr h' ih =>
    intro _ hg
    cases hg with | rule hs => cases hs with | fastSelect hs =>
    obtain ⟨r', hr', hs'⟩ := hs.get _ _ hr
    obtain ⟨tr', h1, h2⟩ := ih _ (.rule hs')
    exact ⟨_, .fastTail_hit h hb ht hr' h1, h2⟩
  | fastTail_next h hb ht hr h' hl h'' ih ih' =>
    intro _ hg
    cases hg with | rule hs => cases hs with | fastSelect hs =>
    obtain ⟨r', hr', hs'⟩ := hs.get _ _ hr
    obtain ⟨l', hl', hs''⟩ := hs.last hl
    obtain ⟨tr', h1, h2⟩ := ih _ (.rule hs')
    obtain ⟨tr'', h3, h4⟩ := ih' _ (.rule hs'')
    exact ⟨_, .fastTail_next h hb ht hr' h1 hl' h3, sameReach_after_fail h2 h4⟩
  | sequence h ih =>
    intro _ hg
    cases hg with | rule hs => cases hs with | sequence hs =>
    obtain ⟨tr', h1, h2⟩ := ih _ (.seq hs)
    exact ⟨_, .sequence h1, h2⟩
  | seq_nil => intro _ hg; cases hg with | seq hs => cases hs; exact ⟨_, .seq_nil, sameReach_refl⟩
  | seq_fail h ih =>
    intro _ hg
    cases hg with | seq hs => cases hs with | cons hs hs' =>
    obtain ⟨tr', h1, h2⟩ := ih _ (.rule hs)
    exact ⟨_, .seq_fail h1, h2⟩
  | seq_cons h h' ih ih' =>
    intro _ hg
    cases hg with | seq hs => cases hs with | cons hs hs' =>
    obtain ⟨tr', h1, h2⟩ := ih _ (.rule hs)
    obtain ⟨tr'', h3, h4⟩ := ih' _ (.seq hs')
    exact ⟨_, .seq_cons h1 h3, sameReach_before h2 h4
      (by rintro rfl; exact fail_deep (E := EE) hL h' trivial)⟩
  | repeat_opt h ih =>
    intro _ hg
    cases hg with | rule hs => cases hs with | repeat_ hs =>
    obtain ⟨tr', h1, h2⟩ := ih _ (.rep hs)
    exact ⟨_, .repeat_opt h1, h2⟩
  | repeat_fail h ih =>
    intro _ hg
    cases hg with | rule hs => cases hs with | repeat_ hs =>
    obtain ⟨tr', h1, h2⟩ := ih _ (.rule hs)
    exact ⟨_, .repeat_fail h1, h2⟩
  | repeat_ok h h' ih ih' =>
    intro _ hg
    cases hg with | rule hs => cases hs with | repeat_ hs =>
    obtain ⟨tr', h1, h2⟩ := ih _ (.rule hs)
    obtain ⟨tr'', h3, h4⟩ := ih' _ (.rep hs)
    exact ⟨_, .repeat_ok h1 h3, sameReach_before h2 h4
      (by rintro rfl; exact fail_deep (E := EE) hL (Run.repeat_opt (id := 0) h') trivial)⟩
  | rep_stop h ih =>
    intro _ hg
    cases hg with | rep hs =>
    obtain ⟨tr', h1, h2⟩ := ih _ (.rule hs)
    exact ⟨_, .rep_stop h1, sameReach_zero h2⟩
  | rep_more h h' ih ih' =>
    intro _ hg
    cases hg with | rep hs =>
    obtain ⟨tr', h1, h2⟩ := ih _ (.rule hs)
    obtain ⟨tr'', h3, h4⟩ := ih' _ (.rep hs)
    exact ⟨_, .rep_more h1 h3, sameReach_before h2 h4
      (by rintro rfl; exact fail_deep (E := EE) hL (Run.repeat_opt (id := 0) h') trivial)⟩
  | sep_none h ih =>
    intro _ hg
    cases hg with | rule hs => cases hs with | separateBy hs hs' =>
    obtain ⟨tr', h1, h2⟩ := ih _ (.rule hs)
    exact ⟨_, .sep_none h1, sameReach_zero h2⟩
  | sep_fail h ih =>
    intro _ hg
    cases hg with | rule hs => cases hs with | separateBy hs hs' =>
    obtain ⟨tr', h1, h2⟩ := ih _ (.rule hs)
    exact ⟨_, .sep_fail h1, h2⟩
  | sep_first h h' ih ih' =>
    intro _ hg
    cases hg with | rule hs => cases hs with | separateBy hs hs' =>
    obtain ⟨tr', h1, h2⟩ := ih _ (.rule hs)
    obtain ⟨tr'', h3, h4⟩ := ih' _ (.sepTail hs hs')
    exact ⟨_, .sep_first h1 h3, sameReach_before h2 h4
      (by rintro rfl; exact fail_deep (E := EE) hL h' trivial)⟩
  | sep_stop h ih =>
    intro _ hg
    cases hg with | sepTail hs hs' =>
    obtain ⟨tr', h1, h2⟩ := ih _ (.rule hs')
    exact ⟨_, .sep_stop h1, sameReach_zero h2⟩
  | sep_trail h h' ih ih' =>
    intro _ hg
    cases hg with | sepTail hs hs' =>
    obtain ⟨tr', h1, h2⟩ := ih _ (.rule hs')
    obtain ⟨tr'', h3, h4⟩ := ih' _ (.rule hs)
    refine ⟨_, .sep_trail h1 h3, ?_⟩
    have := fail_deep (E := EE) hL h' trivial
    simp only [sameReach_some, sameReach_none, deepest_append, adv_off] at *
    omega
  | sep_noTrail h h' ih ih' =>
    intro _ hg
    cases hg with | sepTail hs hs' =>
    obtain ⟨tr', h1, h2⟩ := ih _ (.rule hs')
    obtain ⟨tr'', h3, h4⟩ := ih' _ (.rule hs)
    refine ⟨_, .sep_noTrail h1 h3, ?_⟩
    have := fail_deep (E := EE) hL h' trivial
    simp only [sameReach_some, sameReach_none, deepest_append, adv_off] at *
    omega
  | sep_more h h' h'' ih ih' ih'' =>
    intro _ hg
    cases hg with | sepTail hs hs' =>
    obtain ⟨tr1, h1, h2⟩ := ih _ (.rule hs')
    obtain ⟨tr2, h3, h4⟩ := ih' _ (.rule hs)
    obtain ⟨tr3, h5, h6⟩ := ih'' _ (.sepTail hs hs')
    refine ⟨_, .sep_more h1 h3 h5, ?_⟩
    have hb := sameReach_before (p := adv _ _) h4 (by rw [adv_adv]; exact h6)
      (by rintro rfl; rw [adv_adv]; exact fail_deep (E := EE) hL h'' trivial)
    have := sameReach_before h2 hb (by
      intro hn
      have hn := before_eq_none.1 hn
      subst hn
      have := fail_deep (E := EE) hL h'' trivial
      simp only [deepest_append, adv_off] at *
      omega)
    rwa [before_before] at this
  | lines h ih =>
    intro _ hg
    cases hg with | rule hs => cases hs with | lines hs =>
    obtain ⟨tr', h1, h2⟩ := ih _ (.lines hs)
    exact ⟨_, .lines h1, h2⟩
  | lines_done h => intro _ hg; cases hg; exact ⟨_, .lines_done h, sameReach_refl⟩
  | lines_fail h => intro _ hg; cases hg; exact ⟨_, .lines_fail h, sameReach_refl⟩
  | lines_stop h h' ih =>
    intro _ hg
    cases hg with | lines hs =>
    obtain ⟨tr', h1, h2⟩ := ih _ (.line hs)
    refine ⟨_, .lines_stop h h1, ?_⟩
    simp only [sameReach_some, sameReach_none] at *
    omega
  | lines_more h h' h'' ih ih' =>
    intro _ hg
    cases hg with | lines hs =>
    obtain ⟨tr', h1, h2⟩ := ih _ (.line hs)
    obtain ⟨tr'', h3, h4⟩ := ih' _ (.lines hs)
    refine ⟨_, .lines_more h h1 h3, sameReach_before ?_ h4
      (by rintro rfl; exact fail_deep (E := EE) hL h'' trivial)⟩
    simp only [sameReach_some, adv_off] at *
    omega
  | line_plain h ih =>
    intro _ hg
    cases hg with | line hs =>
    obtain ⟨tr', h1, h2⟩ := ih _ (.rule hs)
    exact ⟨_, .line_plain h1, h2⟩
  | line_shallow h => intro _ hg; cases hg; exact ⟨_, .line_shallow h, sameReach_refl⟩
  | line_deep ha h hd => intro _ hg; cases hg; exact ⟨_, .line_deep ha h hd, sameReach_refl⟩
  | line_body ha h hd hi h' ih =>
    intro _ hg
    cases hg with | line hs =>
    obtain ⟨tr', h1, h2⟩ := ih _ (.rule hs)
    exact ⟨_, .line_body ha h hd hi h1, sameReach_shift h2⟩
  | line_align ha h hm hi h' ih =>
    intro _ hg
    cases hg with | line hs =>
    obtain ⟨tr', h1, h2⟩ := ih _ (.rule hs)
    exact ⟨_, .line_align ha h hm hi h1, sameReach_shift h2⟩
  | node_unresolved => rintro _ ⟨⟨⟩⟩; exact ⟨_, .node_unresolved, sameReach_refl⟩
  | node_fail hr h ih =>
    rintro _ ⟨⟨⟩⟩
    obtain ⟨r', hr', hs⟩ := hrefs.get _ _ hr
    obtain ⟨tr', h1, h2⟩ := ih _ (.rule hs)
    exact ⟨_, .node_fail hr' h1, h2⟩
  | node_ok hr h ih =>
    rintro _ ⟨⟨⟩⟩
    obtain ⟨r', hr', hs⟩ := hrefs.get _ _ hr
    obtain ⟨tr', h1, h2⟩ := ih _ (.rule hs)
    exact ⟨_, .node_ok hr' h1, h2⟩
  | optional_none h ih =>
    intro _ hg
    cases hg with | rule hs => cases hs with | optional hs =>
    obtain ⟨tr', h1, h2⟩ := ih _ (.rule hs)
    exact ⟨_, .optional_none h1, sameReach_zero h2⟩
  | optional_some h ih =>
    intro _ hg
    cases hg with | rule hs => cases hs with | optional hs =>
    obtain ⟨tr', h1, h2⟩ := ih _ (.rule hs)
    exact ⟨_, .optional_some h1, h2⟩
  | not_ok h ih =>
    intro _ hg
    cases hg with | rule hs => cases hs with | not hs =>
    obtain ⟨tr', h1, h2⟩ := ih _ (.rule hs)
    exact ⟨_, .not_ok h1, sameReach_refl⟩
  | not_fail h ih =>
    intro _ hg
    cases hg with | rule hs => cases hs with | not hs =>
    obtain ⟨tr', h1, h2⟩ := ih _ (.rule hs)
    exact ⟨_, .not_fail h1, sameReach_refl⟩

/-- Whatever the optimized syntax does, the original does too. -/
theorem opt_run (hL : L.Lawful) {Q : Rule → Prop} (hQ : Q = EndRefused EE)
    (hrefs : SimL refs n Q refs refs') {g' p i o j tr'} (h : Run EO g' p i o j tr') :
    ∀ g, SimGoal refs n Q g g' → ∃ tr, Run EE g p i o j tr := by
  have hfit : ∀ {args t u}, uniqueTable refs n args = .ok (t, u) → TableFits EE t (args.take u) :=
    fun ht => tableFits_of_spec (E' := EE) hL (SimL.refl (n := n) (Q := Q) refs)
      (uniqueTable_spec ht).1 (SimL.refl _)
  induction h with
  | ws_ok h h0 => rintro _ ⟨⟨⟩⟩; exact ⟨_, .ws_ok h h0⟩
  | ws_fail h => rintro _ ⟨⟨⟩⟩; exact ⟨_, .ws_fail h⟩
  | tag_ok h => rintro _ ⟨⟨⟩⟩; exact ⟨_, .tag_ok h⟩
  | tag_fail h => rintro _ ⟨⟨⟩⟩; exact ⟨_, .tag_fail h⟩
  | notTag_ok h => rintro _ ⟨⟨⟩⟩; exact ⟨_, .notTag_ok h⟩
  | notTag_fail h => rintro _ ⟨⟨⟩⟩; exact ⟨_, .notTag_fail h⟩
  | until_ok h h0 => rintro _ ⟨⟨⟩⟩; exact ⟨_, .until_ok h h0⟩
  | until_fail h => rintro _ ⟨⟨⟩⟩; exact ⟨_, .until_fail h⟩
  | untilWs_ok h h0 => rintro _ ⟨⟨⟩⟩; exact ⟨_, .untilWs_ok h h0⟩
  | untilWs_fail h => rintro _ ⟨⟨⟩⟩; exact ⟨_, .untilWs_fail h⟩
  | text_ok h h2 ht => rintro _ ⟨⟨⟩⟩; exact ⟨_, .text_ok h h2 ht⟩
  | text_none h => rintro _ ⟨⟨⟩⟩; exact ⟨_, .text_none h⟩
  | text_empty h => rintro _ ⟨⟨⟩⟩; exact ⟨_, .text_empty h⟩
  | text_bad h h2 ht => rintro _ ⟨⟨⟩⟩; exact ⟨_, .text_bad h h2 ht⟩
  | num_ok h hv => rintro _ ⟨⟨⟩⟩; exact ⟨_, .num_ok h hv⟩
  | num_none h => rintro _ ⟨⟨⟩⟩; exact ⟨_, .num_none h⟩
  | num_bad h hv => rintro _ ⟨⟨⟩⟩; exact ⟨_, .num_bad h hv⟩
  | select_empty =>
    intro _ hg
    cases hg with | rule hs => cases hs with | select hs =>
    cases hs; exact ⟨_, .select_empty⟩
  | select h ih =>
    intro _ hg
    cases hg with | rule hs => cases hs with | select hs =>
    obtain ⟨tr, h1⟩ := ih _ (.sel hs)
    cases hs
    exact ⟨_, .select h1⟩
  | sel_nil => intro _ hg; cases hg with | sel hs => cases hs; exact ⟨_, .sel_nil⟩
  | sel_here h ih =>
    intro _ hg
    cases hg with | sel hs => cases hs with | cons hs _ =>
    obtain ⟨tr, h1⟩ := ih _ (.rule hs)
    exact ⟨_, .sel_here h1⟩
  | sel_next h h' ih ih' =>
    intro _ hg
    cases hg with | sel hs => cases hs with | cons hs hs' =>
    obtain ⟨tr, h1⟩ := ih _ (.rule hs)
    obtain ⟨tr, h2⟩ := ih' _ (.sel hs')
    exact ⟨_, .sel_next h1 h2⟩
  | @fast_end tb args tail id p i h =>
    intro _ hg
    cases hg with | rule hs =>
    cases hs with
    | fastSelect hs => exact ⟨_, .fast_end h⟩
    | @fast rs _ _ _ ht hne hs =>
      obtain ⟨tr, h1⟩ := sel_eof_none (align := align) (tab := tab) hL hQ ht (by simp) h i
      obtain ⟨r, rs', rfl⟩ := List.exists_cons_of_ne_nil hne
      exact ⟨_, .select h1⟩
    | @tail rs _ _ _ _ ht h0 hu hq hs =>
      obtain ⟨tr, h1⟩ := sel_eof_none (align := align) (tab := tab) hL hQ ht hq h i
      cases rs with
      | nil => simp at hu
      | cons r rs' => exact ⟨_, .select h1⟩
    | @guarded gs rs _ _ _ u hg ht h0 hu hs =>
      have hq : ∀ b ∈ gs.drop u, Q b := by
        rw [hg, guardFrom_drop (by omega), hQ]
        intro b hb
        obtain ⟨c, _, rfl⟩ := List.mem_map.1 hb
        exact guard_endRefused _ c
      obtain ⟨tr, h1⟩ := sel_eof_none (align := align) (tab := tab) hL hQ ht hq h i
      exact guarded_select hg hu h1
  | @fast_miss tb args id p i c cs b bs h hb ht' =>
    intro _ hg
    cases hg with | rule hs =>
    cases hs with
    | fastSelect hs => exact ⟨_, .fast_miss h hb ht'⟩
    | @fast rs _ _ _ ht hne hs =>
      have hf := hfit ht
      rw [List.take_length] at hf
      obtain ⟨tr, h1⟩ := sel_add (B := []) (fits_miss hf h (by rw [firstByte_eq hb]; exact ht'))
        (Run.sel_nil (E := EE) (i := i))
      rw [List.append_nil] at h1
      obtain ⟨r, rs', rfl⟩ := List.exists_cons_of_ne_nil hne
      exact ⟨_, .select h1⟩
  | @fast_hit tb args id p i c cs b bs r o j tr h hb ht' hr h' ih =>
    intro _ hg
    cases hg with | rule hs =>
    cases hs with
    | fastSelect hs =>
      obtain ⟨r', hr', hs'⟩ := hs.get' _ _ hr
      obtain ⟨tr, h1⟩ := ih _ (.rule hs')
      exact ⟨_, .fast_hit h hb ht' hr' h1⟩
    | @fast rs _ _ _ ht hne hs =>
      have hf := hfit ht
      rw [List.take_length] at hf
      obtain ⟨r', hr', hs'⟩ := hs.get' _ _ hr
      obtain ⟨tr, h1⟩ := ih _ (.rule hs')
      rw [← firstByte_eq hb] at hr'
      have hcase := sel_of_hit (B := []) hf h hr' h1
      rw [List.append_nil] at hcase
      obtain ⟨r0, rs', rfl⟩ := List.exists_cons_of_ne_nil hne
      cases o with
      | some x =>
        obtain ⟨tr, h2⟩ := hcase.1 x rfl
        exact ⟨_, .select h2⟩
      | none =>
        obtain ⟨tr, h2⟩ := hcase.2 rfl .sel_nil
        exact ⟨_, .select h2⟩
  | @fastTail_miss tb args id p i c cs b bs r o j tr h hb ht' hr h' ih =>
    intro _ hg
    cases hg with | rule hs =>
    cases hs with
    | fastSelect hs =>
      obtain ⟨r', hr', hs'⟩ := hs.last' hr
      obtain ⟨tr, h1⟩ := ih _ (.rule hs')
      exact ⟨_, .fastTail_miss h hb ht' hr' h1⟩
    | @tail rs rs' _ _ u ht h0 hu hq hs =>
      rw [getLast?_append_one] at hr
      cases hr
      obtain ⟨tr, h1⟩ := ih _ (.rule (.select (id := id) (hs.drop u)))
      have hB : Run EE (.sel (rs.drop u)) p i o j tr := by
        generalize hd : rs.drop u = B at h1
        cases h1 with
        | select_empty =>
          have := congrArg List.length hd
          simp at this
          omega
        | select h1 => exact h1
      obtain ⟨tr, h2⟩ := sel_add (fits_miss (hfit ht) h (by rw [firstByte_eq hb]; exact ht')) hB
      rw [List.take_append_drop] at h2
      cases rs with
      | nil => simp at hu
      | cons r rs' => exact ⟨_, .select h2⟩
    | @guarded gs rs rs' _ _ u hg ht h0 hu hs =>
      rw [getLast?_append_one] at hr
      cases hr
      obtain ⟨tr, h1⟩ := ih _ (.rule (.select (id := id) (hs.drop u)))
      have hB : Run EE (.sel (rs.drop u)) p i o j tr := by
        generalize hd : rs.drop u = B at h1
        cases h1 with
        | select_empty =>
          have := congrArg List.length hd
          simp at this
          omega
        | select h1 => exact h1
      have hf := hfit ht
      rw [hg, guardFrom_take (by omega)] at hf
      obtain ⟨tr, h2⟩ := sel_add (fits_miss hf h (by rw [firstByte_eq hb]; exact ht'))
        ((sel_guard_iff (by rw [h]; simp)).2 hB)
      exact guarded_select hg hu (by rw [hg]; exact h2)
  | @fastTail_hit tb args id p i c cs b bs r x j tr h hb ht' hr h' ih =>
    intro _ hg
    cases hg with | rule hs =>
    cases hs with
    | fastSelect hs =>
      obtain ⟨r', hr', hs'⟩ := hs.get' _ _ hr
      obtain ⟨tr, h1⟩ := ih _ (.rule hs')
      exact ⟨_, .fastTail_hit h hb ht' hr' h1⟩
    | @tail rs rs' _ _ u ht h0 hu hq hs =>
      have hlt := ((uniqueTable_spec ht).1.only _ ht').1
      have hlen := hs.length
      rw [List.getElem?_append_left (by rw [List.length_take]; omega)] at hr
      obtain ⟨r', hr', hs'⟩ := (hs.take u).get' _ _ hr
      obtain ⟨tr, h1⟩ := ih _ (.rule hs')
      rw [← firstByte_eq hb] at hr'
      obtain ⟨tr, h2⟩ := (sel_of_hit (B := rs.drop u) (hfit ht) h hr' h1).1 x rfl
      rw [List.take_append_drop] at h2
      cases rs with
      | nil => simp at hu
      | cons r rs' => exact ⟨_, .select h2⟩
    | @guarded gs rs rs' _ _ u hg ht h0 hu hs =>
      have hlt := ((uniqueTable_spec ht).1.only _ ht').1
      have hlen := hs.length
      rw [List.getElem?_append_left (by rw [List.length_take]; omega)] at hr
      obtain ⟨r', hr', hs'⟩ := (hs.take u).get' _ _ hr
      obtain ⟨tr, h1⟩ := ih _ (.rule hs')
      rw [← firstByte_eq hb] at hr'
      have hf := hfit ht
      rw [hg, guardFrom_take (by omega)] at hf
      obtain ⟨tr, h2⟩ := (sel_of_hit (B := (rs.drop u).map notAtEnd) hf h hr' h1).1 x rfl
      exact guarded_select hg hu (by rw [hg]; exact h2)
  | @fastTail_next tb args id p i c cs b bs r rl j tr o k tr' h hb ht' hr h' hl h'' ih ih' =>
    intro _ hg
    cases hg with | rule hs =>
    cases hs with
    | fastSelect hs =>
      obtain ⟨r', hr', hs'⟩ := hs.get' _ _ hr
      obtain ⟨l', hl', hs''⟩ := hs.last' hl
      obtain ⟨tr, h1⟩ := ih _ (.rule hs')
      obtain ⟨tr, h2⟩ := ih' _ (.rule hs'')
      exact ⟨_, .fastTail_next h hb ht' hr' h1 hl' h2⟩
    | @tail rs rs' _ _ u ht h0 hu hq hs =>
      have hlt := ((uniqueTable_spec ht).1.only _ ht').1
      have hlen := hs.length
      rw [List.getElem?_append_left (by rw [List.length_take]; omega)] at hr
      rw [getLast?_append_one] at hl
      cases hl
      obtain ⟨r', hr', hs'⟩ := (hs.take u).get' _ _ hr
      obtain ⟨tr, h1⟩ := ih _ (.rule hs')
      rw [← firstByte_eq hb] at hr'
      obtain ⟨tr2, h2⟩ := ih' _ (.rule (.select (id := id) (hs.drop u)))
      have hB : Run EE (.sel (rs.drop u)) p j o k tr2 := by
        generalize hd : rs.drop u = B at h2
        cases h2 with
        | select_empty =>
          have := congrArg List.length hd
          simp at this
          omega
        | select h2 => exact h2
      obtain ⟨tr, h2⟩ := (sel_of_hit (B := rs.drop u) (hfit ht) h hr' h1).2 rfl hB
      rw [List.take_append_drop] at h2
      cases rs with
      | nil => simp at hu
      | cons r rs' => exact ⟨_, .select h2⟩
    | @guarded gs rs rs' _ _ u hg ht h0 hu hs =>
      have hlt := ((uniqueTable_spec ht).1.only _ ht').1
      have hlen := hs.length
      rw [List.getElem?_append_left (by rw [List.length_take]; omega)] at hr
      rw [getLast?_append_one] at hl
      cases hl
      obtain ⟨r', hr', hs'⟩ := (hs.take u).get' _ _ hr
      obtain ⟨tr, h1⟩ := ih _ (.rule hs')
      rw [← firstByte_eq hb] at hr'
      obtain ⟨tr2, h2⟩ := ih' _ (.rule (.select (id := id) (hs.drop u)))
      have hB : Run EE (.sel (rs.drop u)) p j o k tr2 := by
        generalize hd : rs.drop u = B at h2
        cases h2 with
        | select_empty =>
          have := congrArg List.length hd
          simp at this
          omega
        | select h2 => exact h2
      have hf := hfit ht
      rw [hg, guardFrom_take (by omega)] at hf
      obtain ⟨tr, h2⟩ := (sel_of_hit (B := (rs.drop u).map notAtEnd) hf h hr' h1).2 rfl
        ((sel_guard_iff (by rw [h]; simp)).2 hB)
      exact guarded_select hg hu (by rw [hg]; exact h2)
  | sequence h ih =>
    intro _ hg
    cases hg with | rule hs => cases hs with | sequence hs =>
    obtain ⟨tr, h1⟩ := ih _ (.seq hs)
    exact ⟨_, .sequence h1⟩
  | seq_nil => intro _ hg; cases hg with | seq hs => cases hs; exact ⟨_, .seq_nil⟩
  | seq_fail h ih =>
    intro _ hg
    cases hg with | seq hs => cases hs with | cons hs hs' =>
    obtain ⟨tr, h1⟩ := ih _ (.rule hs)
    exact ⟨_, .seq_fail h1⟩
  | seq_cons h h' ih ih' =>
    intro _ hg
    cases hg with | seq hs => cases hs with | cons hs hs' =>
    obtain ⟨tr, h1⟩ := ih _ (.rule hs)
    obtain ⟨tr, h2⟩ := ih' _ (.seq hs')
    exact ⟨_, .seq_cons h1 h2⟩
  | repeat_opt h ih =>
    intro _ hg
    cases hg with | rule hs => cases hs with | repeat_ hs =>
    obtain ⟨tr, h1⟩ := ih _ (.rep hs)
    exact ⟨_, .repeat_opt h1⟩
  | repeat_fail h ih =>
    intro _ hg
    cases hg with | rule hs => cases hs with | repeat_ hs =>
    obtain ⟨tr, h1⟩ := ih _ (.rule hs)
    exact ⟨_, .repeat_fail h1⟩
  | repeat_ok h h' ih ih' =>
    intro _ hg
    cases hg with | rule hs => cases hs with | repeat_ hs =>
    obtain ⟨tr, h1⟩ := ih _ (.rule hs)
    obtain ⟨tr, h2⟩ := ih' _ (.rep hs)
    exact ⟨_, .repeat_ok h1 h2⟩
  | rep_stop h ih =>
    intro _ hg
    cases hg with | rep hs =>
    obtain ⟨tr, h1⟩ := ih _ (.rule hs)
    exact ⟨_, .rep_stop h1⟩
  | rep_more h h' ih ih' =>
    intro _ hg
    cases hg with | rep hs =>
    obtain ⟨tr, h1⟩ := ih _ (.rule hs)
    obtain ⟨tr, h2⟩ := ih' _ (.rep hs)
    exact ⟨_, .rep_more h1 h2⟩
  | sep_none h ih =>
    intro _ hg
    cases hg with | rule hs => cases hs with | separateBy hs hs' =>
    obtain ⟨tr, h1⟩ := ih _ (.rule hs)
    exact ⟨_, .sep_none h1⟩
  | sep_fail h ih =>
    intro _ hg
    cases hg with | rule hs => cases hs with | separateBy hs hs' =>
    obtain ⟨tr, h1⟩ := ih _ (.rule hs)
    exact ⟨_, .sep_fail h1⟩
  | sep_first h h' ih ih' =>
    intro _ hg
    cases hg with | rule hs => cases hs with | separateBy hs hs' =>
    obtain ⟨tr, h1⟩ := ih _ (.rule hs)
    obtain ⟨tr, h2⟩ := ih' _ (.sepTail hs hs')
    exact ⟨_, .sep_first h1 h2⟩
  | sep_stop h ih =>
    intro _ hg
    cases hg with | sepTail hs hs' =>
    obtain ⟨tr, h1⟩ := ih _ (.rule hs')
    exact ⟨_, .sep_stop h1⟩
  | sep_trail h h' ih ih' =>
    intro _ hg
    cases hg with | sepTail hs hs' =>
    obtain ⟨tr, h1⟩ := ih _ (.rule hs')
    obtain ⟨tr, h2⟩ := ih' _ (.rule hs)
    exact ⟨_, .sep_trail h1 h2⟩
  | sep_noTrail h h' ih ih' =>
    intro _ hg
    cases hg with | sepTail hs hs' =>
    obtain ⟨tr, h1⟩ := ih _ (.rule hs')
    obtain ⟨tr, h2⟩ := ih' _ (.rule hs)
    exact ⟨_, .sep_noTrail h1 h2⟩
  | sep_more h h' h'' ih ih' ih'' =>
    intro _ hg
    cases hg with | sepTail hs hs' =>
    obtain ⟨tr, h1⟩ := ih _ (.rule hs')
    obtain ⟨tr, h2⟩ := ih' _ (.rule hs)
    obtain ⟨tr, h3⟩ := ih'' _ (.sepTail hs hs')
    exact ⟨_, .sep_more h1 h2 h3⟩
  | lines h ih =>
    intro _ hg
    cases hg with | rule hs => cases hs with | lines hs =>
    obtain ⟨tr, h1⟩ := ih _ (.lines hs)
    exact ⟨_, .lines h1⟩
  | lines_done h => intro _ hg; cases hg; exact ⟨_, .lines_done h⟩
  | lines_fail h => intro _ hg; cases hg; exact ⟨_, .lines_fail h⟩
  | lines_stop h h' ih =>
    intro _ hg
    cases hg with | lines hs =>
    obtain ⟨tr, h1⟩ := ih _ (.line hs)
    exact ⟨_, .lines_stop h h1⟩
  | lines_more h h' h'' ih ih' =>
    intro _ hg
    cases hg with | lines hs =>
    obtain ⟨tr, h1⟩ := ih _ (.line hs)
    obtain ⟨tr, h2⟩ := ih' _ (.lines hs)
    exact ⟨_, .lines_more h h1 h2⟩
  | line_plain h ih =>
    intro _ hg
    cases hg with | line hs =>
    obtain ⟨tr, h1⟩ := ih _ (.rule hs)
    exact ⟨_, .line_plain h1⟩
  | line_shallow h => intro _ hg; cases hg; exact ⟨_, .line_shallow h⟩
  | line_deep ha h hd => intro _ hg; cases hg; exact ⟨_, .line_deep ha h hd⟩
  | line_body ha h hd hi h' ih =>
    intro _ hg
    cases hg with | line hs =>
    obtain ⟨tr, h1⟩ := ih _ (.rule hs)
    exact ⟨_, .line_body ha h hd hi h1⟩
  | line_align ha h hm hi h' ih =>
    intro _ hg
    cases hg with | line hs =>
    obtain ⟨tr, h1⟩ := ih _ (.rule hs)
    exact ⟨_, .line_align ha h hm hi h1⟩
  | node_unresolved => rintro _ ⟨⟨⟩⟩; exact ⟨_, .node_unresolved⟩
  | node_fail hr h ih =>
    rintro _ ⟨⟨⟩⟩
    obtain ⟨r', hr', hs⟩ := hrefs.get' _ _ hr
    obtain ⟨tr, h1⟩ := ih _ (.rule hs)
    exact ⟨_, .node_fail hr' h1⟩
  | node_ok hr h ih =>
    rintro _ ⟨⟨⟩⟩
    obtain ⟨r', hr', hs⟩ := hrefs.get' _ _ hr
    obtain ⟨tr, h1⟩ := ih _ (.rule hs)
    exact ⟨_, .node_ok hr' h1⟩
  | optional_none h ih =>
    intro _ hg
    cases hg with | rule hs => cases hs with | optional hs =>
    obtain ⟨tr, h1⟩ := ih _ (.rule hs)
    exact ⟨_, .optional_none h1⟩
  | optional_some h ih =>
    intro _ hg
    cases hg with | rule hs => cases hs with | optional hs =>
    obtain ⟨tr, h1⟩ := ih _ (.rule hs)
    exact ⟨_, .optional_some h1⟩
  | not_ok h ih =>
    intro _ hg
    cases hg with | rule hs => cases hs with | not hs =>
    obtain ⟨tr, h1⟩ := ih _ (.rule hs)
    exact ⟨_, .not_ok h1⟩
  | not_fail h ih =>
    intro _ hg
    cases hg with | rule hs => cases hs with | not hs =>
    obtain ⟨tr, h1⟩ := ih _ (.rule hs)
    exact ⟨_, .not_fail h1⟩

end
end Verif
