import Verif.Spec.Generates
import Verif.Props.Predictive
import Verif.Proofs.Flat
/-
What is generated is what is accepted, if the next character decides.
-/
namespace Verif
open Spec Props

section
variable {E : Env} {M : Nat → Mark} {N : Nat → Char → Prop} {I : Nat}

theorem run_first (hL : E.L.Lawful) (hP : Predictive E.L M E.refs) (hI : ∀ i, (M i).idle ≤ I) {r p i n ts j tr}
    (hr : Part E.refs r) (h : Run E (.rule r) p i (some (n, ts)) j tr) :
    (0 < n → Heads p.src (markOf E.L M r).first) ∧ (n = 0 → (markOf E.L M r).empty = true) := by
  obtain ⟨K, s', toks', -, -, h1⟩ := run_some_eval h [] 0 (Nat.le_refl _)
  have h1 := h1 K (Nat.le_refl _)
  obtain ⟨k, e, h2⟩ := below_predictive hL hP (pays (part_idle hI) part_narrow) (K + 1) r hr K (by omega) _ _ _ _ _ h1
  obtain ⟨h3, h4⟩ := h2.ok n rfl
  exact ⟨fun h => h2.head (by omega), fun h => h4 (by omega)⟩

theorem run_total (hL : E.L.Lawful) (hP : Predictive E.L M E.refs) (hI : ∀ i, (M i).idle ≤ I)
    (hix : ∀ q ∈ E.refs, RuleOk E.refs q) {r} (hr : Part E.refs r) (p : Pos) (i : Nat) :
    ∃ o tr, Run E (.rule r) p i o i tr := by
  have hw : WellFormed E := C110_wellFormed hL hP hI ⟨0, E.align, E.tab⟩
  obtain ⟨o, j, tr, h⟩ := wellFormed_has hL hw hix hr p (.inr (predictive_noIndent hP)) i
  obtain ⟨q, hq, ho⟩ := hr
  have : j = i := run_flat (predictive_noIndent hP) (fun x id hx => predictive_noIndent hP q hq x id (Occurs.trans hx ho)) h
  exact ⟨o, tr, this ▸ h⟩

/-- Where it does not begin, it fails. -/
theorem run_not_first (hL : E.L.Lawful) (hP : Predictive E.L M E.refs) (hI : ∀ i, (M i).idle ≤ I)
    (hix : ∀ q ∈ E.refs, RuleOk E.refs q) {r} (hr : Part E.refs r) {p : Pos} (he : (markOf E.L M r).empty = false)
    (h : ¬ Heads p.src (markOf E.L M r).first) (i : Nat) : ∃ tr, Run E (.rule r) p i none i tr := by
  obtain ⟨o, tr, h1⟩ := run_total hL hP hI hix hr p i
  match o, h1 with
  | none, h1 => exact ⟨tr, h1⟩
  | some (n, ts), h1 =>
    have h2 := run_first hL hP hI hr h1
    by_cases hn : n = 0
    · rw [h2.2 hn] at he
      cases he
    · exact absurd (h2.1 (by omega)) h

variable (E M N) in
/-- The conditions on what is generated. -/
def GoalOk : Goal → Prop
  | .rule r => Part E.refs r
  | .seq rs => (∀ r ∈ rs, Part E.refs r) ∧ OneWaySequence E.L M N rs
  | .rep r => Part E.refs r ∧ (markOf E.L M r).empty = false ∧ NoShared (moreOf E.L M N r) (markOf E.L M r).first
  | .sepTail r b _ => (Part E.refs r ∧ Part E.refs b) ∧ (markOf E.L M r).empty = false ∧ (markOf E.L M b).empty = false ∧
      NoShared (moreOf E.L M N r) (markOf E.L M b).first ∧ NoShared (moreOf E.L M N b) (markOf E.L M r).first
  | _ => False

variable (E M) in
def goalFirst : Goal → Char → Prop
  | .rule r => (markOf E.L M r).first
  | .seq rs => (markSequence E.L M rs).first
  | .rep r => (markOf E.L M r).first
  | .sepTail _ b _ => (markOf E.L M b).first
  | _ => fun _ => True

variable (E M) in
def goalEmpty : Goal → Bool
  | .rule r => (markOf E.L M r).empty
  | .seq rs => (markSequence E.L M rs).empty
  | _ => true

variable (E M N) in
def goalMore : Goal → Char → Prop
  | .rule r => moreOf E.L M N r
  | .seq rs => moreSequence E.L M N rs
  | .rep r => fun c => moreOf E.L M N r c ∨ (markOf E.L M r).first c
  | .sepTail r b trail => fun c => moreOf E.L M N r c ∨ (markOf E.L M b).first c ∨
      (trail ∧ (moreOf E.L M N b c ∨ (markOf E.L M r).first c))
  | _ => fun _ => True

theorem ok_sequence (hU : LL1 E.L M N E.refs) {rs id} (h : GoalOk E M N (.rule (.sequence rs id))) : GoalOk E M N (.seq rs) :=
  ⟨fun _ hr => decided_part h (.sequence hr), hU.oneWay _ h⟩

theorem ok_cons {r rs} (h : GoalOk E M N (.seq (r :: rs))) :
    GoalOk E M N (.rule r) ∧ GoalOk E M N (.seq rs) ∧ NoShared (moreOf E.L M N r) (markSequence E.L M rs).first :=
  ⟨h.1 r (by simp), ⟨fun q hq => h.1 q (by simp [hq]), h.2.2⟩, h.2.1⟩

theorem ok_repeat (hU : LL1 E.L M N E.refs) {r opt id} (h : GoalOk E M N (.rule (.repeat_ r opt id))) : GoalOk E M N (.rep r) :=
  ⟨decided_part h .repeat_, (hU.decided _ h).1, hU.oneWay _ h⟩

theorem ok_sep (hU : LL1 E.L M N E.refs) {r b opt trail id} (h : GoalOk E M N (.rule (.separateBy r b opt trail id))) :
    GoalOk E M N (.sepTail r b trail) :=
  ⟨⟨decided_part h .item, decided_part h .sep⟩, hU.oneWay _ h⟩

theorem markSelect_mem {L : Lexer} {r : Rule} : ∀ {rs : List Rule}, r ∈ rs →
    (∀ c, (markOf L M r).first c → (markSelect L M rs).first c) ∧ ((markOf L M r).empty = true → (markSelect L M rs).empty = true)
  | q :: rs, h => by
    simp only [markSelect, Mark.else_]
    rcases List.mem_cons.1 h with rfl | h
    · exact ⟨fun c h => .inl h, fun h => by simp [h]⟩
    · have := markSelect_mem (L := L) h
      exact ⟨fun c h => .inr (this.1 c h), fun h => by simp [this.2 h]⟩

theorem adv_zero_src (p : Pos) : (adv p 0).src = p.src := by simp [adv]

/-- What is generated begins as marked. -/
theorem generates_first (hL : E.L.Lawful) (hU : LL1 E.L M N E.refs) (hI : ∀ i, (M i).idle ≤ I) {g p n ts}
    (h : Generates E g p n ts) : GoalOk E M N g →
    (0 < n → Heads p.src (goalFirst E M g)) ∧ (n = 0 → goalEmpty E M g = true) := by
  induction h with
  | token hr h => exact fun hg => run_first hL hU.toPredictive hI hg h
  | absent hr h => exact fun _ => ⟨by omega, fun _ => rfl⟩
  | select hr h ih =>
    intro hg
    have h1 := ih (decided_part hg (.select hr))
    have h2 := markSelect_mem (L := E.L) (M := M) hr
    exact ⟨fun hn => (h1.1 hn).mono h2.1, fun hn => h2.2 (h1.2 hn)⟩
  | sequence h ih => exact fun hg => ih (ok_sequence hU hg)
  | seq_nil => exact fun _ => ⟨by omega, fun _ => rfl⟩
  | @seq_cons r rs p n ts m us h h' ih ih' =>
    intro hg
    obtain ⟨hg, hg', -⟩ := ok_cons hg
    have h1 := ih hg
    have h2 := ih' hg'
    simp only [goalFirst, goalEmpty, markSequence, Mark.then_] at *
    constructor
    · intro hn
      by_cases h0 : n = 0
      · subst h0
        rw [adv_zero_src] at h2
        exact (h2.1 (by omega)).mono fun c hc => .inr ⟨h1.2 rfl, hc⟩
      · exact (h1.1 (by omega)).mono fun c hc => .inl hc
    · intro hn
      rw [h1.2 (by omega), h2.2 (by omega)]
      rfl
  | repeat_any h ih =>
    intro hg
    have h1 := ih (ok_repeat hU hg)
    exact ⟨h1.1, fun _ => rfl⟩
  | repeat_some h h' ih ih' =>
    intro hg
    have hk := ok_repeat hU hg
    have h1 := ih hk.1
    simp only [goalFirst, goalEmpty, markOf, Mark.called, Mark.loop] at *
    rw [hk.2.1] at h1
    exact ⟨fun hn => h1.1 (by rcases Nat.eq_zero_or_pos _ with h0 | h0; (exact absurd (h1.2 h0) (by simp)); exact h0),
      fun hn => absurd (h1.2 (by omega)) (by simp)⟩
  | rep_nil => exact fun _ => ⟨by omega, fun _ => rfl⟩
  | rep_cons h h' ih ih' =>
    intro hk
    have h1 := ih hk.1
    simp only [goalFirst, goalEmpty] at *
    rw [hk.2.1] at h1
    exact ⟨fun hn => h1.1 (by rcases Nat.eq_zero_or_pos _ with h0 | h0; (exact absurd (h1.2 h0) (by simp)); exact h0), fun _ => trivial⟩
  | sep_none => exact fun _ => ⟨by omega, fun _ => rfl⟩
  | sep_some h h' ih ih' =>
    intro hg
    have hk := ok_sep hU hg
    have h1 := ih hk.1.1
    simp only [goalFirst, goalEmpty, markOf, Mark.called, Mark.turns] at *
    rw [hk.2.1] at h1
    exact ⟨fun hn => (h1.1 (by rcases Nat.eq_zero_or_pos _ with h0 | h0; (exact absurd (h1.2 h0) (by simp)); exact h0)).mono
      fun c hc => .inl hc, fun hn => absurd (h1.2 (by omega)) (by simp)⟩
  | tail_nil => exact fun _ => ⟨by omega, fun _ => rfl⟩
  | tail_trail h ih => exact fun hk => ⟨(ih hk.1.2).1, fun _ => rfl⟩
  | tail_cons h h' h'' ih ih' ih'' =>
    intro hk
    have h1 := ih hk.1.2
    simp only [goalFirst, goalEmpty] at *
    rw [hk.2.2.1] at h1
    exact ⟨fun hn => h1.1 (by rcases Nat.eq_zero_or_pos _ with h0 | h0; (exact absurd (h1.2 h0) (by simp)); exact h0), fun _ => trivial⟩
  | node hr h ih =>
    intro hg
    have h1 := ih ⟨_, List.mem_of_getElem? hr, .refl⟩
    have hc := hU.covers _ _ hr
    exact ⟨fun hn => (h1.1 hn).mono hc.first, fun hn => hc.empty (h1.2 hn)⟩
  | optional_none => exact fun _ => ⟨by omega, fun _ => by simp [goalEmpty, markOf, Mark.called, Mark.else_, Mark.nothing]⟩
  | optional_some h ih =>
    intro hg
    have h1 := ih (decided_part hg .optional)
    exact ⟨fun hn => (h1.1 hn).mono fun c hc => .inl hc,
      fun _ => by simp [goalEmpty, markOf, Mark.called, Mark.else_, Mark.nothing]⟩

/-- One alternative is generated, so that the others fail. -/
theorem select_runs (hL : E.L.Lawful) (hU : LL1 E.L M N E.refs) (hI : ∀ i, (M i).idle ≤ I)
    (hix : ∀ q ∈ E.refs, RuleOk E.refs q) {r p n ts} (hf : (0 < n → Heads p.src (markOf E.L M r).first) ∧ (n = 0 → (markOf E.L M r).empty = true))
    (ih : ¬ Heads (p.src.drop n) (moreOf E.L M N r) → ∀ i, ∃ tr, Run E (.rule r) p i (some (n, ts)) i tr) :
    ∀ {rs : List Rule}, r ∈ rs → (∀ q ∈ rs, Part E.refs q) → DecidedSelect E.L M rs → OneWaySelect E.L M rs →
      ¬ Heads (p.src.drop n) (moreSelect E.L M N rs) → ∀ i, ∃ tr, Run E (.sel rs) p i (some (n, ts)) i tr
  | q :: rs, hr, hp, hd, ho, hm, i => by
    by_cases hrq : r = q
    · subst hrq
      obtain ⟨tr, h⟩ := ih (fun h => hm (h.mono fun c hc => .inl hc)) i
      exact ⟨tr, .sel_here h⟩
    have hr : r ∈ rs := (List.mem_cons.1 hr).resolve_left hrq
    have hs := markSelect_mem (L := E.L) (M := M) hr
    obtain ⟨tr', h'⟩ := select_runs hL hU hI hix hf ih hr (fun q hq => hp q (by simp [hq])) hd.2 ho.2
      (fun h => hm (h.mono fun c hc => .inr (.inl hc))) i
    have : ¬ Heads p.src (markOf E.L M q).first := by
      intro hq
      by_cases hn : n = 0
      · subst hn
        exact hm (hq.mono fun c hc => .inr (.inr ⟨hs.2 (hf.2 rfl), hc⟩))
      · exact hq.apart ((hf.1 (by omega)).mono hs.1) hd.1
    obtain ⟨tr, h⟩ := run_not_first hL hU.toPredictive hI hix (hp q (by simp)) (ho.1 (List.ne_nil_of_mem hr)) this i
    exact ⟨_, .sel_next h h'⟩

theorem run_sel_select {r : Rule} {rs : List Rule} {id p i o j tr} (hr : r ∈ rs) (h : Run E (.sel rs) p i o j tr) :
    Run E (.rule (.select rs id)) p i o j tr := by
  cases rs with
  | nil => cases hr
  | cons => exact .select h

theorem pos_of {n : Nat} {b : Bool} (h : n = 0 → b = true) (hb : b = false) : 0 < n := by
  rcases Nat.eq_zero_or_pos n with h0 | h0
  · rw [h h0] at hb
    cases hb
  · exact h0

/-- Rules that call no others do not look at the indentation. -/
theorem leaf_any {r p i o j tr} (hr : CallsNone r) (h : Run E (.rule r) p i o j tr) (i' : Nat) : Run E (.rule r) p i' o i' tr := by
  cases h with
  | ws_ok h h0 => exact .ws_ok h h0
  | ws_fail h => exact .ws_fail h
  | tag_ok h => exact .tag_ok h
  | tag_fail h => exact .tag_fail h
  | notTag_ok h => exact .notTag_ok h
  | notTag_fail h => exact .notTag_fail h
  | until_ok h h0 => exact .until_ok h h0
  | until_fail h => exact .until_fail h
  | untilWs_ok h h0 => exact .untilWs_ok h h0
  | untilWs_fail h => exact .untilWs_fail h
  | text_ok h h2 ht => exact .text_ok h h2 ht
  | text_none h => exact .text_none h
  | text_empty h => exact .text_empty h
  | text_bad h h2 ht => exact .text_bad h h2 ht
  | num_ok h hv => exact .num_ok h hv
  | num_none h => exact .num_none h
  | num_bad h hv => exact .num_bad h hv
  | _ => exact hr.elim

/-- What is generated is what is read, if it could not have read more. -/
theorem generates_runs (hL : E.L.Lawful) (hU : LL1 E.L M N E.refs) (hI : ∀ i, (M i).idle ≤ I)
    (hix : ∀ q ∈ E.refs, RuleOk E.refs q) {g p n ts}
    (h : Generates E g p n ts) : GoalOk E M N g → ¬ Heads (p.src.drop n) (goalMore E M N g) →
    ∀ i, ∃ tr, Run E g p i (some (n, ts)) i tr := by
  have hfail : ∀ {r p}, Part E.refs r → (markOf E.L M r).empty = false → ¬ Heads p.src (markOf E.L M r).first →
      ∀ i, ∃ tr, Run E (.rule r) p i none i tr := fun hr he h i => run_not_first hL hU.toPredictive hI hix hr he h i
  induction h with
  | @token r p i₀ n ts j₀ tr₀ hr h =>
    intro hg _ i
    exact ⟨tr₀, leaf_any hr h i⟩
  | @absent r id p i₀ j₀ tr₀ hr h =>
    intro hg _ i
    exact ⟨[], .not_ok (leaf_any hr h i)⟩
  | @select r rs id p n ts hr h ih =>
    intro hg hm i
    have hp : ∀ q ∈ rs, Part E.refs q := fun q hq => decided_part hg (.select hq)
    obtain ⟨tr, h1⟩ := select_runs hL hU hI hix (generates_first hL hU hI h (hp r hr)) (ih (hp r hr)) hr hp (hU.decided _ hg)
      (hU.oneWay _ hg) hm i
    exact ⟨tr, run_sel_select hr h1⟩
  | sequence h ih =>
    intro hg hm i
    obtain ⟨tr, h1⟩ := ih (ok_sequence hU hg) hm i
    exact ⟨tr, .sequence h1⟩
  | seq_nil => exact fun _ _ i => ⟨_, .seq_nil⟩
  | @seq_cons r rs p n ts m us h h' ih ih' =>
    intro hg hm i
    obtain ⟨hg, hg', ha⟩ := ok_cons hg
    have h2 := generates_first hL hU hI h' hg'
    obtain ⟨tr, h3⟩ := ih hg (by
      intro hh
      by_cases h0 : m = 0
      · subst h0
        exact hm (hh.mono fun c hc => .inr ⟨h2.2 rfl, hc⟩)
      · exact hh.apart (h2.1 (by omega)) ha) i
    obtain ⟨tr', h4⟩ := ih' hg' (by
      intro hh
      simp only [adv, List.drop_drop] at hh
      exact hm (hh.mono fun c hc => .inl hc)) i
    exact ⟨_, .seq_cons h3 h4⟩
  | repeat_any h ih =>
    intro hg hm i
    obtain ⟨tr, h1⟩ := ih (ok_repeat hU hg) hm i
    exact ⟨tr, .repeat_opt h1⟩
  | @repeat_some r id p n ts m us h h' ih ih' =>
    intro hg hm i
    have hk := ok_repeat hU hg
    have h2 := generates_first hL hU hI h' hk
    obtain ⟨tr, h3⟩ := ih hk.1 (by
      intro hh
      by_cases h0 : m = 0
      · subst h0
        exact hm (hh.mono fun c hc => .inl hc)
      · exact hh.apart (h2.1 (by omega)) hk.2.2) i
    obtain ⟨tr', h4⟩ := ih' hk (by
      intro hh
      simp only [adv, List.drop_drop] at hh
      exact hm hh) i
    exact ⟨_, .repeat_ok h3 h4⟩
  | rep_nil =>
    intro hk hm i
    obtain ⟨tr, h1⟩ := hfail hk.1 hk.2.1 (fun hh => hm (hh.mono fun c hc => .inr hc)) i
    exact ⟨tr, .rep_stop h1⟩
  | @rep_cons r p n ts m us h h' ih ih' =>
    intro hk hm i
    have h2 := generates_first hL hU hI h' hk
    obtain ⟨tr, h3⟩ := ih hk.1 (by
      intro hh
      by_cases h0 : m = 0
      · subst h0
        exact hm (hh.mono fun c hc => .inl hc)
      · exact hh.apart (h2.1 (by omega)) hk.2.2) i
    obtain ⟨tr', h4⟩ := ih' hk (by
      intro hh
      simp only [adv, List.drop_drop] at hh
      exact hm hh) i
    exact ⟨_, .rep_more h3 h4⟩
  | sep_none =>
    intro hg hm i
    have hk := ok_sep hU hg
    obtain ⟨tr, h1⟩ := hfail hk.1.1 hk.2.1 (fun hh => hm (hh.mono fun c hc => .inr (.inr (.inr ⟨.inl rfl, hc⟩)))) i
    exact ⟨tr, .sep_none h1⟩
  | @sep_some r b opt trail id p n ts m us h h' ih ih' =>
    intro hg hm i
    have hk := ok_sep hU hg
    have h2 := generates_first hL hU hI h' hk
    obtain ⟨tr, h3⟩ := ih hk.1.1 (by
      intro hh
      by_cases h0 : m = 0
      · subst h0
        exact hm (hh.mono fun c hc => .inl hc)
      · exact hh.apart (h2.1 (by omega)) hk.2.2.2.1) i
    obtain ⟨tr', h4⟩ := ih' hk (by
      intro hh
      simp only [adv, List.drop_drop] at hh
      refine hm (hh.mono ?_)
      rintro c (hc | hc | ⟨ht, hc | hc⟩)
      · exact .inl hc
      · exact .inr (.inl hc)
      · exact .inr (.inr (.inl ⟨ht, hc⟩))
      · exact .inr (.inr (.inr ⟨.inr ht, hc⟩))) i
    exact ⟨_, .sep_first h3 h4⟩
  | tail_nil =>
    intro hk hm i
    obtain ⟨tr, h1⟩ := hfail hk.1.2 hk.2.2.1 (fun hh => hm (hh.mono fun c hc => .inr (.inl hc))) i
    exact ⟨tr, .sep_stop h1⟩
  | tail_trail h ih =>
    intro hk hm i
    obtain ⟨tr, h1⟩ := ih hk.1.2 (fun hh => hm (hh.mono fun c hc => .inr (.inr ⟨rfl, .inl hc⟩))) i
    obtain ⟨tr', h2⟩ := hfail (p := adv _ _) hk.1.1 hk.2.1 (fun hh => hm (hh.mono fun c hc => .inr (.inr ⟨rfl, .inr hc⟩))) i
    exact ⟨_, .sep_trail h1 h2⟩
  | @tail_cons r b trail p l rs n ts m us h h' h'' ih ih' ih'' =>
    intro hk hm i
    have h2 := generates_first hL hU hI h'' hk
    have h3 := generates_first hL hU hI h' hk.1.1
    obtain ⟨tr, h4⟩ := ih hk.1.2 (fun hh => hh.apart (h3.1 (pos_of h3.2 hk.2.1)) hk.2.2.2.2) i
    obtain ⟨tr', h5⟩ := ih' hk.1.1 (by
      intro hh
      simp only [adv, List.drop_drop] at hh h2
      by_cases h0 : m = 0
      · subst h0
        exact hm (hh.mono fun c hc => .inl hc)
      · exact hh.apart (h2.1 (by omega)) hk.2.2.2.1) i
    obtain ⟨tr'', h6⟩ := ih'' hk (by
      intro hh
      simp only [adv, List.drop_drop] at hh
      exact hm hh) i
    exact ⟨_, .sep_more h4 h5 h6⟩
  | node hr h ih =>
    intro hg hm i
    obtain ⟨tr, h1⟩ := ih ⟨_, List.mem_of_getElem? hr, .refl⟩ (fun hh => hm (hh.mono (hU.more _ _ hr))) i
    exact ⟨tr, .node_ok hr h1⟩
  | optional_none =>
    intro hg hm i
    obtain ⟨tr, h1⟩ := hfail (decided_part hg .optional) (hU.oneWay _ hg) (fun hh => hm (hh.mono fun c hc => .inr hc)) i
    exact ⟨tr, .optional_none h1⟩
  | optional_some h ih =>
    intro hg hm i
    obtain ⟨tr, h1⟩ := ih (decided_part hg .optional) (fun hh => hm (hh.mono fun c hc => .inl hc)) i
    exact ⟨tr, .optional_some h1⟩

end

/-! ### The other way round -/

section
variable {E : Env}

/-- The rules of a goal are parts of the rules. -/
def PlainlyGoal (E : Env) : Goal → Prop
  | .rule r => Part E.refs r
  | .sel rs => ∀ r ∈ rs, Part E.refs r
  | .seq rs => ∀ r ∈ rs, Part E.refs r
  | .rep r => Part E.refs r
  | .sepTail r b _ => Part E.refs r ∧ Part E.refs b
  | _ => False

/-- What is read is generated. -/
def ReadsGenerated (E : Env) (g : Goal) (p : Pos) (n : Nat) (ts : List Tok) : Prop :=
  match g with
  | .sel rs => ∃ r ∈ rs, Generates E (.rule r) p n ts
  | g => Generates E g p n ts

theorem before_is_some {n : Nat} {ts : List Tok} {o : Outcome} {m us} (h : before n ts o = some (m, us)) :
    ∃ m' us', o = some (m', us') ∧ m = n + m' ∧ us = ts ++ us' := by
  match o, h with
  | some (m', us'), h =>
    cases h
    exact ⟨_, _, rfl, rfl, rfl⟩

theorem runs_generates (hp : ∀ x, Part E.refs x → Plainly x) {g p i o j tr} (h : Run E g p i o j tr) :
    PlainlyGoal E g → ∀ n ts, o = some (n, ts) → ReadsGenerated E g p n ts := by
  induction h with
  | ws_ok h h0 => intro _ n ts ho; cases ho; exact .token (i := 0) trivial (.ws_ok h h0)
  | tag_ok h => intro _ n ts ho; cases ho; exact .token (i := 0) trivial (.tag_ok h)
  | notTag_ok h => intro _ n ts ho; cases ho; exact .token (i := 0) trivial (.notTag_ok h)
  | until_ok h h0 => intro _ n ts ho; cases ho; exact .token (i := 0) trivial (.until_ok h h0)
  | untilWs_ok h h0 => intro _ n ts ho; cases ho; exact .token (i := 0) trivial (.untilWs_ok h h0)
  | text_ok h h2 ht => intro _ n ts ho; cases ho; exact .token (i := 0) trivial (.text_ok h h2 ht)
  | num_ok h hv => intro _ n ts ho; cases ho; exact .token (i := 0) trivial (.num_ok h hv)
  | select h ih =>
    intro hg n ts ho
    obtain ⟨r, hr, h1⟩ := ih (fun r hr => decided_part hg (.select hr)) n ts ho
    exact .select hr h1
  | sel_here h ih => exact fun hg n ts ho => ⟨_, by simp, ih (hg _ (by simp)) n ts ho⟩
  | sel_next h h' ih ih' =>
    intro hg n ts ho
    obtain ⟨r, hr, h1⟩ := ih' (fun r hr => hg r (by simp [hr])) n ts ho
    exact ⟨r, by simp [hr], h1⟩
  | sequence h ih => exact fun hg n ts ho => .sequence (ih (fun r hr => decided_part hg (.sequence hr)) n ts ho)
  | seq_nil => intro _ n ts ho; cases ho; exact .seq_nil
  | seq_cons h h' ih ih' =>
    intro hg n ts ho
    obtain ⟨m, us, ho', rfl, rfl⟩ := before_is_some ho
    exact .seq_cons (ih (hg _ (by simp)) _ _ rfl) (ih' (fun r hr => hg r (by simp [hr])) _ _ ho')
  | repeat_opt h ih => exact fun hg n ts ho => .repeat_any (ih (decided_part hg .repeat_) n ts ho)
  | repeat_ok h h' ih ih' =>
    intro hg n ts ho
    obtain ⟨m, us, ho', rfl, rfl⟩ := before_is_some ho
    exact .repeat_some (ih (decided_part hg .repeat_) _ _ rfl) (ih' (decided_part hg .repeat_) _ _ ho')
  | rep_stop h ih => intro _ n ts ho; cases ho; exact .rep_nil
  | rep_more h h' ih ih' =>
    intro hg n ts ho
    obtain ⟨m, us, ho', rfl, rfl⟩ := before_is_some ho
    exact .rep_cons (ih hg _ _ rfl) (ih' hg _ _ ho')
  | sep_none h ih => intro _ n ts ho; cases ho; exact .sep_none
  | sep_first h h' ih ih' =>
    intro hg n ts ho
    obtain ⟨m, us, ho', rfl, rfl⟩ := before_is_some ho
    exact .sep_some (ih (decided_part hg .item) _ _ rfl) (ih' ⟨decided_part hg .item, decided_part hg .sep⟩ _ _ ho')
  | sep_stop h ih => intro _ n ts ho; cases ho; exact .tail_nil
  | sep_trail h h' ih ih' => intro hg n ts ho; cases ho; exact .tail_trail (ih hg.2 _ _ rfl)
  | sep_more h h' h'' ih ih' ih'' =>
    intro hg n ts ho
    obtain ⟨m, us, ho', rfl, rfl⟩ := before_is_some ho
    exact .tail_cons (ih hg.2 _ _ rfl) (ih' hg.1 _ _ rfl) (ih'' hg _ _ ho')
  | node_ok hr h ih =>
    intro _ n ts ho
    cases ho
    exact .node hr (ih ⟨_, List.mem_of_getElem? hr, .refl⟩ _ _ rfl)
  | optional_none h ih => intro _ n ts ho; cases ho; exact .optional_none
  | optional_some h ih => exact fun hg n ts ho => .optional_some (ih (decided_part hg .optional) n ts ho)
  | not_ok h ih => intro hg n ts ho; cases ho; exact .absent (hp _ hg) h
  | fast_hit | fastTail_miss | fastTail_hit | fastTail_next => exact fun hg => (hp _ hg).elim
  | lines => exact fun hg => (hp _ hg).elim
  | lines_done | lines_stop | lines_more | line_plain | line_body | line_align => exact fun hg => hg.elim
  | _ => intro _ n ts ho; cases ho

end

end Verif
