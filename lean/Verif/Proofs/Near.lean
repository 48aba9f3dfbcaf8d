import Verif.Spec.Near
import Verif.Proofs.Basics
/-
A run with near rules stays a run when the text is changed beyond where it reads and fails.
-/
namespace Verif
open Spec

theorem Spec.Near.child {m : Nat} {c r : Rule} (h : Near m r) (hc : Child c r) : Near m c :=
  ⟨fun t a b d e ho => h.token t a b d e (.step ho hc), fun a b d ho => h.text a b d (.step ho hc),
    fun a b d ho => h.lines a b d (.step ho hc), fun a b ho => h.not a b (.step ho hc)⟩

/-- The rules of the goal are near, and it is not about lines. -/
def GoalNear (m : Nat) : Goal → Prop
  | .lines .. => False
  | .line .. => False
  | g => ∀ r ∈ g.rules, Near m r

/-- The two texts agree from `p` on up to `m` characters after the place `D`. -/
structure Agree (m D : Nat) (p p' : Pos) : Prop where
  le : p.off ≤ D
  off : p'.off = p.off
  src : p'.src.take (D + m - p.off) = p.src.take (D + m - p.off)

theorem take_less {a b : List Char} {k l : Nat} (h : a.take k = b.take k) (hl : l ≤ k) : a.take l = b.take l := by
  have := congrArg (List.take l) h
  rwa [List.take_take, List.take_take, Nat.min_eq_left hl] at this

theorem Agree.take {m D : Nat} {p p' : Pos} (h : Agree m D p p') {l : Nat} (hl : p.off + l ≤ D + m) :
    p'.src.take l = p.src.take l := take_less h.src (by omega)

theorem Agree.adv {m D : Nat} {p p' : Pos} (h : Agree m D p p') {n : Nat} (hn : p.off + n ≤ D) :
    Agree m D (Spec.adv p n) (Spec.adv p' n) := by
  refine ⟨hn, by simp [Spec.adv, h.off], ?_⟩
  have := congrArg (List.drop n) h.src
  rw [List.drop_take, List.drop_take] at this
  simpa [Spec.adv, Nat.sub_sub] using this

theorem longest_near {P : Char → Prop} {a b : List Char} {n : Nat} (h : Longest P a n)
    (e : b.take (n + 1) = a.take (n + 1)) : Longest P b n := by
  obtain ⟨h1, h2, h3⟩ := h
  have e' := take_less e (Nat.le_succ n)
  refine ⟨?_, by rwa [e'], ?_⟩
  · have := congrArg List.length e'
    simp only [List.length_take] at this
    omega
  · have : (b.drop n).head? = (a.drop n).head? := by
      have := congrArg (List.drop n) e
      rw [List.drop_take, List.drop_take, Nat.add_sub_cancel_left] at this
      have := congrArg List.head? this
      simpa [List.head?_take] using this
    rwa [this]

theorem prefix_near {t a b : List Char} {k : Nat} (e : b.take k = a.take k) (hk : t.length ≤ k) : t <+: b ↔ t <+: a := by
  rw [List.prefix_iff_eq_take, List.prefix_iff_eq_take, take_less e hk]

theorem goalNear_rule {m : Nat} {r : Rule} : GoalNear m (.rule r) ↔ Near m r := by simp [GoalNear, Goal.rules]

theorem goalNear_sel {m : Nat} {r : Rule} {rs : List Rule} : GoalNear m (.sel (r :: rs)) ↔ Near m r ∧ GoalNear m (.sel rs) := by
  simp [GoalNear, Goal.rules]

theorem goalNear_seq {m : Nat} {r : Rule} {rs : List Rule} : GoalNear m (.seq (r :: rs)) ↔ Near m r ∧ GoalNear m (.seq rs) := by
  simp [GoalNear, Goal.rules]

theorem goalNear_rep {m : Nat} {r : Rule} : GoalNear m (.rep r) ↔ Near m r := by simp [GoalNear, Goal.rules]

theorem goalNear_sepTail {m : Nat} {r b : Rule} {t : Bool} : GoalNear m (.sepTail r b t) ↔ Near m r ∧ Near m b := by
  simp [GoalNear, Goal.rules]

theorem goalNear_select {m : Nat} {rs : List Rule} {id : DebugId} (h : GoalNear m (.rule (.select rs id))) : GoalNear m (.sel rs) :=
  fun _ hr => (goalNear_rule.1 h).child (.select hr)

theorem goalNear_sequence {m : Nat} {rs : List Rule} {id : DebugId} (h : GoalNear m (.rule (.sequence rs id))) : GoalNear m (.seq rs) :=
  fun _ hr => (goalNear_rule.1 h).child (.sequence hr)

theorem before_none {n : Nat} {ts : List Tok} {o : Outcome} (h : before n ts o = none) : o = none := by
  cases o with
  | none => rfl
  | some x => cases h

/-- A failure is met where the goal is tried, or further. -/
theorem near_fails {E : Env} {m : Nat} (hE : ∀ r ∈ E.refs, Near m r) {g p i o j tr} (h : Run E g p i o j tr) :
    GoalNear m g → o = none → g = .sel [] ∨ ∃ x ∈ tr, p.off ≤ x.depth := by
  have one : ∀ {g : Goal} {p : Pos} {ran : Range} {e : ParseError}, p.off ≤ ran.next →
      g = .sel [] ∨ ∃ x ∈ [(⟨ran, e⟩ : RErr)], p.off ≤ x.depth := fun h => .inr ⟨_, List.mem_singleton.2 rfl, h⟩
  have left : ∀ {g : Goal} {p : Pos} {r : Rule} {tr tr' : List RErr}, (Goal.rule r = .sel [] ∨ ∃ x ∈ tr, p.off ≤ x.depth) →
      g = .sel [] ∨ ∃ x ∈ tr ++ tr', p.off ≤ x.depth := by
    rintro g p r tr tr' (h | ⟨x, hx, h⟩)
    · cases h
    · exact .inr ⟨x, List.mem_append_left _ hx, h⟩
  have right : ∀ {g g' : Goal} {p : Pos} {n : Nat} {tr tr' : List RErr}, g' ≠ .sel [] →
      (g' = .sel [] ∨ ∃ x ∈ tr', (adv p n).off ≤ x.depth) → g = .sel [] ∨ ∃ x ∈ tr ++ tr', p.off ≤ x.depth := by
    rintro g g' p n tr tr' hne (h | ⟨x, hx, h⟩)
    · exact absurd h hne
    · exact .inr ⟨x, List.mem_append_right _ hx, by simp only [adv] at h; omega⟩
  have same : ∀ {g : Goal} {p : Pos} {r : Rule} {tr : List RErr}, (Goal.rule r = .sel [] ∨ ∃ x ∈ tr, p.off ≤ x.depth) →
      g = .sel [] ∨ ∃ x ∈ tr, p.off ≤ x.depth := fun h => by simpa using left (tr' := []) h
  induction h with
  | ws_fail | tag_fail | until_fail | untilWs_fail | num_none | select_empty | fast_end | fast_miss | node_unresolved =>
    intro _ _; exact one (by simp [Range.next])
  | notTag_fail | num_bad => intro _ _; exact one (by simp [Range.next])
  | text_none | text_empty | text_bad =>
    intro hg; exact absurd .refl ((goalNear_rule.1 hg).text _ _ _)
  | not_ok | not_fail => intro hg; exact absurd .refl ((goalNear_rule.1 hg).not _ _)
  | lines => intro hg; exact absurd .refl ((goalNear_rule.1 hg).lines _ _ _)
  | lines_done | lines_fail | lines_stop | lines_more | line_plain | line_shallow | line_deep | line_body | line_align =>
    intro hg; cases hg
  | ws_ok | tag_ok | notTag_ok | until_ok | untilWs_ok | text_ok | num_ok | seq_nil | rep_stop | sep_none | sep_stop |
      sep_trail | node_ok | optional_none | optional_some | sel_here | fastTail_hit => intro _ h; cases h
  | sel_nil => intro _ _; exact .inl rfl
  | select h ih =>
    intro hg ho
    rcases ih (goalNear_select hg) ho with h | h
    · cases h
    · exact .inr h
  | sel_next h h' ih _ => intro hg _; exact left (ih (goalNear_rule.2 (goalNear_sel.1 hg).1) rfl)
  | fast_hit _ _ _ hr _ ih =>
    intro hg ho; exact same (ih (goalNear_rule.2 ((goalNear_rule.1 hg).child (.fast (List.mem_of_getElem? hr)))) ho)
  | fastTail_miss _ _ _ hr _ ih =>
    intro hg ho; exact same (ih (goalNear_rule.2 ((goalNear_rule.1 hg).child (.fast (List.mem_of_getLast? hr)))) ho)
  | fastTail_next _ _ _ hr _ _ _ ih _ =>
    intro hg _; exact left (ih (goalNear_rule.2 ((goalNear_rule.1 hg).child (.fast (List.mem_of_getElem? hr)))) rfl)
  | sequence _ ih =>
    intro hg ho
    rcases ih (goalNear_sequence hg) ho with h | h
    · cases h
    · exact .inr h
  | seq_fail _ ih => intro hg _; exact same (ih (goalNear_rule.2 (goalNear_seq.1 hg).1) rfl)
  | seq_cons _ _ _ ih => intro hg ho; exact right (by simp) (ih (goalNear_seq.1 hg).2 (before_none ho))
  | repeat_opt _ ih =>
    intro hg ho
    rcases ih (goalNear_rep.2 ((goalNear_rule.1 hg).child .repeat_)) ho with h | h
    · cases h
    · exact .inr h
  | repeat_fail _ ih => intro hg _; exact same (ih (goalNear_rule.2 ((goalNear_rule.1 hg).child .repeat_)) rfl)
  | repeat_ok _ _ _ ih =>
    intro hg ho; exact right (by simp) (ih (goalNear_rep.2 ((goalNear_rule.1 hg).child .repeat_)) (before_none ho))
  | rep_more _ _ _ ih => intro hg ho; exact right (by simp) (ih hg (before_none ho))
  | sep_fail _ ih => intro hg _; exact same (ih (goalNear_rule.2 ((goalNear_rule.1 hg).child .item)) rfl)
  | sep_first _ _ _ ih =>
    intro hg ho
    exact right (by simp) (ih (goalNear_sepTail.2 ⟨(goalNear_rule.1 hg).child .item, (goalNear_rule.1 hg).child .sep⟩) (before_none ho))
  | sep_noTrail _ _ _ ih => intro hg _; exact right (by simp) (ih (goalNear_rule.2 (goalNear_sepTail.1 hg).1) rfl)
  | sep_more _ _ _ _ _ ih =>
    intro hg ho
    rcases ih hg (before_none ho) with h | ⟨x, hx, h⟩
    · cases h
    · exact .inr ⟨x, List.mem_append_right _ (List.mem_append_right _ hx), by simp only [adv] at h; omega⟩
  | node_fail hr _ ih => intro hg _; exact same (ih (goalNear_rule.2 (hE _ (List.mem_of_getElem? hr))) rfl)

theorem run_near {E : Env} {m : Nat} (hm : 1 ≤ m) (hL : NearNumbers E.L m) (hE : ∀ r ∈ E.refs, Near m r)
    {g p i o j tr} (h : Run E g p i o j tr) : GoalNear m g → ∀ D p', (∀ x ∈ tr, x.depth ≤ D) →
      (∀ n ts, o = some (n, ts) → p.off + n ≤ D) → Agree m D p p' → Run E g p' i o j tr := by
  -- where the second of two parts begins
  have mid : ∀ {g' : Goal} {p : Pos} {n j o k ts tr' D}, Run E g' (adv p n) j o k tr' → GoalNear m g' → g' ≠ .sel [] →
      (∀ x ∈ tr', x.depth ≤ D) → (∀ n' ts', before n ts o = some (n', ts') → p.off + n' ≤ D) →
      p.off + n ≤ D ∧ ∀ n' ts', o = some (n', ts') → (adv p n).off + n' ≤ D := by
    intro g' p n j o k ts tr' D h hg hne ht ho
    cases o with
    | none =>
      rcases near_fails hE h hg rfl with h | ⟨x, hx, h⟩
      · exact absurd h hne
      · have := ht x hx
        simp only [adv] at h
        exact ⟨by omega, by rintro _ _ ⟨⟩⟩
    | some x =>
      have := ho _ _ rfl
      refine ⟨by omega, ?_⟩
      rintro n' ts' ⟨⟩
      simp only [adv]
      simp only at this
      omega
  have appL : ∀ {a b : List RErr} {D : Nat}, (∀ x ∈ a ++ b, x.depth ≤ D) → ∀ x ∈ a, x.depth ≤ D :=
    fun h x hx => h x (List.mem_append_left _ hx)
  have appR : ∀ {a b : List RErr} {D : Nat}, (∀ x ∈ a ++ b, x.depth ≤ D) → ∀ x ∈ b, x.depth ≤ D :=
    fun h x hx => h x (List.mem_append_right _ hx)
  have som : ∀ {off D n : Nat} {ts : List Tok}, off + n ≤ D → ∀ n' ts', some (n, ts) = some (n', ts') → off + n' ≤ D := by
    rintro off D n ts h _ _ ⟨⟩
    exact h
  have non : ∀ {off D : Nat}, ∀ n ts, (none : Outcome) = some (n, ts) → off + n ≤ D := by rintro _ _ _ _ ⟨⟩
  induction h with
  | text_ok | text_none | text_empty | text_bad =>
    intro hg; exact absurd .refl ((goalNear_rule.1 hg).text _ _ _)
  | not_ok | not_fail => intro hg; exact absurd .refl ((goalNear_rule.1 hg).not _ _)
  | lines => intro hg; exact absurd .refl ((goalNear_rule.1 hg).lines _ _ _)
  | lines_done | lines_fail | lines_stop | lines_more | line_plain | line_shallow | line_deep | line_body | line_align =>
    intro hg; cases hg
  | ws_ok h h0 =>
    intro hg D p' ht ho ha
    exact .ws_ok (longest_near h (ha.take (by have := ho _ _ rfl; omega))) h0
  | ws_fail h =>
    rintro hg D ⟨src, off⟩ ht ho ha
    obtain rfl := ha.off
    exact .ws_fail (longest_near h (ha.take (by have := ha.le; omega)))
  | @tag_ok t inv prop id p i h =>
    rintro hg D ⟨src, off⟩ ht ho ha
    obtain rfl := ha.off
    exact .tag_ok ((prefix_near ha.src (by have := ha.le; have := (goalNear_rule.1 hg).token _ _ _ _ _ .refl; omega)).2 h)
  | @tag_fail t inv prop id p i h =>
    rintro hg D ⟨src, off⟩ ht ho ha
    obtain rfl := ha.off
    exact .tag_fail fun h' =>
      h ((prefix_near ha.src (by have := ha.le; have := (goalNear_rule.1 hg).token _ _ _ _ _ .refl; omega)).1 h')
  | @notTag_ok t inv prop id p i h =>
    rintro hg D ⟨src, off⟩ ht ho ha
    obtain rfl := ha.off
    exact .notTag_ok fun h' =>
      h ((prefix_near ha.src (by have := ha.le; have := (goalNear_rule.1 hg).token _ _ _ _ _ .refl; omega)).1 h')
  | @notTag_fail t inv prop id p i h =>
    rintro hg D ⟨src, off⟩ ht ho ha
    obtain rfl := ha.off
    exact .notTag_fail
      ((prefix_near ha.src (by have := ha.le; have := (goalNear_rule.1 hg).token _ _ _ _ _ .refl; omega)).2 h)
  | @until_ok any opt prop id p i n h h0 =>
    rintro hg D ⟨src, off⟩ ht ho ha
    obtain rfl := ha.off
    have hn := ho _ _ rfl
    have := Run.until_ok (E := E) (prop := prop) (id := id) (i := i) (p := ⟨src, p.off⟩)
      (longest_near h (ha.take (by omega))) h0
    rwa [ha.take (l := n) (by omega)] at this
  | until_fail h =>
    rintro hg D ⟨src, off⟩ ht ho ha
    obtain rfl := ha.off
    exact .until_fail (longest_near h (ha.take (by have := ha.le; omega)))
  | @untilWs_ok any opt prop id p i n h h0 =>
    rintro hg D ⟨src, off⟩ ht ho ha
    obtain rfl := ha.off
    have hn := ho _ _ rfl
    have := Run.untilWs_ok (E := E) (prop := prop) (id := id) (i := i) (p := ⟨src, p.off⟩)
      (longest_near h (ha.take (by omega))) h0
    rwa [ha.take (l := n) (by omega)] at this
  | untilWs_fail h =>
    rintro hg D ⟨src, off⟩ ht ho ha
    obtain rfl := ha.off
    exact .untilWs_fail (longest_near h (ha.take (by have := ha.le; omega)))
  | @num_ok prop us id p i n v h hv =>
    rintro hg D ⟨src, off⟩ ht ho ha
    obtain rfl := ha.off
    have hn := ho _ _ rfl
    obtain ⟨h1, h2⟩ := (hL us p.src src).2 n h (ha.take (by omega))
    exact .num_ok h1 (h2.trans hv)
  | @num_none prop us id p i h =>
    rintro hg D ⟨src, off⟩ ht ho ha
    obtain rfl := ha.off
    exact .num_none ((hL us p.src src).1 h (ha.take (by have := ha.le; omega)))
  | @num_bad prop us id p i n e h hv =>
    rintro hg D ⟨src, off⟩ ht ho ha
    obtain rfl := ha.off
    have hn : p.off + n ≤ D := ht _ (List.mem_singleton.2 rfl)
    obtain ⟨h1, h2⟩ := (hL us p.src src).2 n h (ha.take (by omega))
    exact .num_bad h1 (h2.trans hv)
  | select_empty =>
    rintro hg D ⟨src, off⟩ ht ho ha
    obtain rfl := ha.off
    exact .select_empty
  | select _ ih => intro hg D p' ht ho ha; exact .select (ih (goalNear_select hg) D p' ht ho ha)
  | sel_nil => intro _ _ _ _ _ _; exact .sel_nil
  | sel_here _ ih => intro hg D p' ht ho ha; exact .sel_here (ih (goalNear_rule.2 (goalNear_sel.1 hg).1) D p' ht ho ha)
  | sel_next _ _ ih ih' =>
    intro hg D p' ht ho ha
    exact .sel_next (ih (goalNear_rule.2 (goalNear_sel.1 hg).1) D p' (appL ht) non ha)
      (ih' (goalNear_sel.1 hg).2 D p' (appR ht) ho ha)
  | fast_end h =>
    rintro hg D ⟨src, off⟩ ht ho ha
    obtain rfl := ha.off
    have := ha.take (l := 1) (by have := ha.le; omega)
    rw [h] at this
    exact .fast_end (by simpa using this)
  | @fast_miss tb args id p i c cs b bs h hb ht' =>
    rintro hg D ⟨src, off⟩ ht ho ha
    obtain rfl := ha.off
    have := ha.take (l := 1) (by have := ha.le; omega)
    rw [h] at this
    match src, this with
    | c' :: cs', this =>
      obtain rfl : c' = c := by simpa using this
      exact .fast_miss rfl hb ht'
  | @fast_hit tb args id p i c cs b bs r o j tr h hb ht' hr _ ih =>
    rintro hg D ⟨src, off⟩ ht ho ha
    obtain rfl := ha.off
    have := ha.take (l := 1) (by have := ha.le; omega)
    rw [h] at this
    match src, this, ha with
    | c' :: cs', this, ha =>
      obtain rfl : c' = c := by simpa using this
      exact .fast_hit rfl hb ht' hr
        (ih (goalNear_rule.2 ((goalNear_rule.1 hg).child (.fast (List.mem_of_getElem? hr)))) D _ ht ho ha)
  | @fastTail_miss tb args id p i c cs b bs r o j tr h hb ht' hr _ ih =>
    rintro hg D ⟨src, off⟩ ht ho ha
    obtain rfl := ha.off
    have := ha.take (l := 1) (by have := ha.le; omega)
    rw [h] at this
    match src, this, ha with
    | c' :: cs', this, ha =>
      obtain rfl : c' = c := by simpa using this
      exact .fastTail_miss rfl hb ht' hr
        (ih (goalNear_rule.2 ((goalNear_rule.1 hg).child (.fast (List.mem_of_getLast? hr)))) D _ ht ho ha)
  | @fastTail_hit tb args id p i c cs b bs r x j tr h hb ht' hr _ ih =>
    rintro hg D ⟨src, off⟩ ht ho ha
    obtain rfl := ha.off
    have := ha.take (l := 1) (by have := ha.le; omega)
    rw [h] at this
    match src, this, ha with
    | c' :: cs', this, ha =>
      obtain rfl : c' = c := by simpa using this
      exact .fastTail_hit rfl hb ht' hr
        (ih (goalNear_rule.2 ((goalNear_rule.1 hg).child (.fast (List.mem_of_getElem? hr)))) D _ ht ho ha)
  | @fastTail_next tb args id p i c cs b bs r r' j tr o k tr' h hb ht' hr _ hr' _ ih ih' =>
    rintro hg D ⟨src, off⟩ ht ho ha
    obtain rfl := ha.off
    have := ha.take (l := 1) (by have := ha.le; omega)
    rw [h] at this
    match src, this, ha with
    | c' :: cs', this, ha =>
      obtain rfl : c' = c := by simpa using this
      exact .fastTail_next rfl hb ht' hr
        (ih (goalNear_rule.2 ((goalNear_rule.1 hg).child (.fast (List.mem_of_getElem? hr)))) D _ (appL ht) non ha) hr'
        (ih' (goalNear_rule.2 ((goalNear_rule.1 hg).child (.fast (List.mem_of_getLast? hr')))) D _ (appR ht) ho ha)
  | sequence _ ih => intro hg D p' ht ho ha; exact .sequence (ih (goalNear_sequence hg) D p' ht ho ha)
  | seq_nil => intro _ _ _ _ _ _; exact .seq_nil
  | seq_fail _ ih => intro hg D p' ht ho ha; exact .seq_fail (ih (goalNear_rule.2 (goalNear_seq.1 hg).1) D p' ht non ha)
  | seq_cons _ h' ih ih' =>
    intro hg D p' ht ho ha
    obtain ⟨h1, h2⟩ := mid h' (goalNear_seq.1 hg).2 (by simp) (appR ht) ho
    exact .seq_cons (ih (goalNear_rule.2 (goalNear_seq.1 hg).1) D p' (appL ht) (som h1) ha)
      (ih' (goalNear_seq.1 hg).2 D _ (appR ht) h2 (ha.adv h1))
  | repeat_opt _ ih =>
    intro hg D p' ht ho ha
    exact .repeat_opt (ih (goalNear_rep.2 ((goalNear_rule.1 hg).child .repeat_)) D p' ht ho ha)
  | repeat_fail _ ih =>
    intro hg D p' ht ho ha
    exact .repeat_fail (ih (goalNear_rule.2 ((goalNear_rule.1 hg).child .repeat_)) D p' ht non ha)
  | repeat_ok _ h' ih ih' =>
    intro hg D p' ht ho ha
    have hr := (goalNear_rule.1 hg).child .repeat_
    obtain ⟨h1, h2⟩ := mid h' (goalNear_rep.2 hr) (by simp) (appR ht) ho
    exact .repeat_ok (ih (goalNear_rule.2 hr) D p' (appL ht) (som h1) ha)
      (ih' (goalNear_rep.2 hr) D _ (appR ht) h2 (ha.adv h1))
  | rep_stop _ ih => intro hg D p' ht ho ha; exact .rep_stop (ih (goalNear_rule.2 (goalNear_rep.1 hg)) D p' ht non ha)
  | rep_more _ h' ih ih' =>
    intro hg D p' ht ho ha
    obtain ⟨h1, h2⟩ := mid h' hg (by simp) (appR ht) ho
    exact .rep_more (ih (goalNear_rule.2 (goalNear_rep.1 hg)) D p' (appL ht) (som h1) ha)
      (ih' hg D _ (appR ht) h2 (ha.adv h1))
  | sep_none _ ih =>
    intro hg D p' ht ho ha
    exact .sep_none (ih (goalNear_rule.2 ((goalNear_rule.1 hg).child .item)) D p' ht non ha)
  | sep_fail _ ih =>
    intro hg D p' ht ho ha
    exact .sep_fail (ih (goalNear_rule.2 ((goalNear_rule.1 hg).child .item)) D p' ht non ha)
  | sep_first _ h' ih ih' =>
    intro hg D p' ht ho ha
    have hr := (goalNear_rule.1 hg).child .item
    have hb := (goalNear_rule.1 hg).child .sep
    obtain ⟨h1, h2⟩ := mid h' (goalNear_sepTail.2 ⟨hr, hb⟩) (by simp) (appR ht) ho
    exact .sep_first (ih (goalNear_rule.2 hr) D p' (appL ht) (som h1) ha)
      (ih' (goalNear_sepTail.2 ⟨hr, hb⟩) D _ (appR ht) h2 (ha.adv h1))
  | sep_stop _ ih => intro hg D p' ht ho ha; exact .sep_stop (ih (goalNear_rule.2 (goalNear_sepTail.1 hg).2) D p' ht non ha)
  | sep_trail _ _ ih ih' =>
    intro hg D p' ht ho ha
    have h1 := ho _ _ rfl
    exact .sep_trail (ih (goalNear_rule.2 (goalNear_sepTail.1 hg).2) D p' (appL ht) ho ha)
      (ih' (goalNear_rule.2 (goalNear_sepTail.1 hg).1) D _ (appR ht) non (ha.adv h1))
  | sep_noTrail _ h' ih ih' =>
    intro hg D p' ht ho ha
    have hr := goalNear_rule.2 (goalNear_sepTail.1 hg).1
    obtain ⟨h1, -⟩ := mid (ts := []) h' hr (by simp) (appR ht) (by rintro _ _ ⟨⟩)
    exact .sep_noTrail (ih (goalNear_rule.2 (goalNear_sepTail.1 hg).2) D p' (appL ht) (som h1) ha)
      (ih' hr D _ (appR ht) non (ha.adv h1))
  | @sep_more r b trail p i m' us j tr n ts k tr' o l tr'' _ _ h'' ih ih' ih'' =>
    intro hg D p' ht ho ha
    have hr := goalNear_rule.2 (goalNear_sepTail.1 hg).1
    obtain ⟨h1, h2⟩ := mid h'' hg (by simp) (appR (appR ht)) ho
    have h3 : p.off + m' ≤ D := by omega
    exact .sep_more (ih (goalNear_rule.2 (goalNear_sepTail.1 hg).2) D p' (appL ht) (som h3) ha)
      (ih' hr D _ (appL (appR ht)) (som (by simp only [adv]; omega)) (ha.adv h3))
      (ih'' hg D _ (appR (appR ht)) h2 (ha.adv h1))
  | node_unresolved =>
    rintro hg D ⟨src, off⟩ ht ho ha
    obtain rfl := ha.off
    exact .node_unresolved
  | node_fail hr _ ih =>
    intro hg D p' ht ho ha
    exact .node_fail hr (ih (goalNear_rule.2 (hE _ (List.mem_of_getElem? hr))) D p' ht non ha)
  | node_ok hr _ ih =>
    rintro hg D ⟨src, off⟩ ht ho ha
    obtain rfl := ha.off
    exact .node_ok hr (ih (goalNear_rule.2 (hE _ (List.mem_of_getElem? hr))) D _ ht (som (ho _ _ rfl)) ha)
  | optional_none _ ih =>
    intro hg D p' ht ho ha
    exact .optional_none (ih (goalNear_rule.2 ((goalNear_rule.1 hg).child .optional)) D p' ht non ha)
  | optional_some _ ih =>
    intro hg D p' ht ho ha
    exact .optional_some (ih (goalNear_rule.2 ((goalNear_rule.1 hg).child .optional)) D p' ht ho ha)

end Verif
