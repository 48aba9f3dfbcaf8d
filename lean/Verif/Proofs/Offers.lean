import Verif.Proofs.Viable
import Verif.Spec.Offers
/-
What has been read before an error can be continued with what was expected.
-/
namespace Verif.Props
open Spec

section
variable {E : Env} {M : Nat → Mark} {N A : Nat → Char → Prop} {K : Char → Prop} {I : Nat}

/-- A part has been read, and then some. -/
theorem further_prefix {s w y : Str} {q off n : Nat} (hq : off + n ≤ q) (h : (s.drop n).take (q - (off + n)) ++ w <+: y) :
    s.take (q - off) ++ w <+: s.take n ++ y := by
  have : q - off = n + (q - (off + n)) := by omega
  rw [this, List.take_add, List.append_assoc]
  exact (List.prefix_append_right_inj _).2 h

variable (hL : E.L.Lawful) (hX : E.L.Exact) (hU : LL1 E.L M N E.refs) (hI : ∀ i, (M i).idle ≤ I) (hC : Continues E.L K M A E.refs)
  (hP : ∀ x, Part E.refs x → ∃ y, Yields E (.rule x) y)
include hL hX hU hI hC hP

/-- What has been read before an error can be continued with whatever the rule that failed generates. -/
theorem run_offers (hpl : ∀ x, Part E.refs x → Plainly x) {g p i o j tr} (h : Run E g p i o j tr) : ViableGoal E M N g →
    SetApartGoal E M A K g → ∀ e ∈ tr, ¬ InString e.err → p.off ≤ e.range.offset ∧ ∃ q, Part E.refs q ∧ Misses q e.err ∧ ∀ w, Yields E (.rule q) w →
      ∃ y, Yields E g y ∧ p.src.take (e.range.offset - p.off) ++ w <+: y := by
  have hpart : ∀ {r}, Part E.refs r → SetApart E.L K M A r := fun h => hC.apart _ h
  have hread : ∀ {r p i n ts j tr}, Part E.refs r → Run E (.rule r) p i (some (n, ts)) j tr → Yields E (.rule r) (p.src.take n) :=
    fun hr h => yields_of_generates hL hX hU hI hC hr (runs_generates hpl h hr _ _ rfl)
  induction h with
  | ws_fail h | tag_fail h | until_fail h | untilWs_fail h | text_none h | text_empty h | num_none h | num_bad h hv =>
    intro hg ha e he _
    simp only [here, List.mem_singleton] at he
    subst he
    exact ⟨Nat.le_refl _, _, hg, by constructor, fun w hw => ⟨w, hw, by simp⟩⟩
  | select_empty =>
    intro hg
    obtain ⟨y, ts, hy⟩ := hP _ hg
    cases hy with
    | token hr => exact hr.elim
    | select hr => cases hr
  | node_unresolved =>
    intro hg
    obtain ⟨y, ts, hy⟩ := hP _ hg
    cases hy with
    | token hr => exact hr.elim
  | text_bad h h2 ht =>
    intro hg ha e he hn
    simp only [List.mem_singleton] at he
    subst he
    exact absurd trivial hn
  | notTag_fail h => exact fun hg _ => absurd (hpart hg) (by simp [SetApart])
  | select h ih =>
    intro hg ha e he hn
    have hq : ∀ r ∈ _, Part E.refs r := fun r hr => decided_part hg (.select hr)
    obtain ⟨hoff, q, hq₀, hq₁, hf⟩ := ih hq hq e he hn
    refine ⟨by first | omega | (simp only [adv] at hoff; omega), q, hq₀, hq₁, fun w hw => ?_⟩
    obtain ⟨y, ⟨r, hr, ts, h1⟩, h2⟩ := hf w hw
    exact ⟨y, ⟨ts, .select hr h1⟩, h2⟩
  | sel_here h ih =>
    intro hg ha e he hn
    have hq := hg _ (List.mem_cons_self ..)
    obtain ⟨hoff, q, hq₀, hq₁, hf⟩ := ih hq hq e he hn
    refine ⟨by first | omega | (simp only [adv] at hoff; omega), q, hq₀, hq₁, fun w hw => ?_⟩
    obtain ⟨y, h1, h2⟩ := hf w hw
    exact ⟨y, ⟨_, List.mem_cons_self .., h1⟩, h2⟩
  | sel_next h h' ih ih' =>
    intro hg ha e he hn
    rcases List.mem_append.1 he with he | he
    · have hq := hg _ (List.mem_cons_self ..)
      obtain ⟨hoff, q, hq₀, hq₁, hf⟩ := ih hq hq e he hn
      refine ⟨by first | omega | (simp only [adv] at hoff; omega), q, hq₀, hq₁, fun w hw => ?_⟩
      obtain ⟨y, h1, h2⟩ := hf w hw
      exact ⟨y, ⟨_, List.mem_cons_self .., h1⟩, h2⟩
    · have hq := fun r hr => hg r (List.mem_cons_of_mem _ hr)
      obtain ⟨hoff, q, hq₀, hq₁, hf⟩ := ih' hq hq e he hn
      refine ⟨by first | omega | (simp only [adv] at hoff; omega), q, hq₀, hq₁, fun w hw => ?_⟩
      obtain ⟨y, ⟨r, hr, h1⟩, h2⟩ := hf w hw
      exact ⟨y, ⟨r, List.mem_cons_of_mem _ hr, h1⟩, h2⟩
  | sequence h ih =>
    intro hg ha e he hn
    obtain ⟨hoff, q, hq₀, hq₁, hf⟩ := ih (ok_sequence hU hg) (hpart hg) e he hn
    refine ⟨by first | omega | (simp only [adv] at hoff; omega), q, hq₀, hq₁, fun w hw => ?_⟩
    obtain ⟨y, ⟨ts, h1⟩, h2⟩ := hf w hw
    exact ⟨y, ⟨ts, .sequence h1⟩, h2⟩
  | seq_fail h ih =>
    intro hg ha e he hn
    obtain ⟨h1, h2, -⟩ := ok_cons hg
    obtain ⟨hoff, q, hq₀, hq₁, hf⟩ := ih h1 h1 e he hn
    refine ⟨by first | omega | (simp only [adv] at hoff; omega), q, hq₀, hq₁, fun w hw => ?_⟩
    obtain ⟨y, h3, h4⟩ := hf w hw
    obtain ⟨z, h5⟩ := yields_seq hL hX hU hI hC hP h2 ha.2
    exact ⟨y ++ z, yields_cons hL hX hU hI hC hg ha h3 h5, h4.trans (List.prefix_append _ _)⟩
  | seq_cons h h' ih ih' =>
    intro hg ha e he hn
    obtain ⟨h1, h2, -⟩ := ok_cons hg
    rcases List.mem_append.1 he with he | he
    · obtain ⟨hoff, q, hq₀, hq₁, hf⟩ := ih h1 h1 e he hn
      refine ⟨by first | omega | (simp only [adv] at hoff; omega), q, hq₀, hq₁, fun w hw => ?_⟩
      obtain ⟨y, h3, h4⟩ := hf w hw
      obtain ⟨z, h5⟩ := yields_seq hL hX hU hI hC hP h2 ha.2
      exact ⟨y ++ z, yields_cons hL hX hU hI hC hg ha h3 h5, h4.trans (List.prefix_append _ _)⟩
    · obtain ⟨hoff, q, hq₀, hq₁, hf⟩ := ih' h2 ha.2 e he hn
      refine ⟨by first | omega | (simp only [adv] at hoff; omega), q, hq₀, hq₁, fun w hw => ?_⟩
      obtain ⟨y, h3, h4⟩ := hf w hw
      exact ⟨_, yields_cons hL hX hU hI hC hg ha (hread h1 h) h3, further_prefix hoff h4⟩
  | repeat_opt h ih =>
    intro hg ha e he hn
    obtain ⟨hoff, q, hq₀, hq₁, hf⟩ := ih (ok_repeat hU hg) (hpart hg) e he hn
    refine ⟨by first | omega | (simp only [adv] at hoff; omega), q, hq₀, hq₁, fun w hw => ?_⟩
    obtain ⟨y, ⟨ts, h1⟩, h2⟩ := hf w hw
    exact ⟨y, ⟨ts, .repeat_any h1⟩, h2⟩
  | repeat_fail h ih =>
    intro hg ha e he hn
    have hk := ok_repeat hU hg
    obtain ⟨hoff, q, hq₀, hq₁, hf⟩ := ih hk.1 hk.1 e he hn
    refine ⟨by first | omega | (simp only [adv] at hoff; omega), q, hq₀, hq₁, fun w hw => ?_⟩
    obtain ⟨y, h1, h2⟩ := hf w hw
    exact ⟨_, (yields_rep hL hX hU hI hC hk (hpart hg) h1 rep_nothing _).2, h2.trans (List.prefix_append _ _)⟩
  | repeat_ok h h' ih ih' =>
    intro hg ha e he hn
    have hk := ok_repeat hU hg
    rcases List.mem_append.1 he with he | he
    · obtain ⟨hoff, q, hq₀, hq₁, hf⟩ := ih hk.1 hk.1 e he hn
      refine ⟨by first | omega | (simp only [adv] at hoff; omega), q, hq₀, hq₁, fun w hw => ?_⟩
      obtain ⟨y, h1, h2⟩ := hf w hw
      exact ⟨_, (yields_rep hL hX hU hI hC hk (hpart hg) h1 rep_nothing _).2, h2.trans (List.prefix_append _ _)⟩
    · obtain ⟨hoff, q, hq₀, hq₁, hf⟩ := ih' hk (hpart hg) e he hn
      refine ⟨by first | omega | (simp only [adv] at hoff; omega), q, hq₀, hq₁, fun w hw => ?_⟩
      obtain ⟨y, h3, h4⟩ := hf w hw
      exact ⟨_, (yields_rep hL hX hU hI hC hk (hpart hg) (hread hk.1 h) h3 _).2, further_prefix hoff h4⟩
  | rep_stop h ih =>
    intro hk ha e he hn
    obtain ⟨hoff, q, hq₀, hq₁, hf⟩ := ih hk.1 hk.1 e he hn
    refine ⟨by first | omega | (simp only [adv] at hoff; omega), q, hq₀, hq₁, fun w hw => ?_⟩
    obtain ⟨y, h1, h2⟩ := hf w hw
    exact ⟨_, (yields_rep hL hX hU hI hC hk ha h1 rep_nothing 0).1, h2.trans (List.prefix_append _ _)⟩
  | rep_more h h' ih ih' =>
    intro hk ha e he hn
    rcases List.mem_append.1 he with he | he
    · obtain ⟨hoff, q, hq₀, hq₁, hf⟩ := ih hk.1 hk.1 e he hn
      refine ⟨by first | omega | (simp only [adv] at hoff; omega), q, hq₀, hq₁, fun w hw => ?_⟩
      obtain ⟨y, h1, h2⟩ := hf w hw
      exact ⟨_, (yields_rep hL hX hU hI hC hk ha h1 rep_nothing 0).1, h2.trans (List.prefix_append _ _)⟩
    · obtain ⟨hoff, q, hq₀, hq₁, hf⟩ := ih' hk ha e he hn
      refine ⟨by first | omega | (simp only [adv] at hoff; omega), q, hq₀, hq₁, fun w hw => ?_⟩
      obtain ⟨y, h3, h4⟩ := hf w hw
      exact ⟨_, (yields_rep hL hX hU hI hC hk ha (hread hk.1 h) h3 0).1, further_prefix hoff h4⟩
  | sep_none h ih | sep_fail h ih =>
    intro hg ha e he hn
    have hk := ok_sep hU hg
    obtain ⟨hoff, q, hq₀, hq₁, hf⟩ := ih hk.1.1 hk.1.1 e he hn
    refine ⟨by first | omega | (simp only [adv] at hoff; omega), q, hq₀, hq₁, fun w hw => ?_⟩
    obtain ⟨y, h1, h2⟩ := hf w hw
    exact ⟨_, yields_sep hL hX hU hI hC hk (hpart hg) h1 tail_nothing, h2.trans (List.prefix_append _ _)⟩
  | sep_first h h' ih ih' =>
    intro hg ha e he hn
    have hk := ok_sep hU hg
    rcases List.mem_append.1 he with he | he
    · obtain ⟨hoff, q, hq₀, hq₁, hf⟩ := ih hk.1.1 hk.1.1 e he hn
      refine ⟨by first | omega | (simp only [adv] at hoff; omega), q, hq₀, hq₁, fun w hw => ?_⟩
      obtain ⟨y, h1, h2⟩ := hf w hw
      exact ⟨_, yields_sep hL hX hU hI hC hk (hpart hg) h1 tail_nothing, h2.trans (List.prefix_append _ _)⟩
    · obtain ⟨hoff, q, hq₀, hq₁, hf⟩ := ih' hk (hpart hg) e he hn
      refine ⟨by first | omega | (simp only [adv] at hoff; omega), q, hq₀, hq₁, fun w hw => ?_⟩
      obtain ⟨y, h3, h4⟩ := hf w hw
      exact ⟨_, yields_sep hL hX hU hI hC hk (hpart hg) (hread hk.1.1 h) h3, further_prefix hoff h4⟩
  | sep_stop h ih =>
    intro hk ha e he hn
    obtain ⟨hoff, q, hq₀, hq₁, hf⟩ := ih hk.1.2 hk.1.2 e he hn
    refine ⟨by first | omega | (simp only [adv] at hoff; omega), q, hq₀, hq₁, fun w hw => ?_⟩
    obtain ⟨y, h1, h2⟩ := hf w hw
    obtain ⟨x, hx⟩ := hP _ hk.1.1
    exact ⟨_, yields_tail hL hX hU hI hC hk ha h1 hx tail_nothing, h2.trans (List.prefix_append _ _)⟩
  | sep_trail h h' ih ih' | sep_noTrail h h' ih ih' =>
    intro hk ha e he hn
    rcases List.mem_append.1 he with he | he
    · obtain ⟨hoff, q, hq₀, hq₁, hf⟩ := ih hk.1.2 hk.1.2 e he hn
      refine ⟨by first | omega | (simp only [adv] at hoff; omega), q, hq₀, hq₁, fun w hw => ?_⟩
      obtain ⟨y, h1, h2⟩ := hf w hw
      obtain ⟨x, hx⟩ := hP _ hk.1.1
      exact ⟨_, yields_tail hL hX hU hI hC hk ha h1 hx tail_nothing, h2.trans (List.prefix_append _ _)⟩
    · obtain ⟨hoff, q, hq₀, hq₁, hf⟩ := ih' hk.1.1 hk.1.1 e he hn
      refine ⟨by first | omega | (simp only [adv] at hoff; omega), q, hq₀, hq₁, fun w hw => ?_⟩
      obtain ⟨y, h3, h4⟩ := hf w hw
      exact ⟨_, yields_tail hL hX hU hI hC hk ha (hread hk.1.2 h) h3 tail_nothing,
        further_prefix hoff (h4.trans (List.prefix_append _ _))⟩
  | @sep_more r b trail p i m us j tr n ts k tr' o l tr'' h h' h'' ih ih' ih'' =>
    intro hk ha e he hn
    rcases List.mem_append.1 he with he | he
    · obtain ⟨hoff, q, hq₀, hq₁, hf⟩ := ih hk.1.2 hk.1.2 e he hn
      refine ⟨by first | omega | (simp only [adv] at hoff; omega), q, hq₀, hq₁, fun w hw => ?_⟩
      obtain ⟨y, h1, h2⟩ := hf w hw
      obtain ⟨x, hx⟩ := hP _ hk.1.1
      exact ⟨_, yields_tail hL hX hU hI hC hk ha h1 hx tail_nothing, h2.trans (List.prefix_append _ _)⟩
    rcases List.mem_append.1 he with he | he
    · obtain ⟨hoff, q, hq₀, hq₁, hf⟩ := ih' hk.1.1 hk.1.1 e he hn
      refine ⟨by first | omega | (simp only [adv] at hoff; omega), q, hq₀, hq₁, fun w hw => ?_⟩
      obtain ⟨y, h3, h4⟩ := hf w hw
      exact ⟨_, yields_tail hL hX hU hI hC hk ha (hread hk.1.2 h) h3 tail_nothing,
        further_prefix hoff (h4.trans (List.prefix_append _ _))⟩
    · obtain ⟨hoff, q, hq₀, hq₁, hf⟩ := ih'' hk ha e he hn
      refine ⟨by first | omega | (simp only [adv] at hoff; omega), q, hq₀, hq₁, fun w hw => ?_⟩
      obtain ⟨y, h3, h4⟩ := hf w hw
      refine ⟨_, yields_tail hL hX hU hI hC hk ha (hread hk.1.2 h) (hread hk.1.1 h') h3, ?_⟩
      simp only [adv] at hoff
      refine further_prefix (by omega) (further_prefix (n := n) (by omega) ?_)
      simpa only [adv, List.drop_drop, Nat.add_assoc] using h4
  | node_fail hr h ih | node_ok hr h ih =>
    intro hg ha e he hn
    have hq : Part E.refs _ := ⟨_, List.mem_of_getElem? hr, .refl⟩
    obtain ⟨hoff, q, hq₀, hq₁, hf⟩ := ih hq hq e he hn
    refine ⟨by first | omega | (simp only [adv] at hoff; omega), q, hq₀, hq₁, fun w hw => ?_⟩
    obtain ⟨y, ⟨ts, h1⟩, h2⟩ := hf w hw
    exact ⟨y, ⟨_, .node hr h1⟩, h2⟩
  | optional_none h ih | optional_some h ih =>
    intro hg ha e he hn
    have hq := decided_part hg .optional
    obtain ⟨hoff, q, hq₀, hq₁, hf⟩ := ih hq hq e he hn
    refine ⟨by first | omega | (simp only [adv] at hoff; omega), q, hq₀, hq₁, fun w hw => ?_⟩
    obtain ⟨y, ⟨ts, h1⟩, h2⟩ := hf w hw
    exact ⟨y, ⟨ts, .optional_some h1⟩, h2⟩
  | not_ok h | not_fail h => exact fun hg _ => (hpart hg).elim
  | lines h => exact fun hg _ => (hpl _ hg).elim
  | fast_end | fast_miss | fast_hit | fastTail_miss | fastTail_hit | fastTail_next => exact fun hg _ => (hpl _ hg).elim
  | lines_done | lines_fail | lines_stop | lines_more | line_plain | line_shallow | line_deep | line_body | line_align =>
    exact fun hg _ => hg.elim
  | ws_ok | tag_ok | notTag_ok | until_ok | untilWs_ok | text_ok | num_ok | sel_nil | seq_nil =>
    intro _ _ e he
    cases he

end

end Verif.Props
