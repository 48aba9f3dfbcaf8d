import Verif.Proofs.Complete
import Verif.Spec.Fate
/-
What can become of trying a rule: an outcome, a panic, or an endless chain of tries.
-/
namespace Verif
open Spec

/-- The site has an outcome. -/
def Spec.Site.Ends (E : Env) (x : Site) : Prop := ∃ o j tr, Run E x.g x.p x.i o j tr

/-- Trying comes to a panic. -/
inductive Doomed (E : Env) : Site → Prop
  | crash {x} (h : Crash E x) : Doomed E x
  | step {x y} (h : Tries E x y) (h' : Doomed E y) : Doomed E x

theorem doomed_iff {E : Env} {x : Site} : Doomed E x ↔ ∃ y, Reaches E x y ∧ Crash E y := by
  constructor
  · intro h
    induction h with
    | crash h => exact ⟨_, .here, h⟩
    | step h _ ih => obtain ⟨y, h1, h2⟩ := ih; exact ⟨y, .step h h1, h2⟩
  · rintro ⟨y, h, h'⟩
    induction h with
    | here => exact .crash h'
    | step h _ ih => exact .step h (ih h')

/-! ### Sites with an outcome -/

theorem run_acc {E : Env} {g p i o j tr} (h : Run E g p i o j tr) :
    Acc (fun y x => Tries E x y) ⟨g, p, i⟩ := by
  induction h with
  | _ =>
    constructor
    intro y hy
    cases hy <;> first
      | assumption
      | grind [→ Spec.Run.det, → longest_unique, → carries_unique]
      | (constructor; intro z hz; cases hz <;> grind [→ Spec.Run.det])

theorem run_not_crash {E : Env} {g p i o j tr} (h : Run E g p i o j tr) : ¬ Crash E ⟨g, p, i⟩ := by
  intro hc
  cases hc <;> cases h <;> grind [→ longest_unique, → carries_unique]

/-- What a site with an outcome tries has an outcome. -/
theorem run_tries {E : Env} {g p i o j tr} (h : Run E g p i o j tr) {y : Site} (hy : Tries E ⟨g, p, i⟩ y) :
    y.Ends E := by
  unfold Site.Ends
  cases hy <;> cases h <;> first
    | exact ⟨_, _, _, by assumption⟩
    | exact ⟨_, _, _, .sel_nil⟩
    | exact ⟨_, _, _, .rep_stop (by assumption)⟩
    | exact ⟨_, _, _, .rep_more (by assumption) (by assumption)⟩
    | grind [→ Spec.Run.det, → longest_unique, → carries_unique]

/-- A site tries at most one site without an outcome. -/
theorem tries_unique {E : Env} {x y z : Site} (hy : Tries E x y) (hz : Tries E x z) (h : ¬ y.Ends E)
    (h' : ¬ z.Ends E) : y = z := by
  unfold Site.Ends at h h'
  cases hy <;> cases hz <;> first
    | rfl
    | exact absurd ⟨_, _, _, by assumption⟩ h
    | exact absurd ⟨_, _, _, by assumption⟩ h'
    | grind [→ Spec.Run.det, → longest_unique, → carries_unique]

/-- A site that panics tries nothing. -/
theorem crash_tries {E : Env} {x y : Site} (h : Crash E x) (h' : Tries E x y) : False := by
  cases h <;> cases h' <;> grind [→ longest_unique, → carries_unique]

/-! ### Sites from which no panic and no endless chain starts -/

theorem ends_of_good {E : Env} {g : Goal} {p : Pos} {i s oe start} {toks : List Tok} {out : Out} (hd : out.Done)
    (hg : Good E g p i toks s oe start out) : Site.Ends E ⟨g, p, i⟩ := by
  obtain ⟨res, st, rfl⟩ := hd
  cases res with
  | ok => obtain ⟨_, _, _, _, h, _⟩ := hg; exact ⟨_, _, _, h⟩
  | err => obtain ⟨_, _, h, _⟩ := hg; exact ⟨_, _, _, h⟩

theorem acc_ends {E : Env} {x : Site} (h : Acc (fun y x => Tries E x y) x) : ¬ Doomed E x → x.Ends E := by
  induction h with
  | intro x _ ih =>
    intro hd
    have go : ∀ {y}, Tries E x y → y.Ends E := fun {y} hy => ih y hy fun h => hd (.step hy h)
    have nc : ¬ Crash E x := fun h => hd (.crash h)
    clear ih hd
    obtain ⟨g, p, i⟩ := x
    cases g with
    | rule r =>
      cases r with
      | whitespace opt id =>
        exact ends_of_good (done_whitespace _ _ _ _ _) (whitespace_good opt id i [] 0 p (Nat.le_refl _))
      | tag t nt inv prop id =>
        exact ends_of_good (done_tag _ _ _ _ _ _ _ _) (tag_good t nt inv prop id i [] 0 p (Nat.le_refl _))
      | untilAny any opt prop id =>
        exact ends_of_good (done_untilAny _ _ _ _ _ _ _) (untilAny_good any opt prop id i [] 0 p (Nat.le_refl _))
      | untilAnyOrWs any opt prop id =>
        exact ends_of_good (done_untilAnyOrWs _ _ _ _ _ _ _)
          (untilAnyOrWs_good any opt prop id i [] 0 p (Nat.le_refl _))
      | text e prop id =>
        exact ends_of_good (done_text _ _ _ _ _ _ _) (text_good e prop id i [] 0 p (Nat.le_refl _))
      | number prop us id =>
        exact ends_of_good (done_number _ _ _ _ _ _ _) (number_good prop us id i [] 0 p (Nat.le_refl _))
      | select rs id =>
        obtain ⟨o, j, tr, h⟩ := go .select
        cases rs with
        | nil => exact ⟨_, _, _, .select_empty⟩
        | cons r rs => exact ⟨_, _, _, .select h⟩
      | fastSelect tb args tail id =>
        cases hp : p.src with
        | nil => exact ⟨_, _, _, .fast_end hp⟩
        | cons c cs =>
          obtain ⟨b, bs, hb⟩ := utf8_ne_nil c
          by_cases ht : tb b = 255
          · cases tail with
            | false => exact ⟨_, _, _, .fast_miss hp hb ht⟩
            | true =>
              cases hr : args.getLast? with
              | none =>
                rw [List.getLast?_eq_none_iff] at hr
                subst hr
                exact absurd (.last hp hb ht) nc
              | some r =>
                obtain ⟨o, j, tr, h⟩ := go (.fast_miss hp hb ht hr)
                exact ⟨_, _, _, .fastTail_miss hp hb ht hr h⟩
          · cases hr : args[(tb b).toNat]? with
            | none => exact absurd (.table hp hb ht hr) nc
            | some r =>
              obtain ⟨o, j, tr, h⟩ := go (.fast_hit hp hb ht hr)
              cases tail with
              | false => exact ⟨_, _, _, .fast_hit hp hb ht hr h⟩
              | true =>
                cases o with
                | some x => exact ⟨_, _, _, .fastTail_hit hp hb ht hr h⟩
                | none =>
                  cases hr' : args.getLast? with
                  | none =>
                    rw [List.getLast?_eq_none_iff] at hr'
                    subst hr'
                    simp at hr
                  | some r' =>
                    obtain ⟨_, _, _, h'⟩ := go (.fast_next hp hb ht hr h hr')
                    exact ⟨_, _, _, .fastTail_next hp hb ht hr h hr' h'⟩
      | sequence rs id => obtain ⟨o, j, tr, h⟩ := go .sequence; exact ⟨_, _, _, .sequence h⟩
      | separateBy r b opt trail id =>
        obtain ⟨o, j, tr, h⟩ := go .sep
        cases o with
        | none =>
          cases opt with
          | true => exact ⟨_, _, _, .sep_none h⟩
          | false => exact ⟨_, _, _, .sep_fail h⟩
        | some x =>
          obtain ⟨n, ts⟩ := x
          obtain ⟨_, _, _, h'⟩ := go (.sep_next h)
          exact ⟨_, _, _, .sep_first h h'⟩
      | repeat_ r opt id =>
        obtain ⟨o, j, tr, h⟩ := go .repeat_
        cases opt with
        | true => exact ⟨_, _, _, .repeat_opt h⟩
        | false =>
          cases h with
          | rep_stop h => exact ⟨_, _, _, .repeat_fail h⟩
          | rep_more h h' => exact ⟨_, _, _, .repeat_ok h h'⟩
      | lines r ind id => obtain ⟨o, j, tr, h⟩ := go .lines; exact ⟨_, _, _, .lines h⟩
      | node name prop ix id =>
        cases ix with
        | none => exact ⟨_, _, _, .node_unresolved⟩
        | some ix =>
          cases hr : E.refs[ix]? with
          | none => exact absurd (.node hr) nc
          | some r =>
            obtain ⟨o, j, tr, h⟩ := go (.node hr)
            cases o with
            | none => exact ⟨_, _, _, .node_fail hr h⟩
            | some x => exact ⟨_, _, _, .node_ok hr h⟩
      | optional r id =>
        obtain ⟨o, j, tr, h⟩ := go .optional
        cases o with
        | none => exact ⟨_, _, _, .optional_none h⟩
        | some x => exact ⟨_, _, _, .optional_some h⟩
      | not r id =>
        obtain ⟨o, j, tr, h⟩ := go .not
        cases o with
        | none => exact ⟨_, _, _, .not_ok h⟩
        | some x => exact ⟨_, _, _, .not_fail h⟩
    | sel rs =>
      cases rs with
      | nil => exact ⟨_, _, _, .sel_nil⟩
      | cons r rs =>
        obtain ⟨o, j, tr, h⟩ := go .sel
        cases o with
        | some x => exact ⟨_, _, _, .sel_here h⟩
        | none =>
          obtain ⟨_, _, _, h'⟩ := go (.sel_next h)
          exact ⟨_, _, _, .sel_next h h'⟩
    | seq rs =>
      cases rs with
      | nil => exact ⟨_, _, _, .seq_nil⟩
      | cons r rs =>
        obtain ⟨o, j, tr, h⟩ := go .seq
        cases o with
        | none => exact ⟨_, _, _, .seq_fail h⟩
        | some x =>
          obtain ⟨_, _, _, h'⟩ := go (.seq_next h)
          exact ⟨_, _, _, .seq_cons h h'⟩
    | rep r =>
      obtain ⟨o, j, tr, h⟩ := go .rep
      cases o with
      | none => exact ⟨_, _, _, .rep_stop h⟩
      | some x =>
        obtain ⟨_, _, _, h'⟩ := go (.rep_next h)
        exact ⟨_, _, _, .rep_more h h'⟩
    | sepTail r b trail =>
      obtain ⟨o, j, tr, h⟩ := go .tail
      cases o with
      | none => exact ⟨_, _, _, .sep_stop h⟩
      | some x =>
        obtain ⟨o', _, _, h'⟩ := go (.tail_item h)
        cases o' with
        | none =>
          cases trail with
          | true => exact ⟨_, _, _, .sep_trail h h'⟩
          | false => exact ⟨_, _, _, .sep_noTrail h h'⟩
        | some y =>
          obtain ⟨_, _, _, h''⟩ := go (.tail_next h h')
          exact ⟨_, _, _, .sep_more h h' h''⟩
    | lines r ind id first item =>
      cases hn : E.L.lineNext first item p.src with
      | done k => exact ⟨_, _, _, .lines_done hn⟩
      | fail k => exact ⟨_, _, _, .lines_fail hn⟩
      | call k =>
        obtain ⟨o, j, tr, h⟩ := go (.lines_line hn)
        cases o with
        | none => exact ⟨_, _, _, .lines_stop hn h⟩
        | some x =>
          obtain ⟨_, _, _, h'⟩ := go (.lines_next hn h)
          exact ⟨_, _, _, .lines_more hn h h'⟩
    | line r ind first =>
      cases ind with
      | false => obtain ⟨o, j, tr, h⟩ := go .line_plain; exact ⟨_, _, _, .line_plain h⟩
      | true =>
        by_cases hc : ∃ k, Carries E.tab i p.src k
        · obtain ⟨k, hc⟩ := hc
          by_cases ha : first = true ∧ E.align = true
          · obtain ⟨rfl, ha⟩ := ha
            obtain ⟨hm, -⟩ := eatAlign_spec E.tab (p.src.drop k)
            by_cases hi : i + width E.tab ((p.src.drop k).take (eatAlign E.tab (p.src.drop k)).1) + 1 < 2 ^ 32
            · obtain ⟨_, _, _, h⟩ := go (.line_align ha hc hm hi)
              exact ⟨_, _, _, .line_align ha hc hm hi h⟩
            · exact absurd (.align ha hc hm hi) nc
          · by_cases hd : (p.src.drop k).head? = some ' '
            · exact ⟨_, _, _, .line_deep ha hc hd⟩
            · by_cases hi : i + 1 < 2 ^ 32
              · obtain ⟨_, _, _, h⟩ := go (.line_body ha hc hd hi)
                exact ⟨_, _, _, .line_body ha hc hd hi h⟩
              · exact absurd (.line ha hc hd hi) nc
        · exact ⟨_, _, _, .line_shallow hc⟩

end Verif
