import Verif.Spec.LeaveOut
import Verif.Proofs.Dead
import Verif.Props.Change
import Verif.Props.Termination
/-
Alternatives that never match may be left out.
-/
namespace Verif.Props
open Spec

section
variable {T : Nat → Bool}

theorem leaveOutAll_map : ∀ rs : List Rule, leaveOutAll T rs = rs.map (leaveOut T)
  | [] => rfl
  | r :: rs => by simp [leaveOutAll, leaveOutAll_map rs]

theorem leaveOutOf_map : ∀ rs : List Rule, leaveOutOf T rs = (rs.filter (canMatch T)).map (leaveOut T)
  | [] => rfl
  | r :: rs => by
    unfold leaveOutOf
    cases h : canMatch T r <;> simp [h, leaveOutOf_map rs]

theorem canMatch_less {U : Nat → Bool} (hU : ∀ i, U i = true → T i = true) {r : Rule} (h : canMatch T r = false) : canMatch U r = false := by
  cases h' : canMatch U r with
  | false => rfl
  | true => rw [canMatch_mono hU r h'] at h; cases h

section
variable {U : Nat → Bool} (hU : ∀ i, U i = true → T i = true)
include hU

mutual
/-- What may match is the same. -/
theorem canMatch_leaveOut' : ∀ r : Rule, canMatch U (leaveOut T r) = canMatch U r
  | .select rs _ => by simp [leaveOut, canMatch, canMatchOf_leaveOutOf rs]
  | .fastSelect _ rs _ _ => by simp [leaveOut, canMatch, canMatchOf_leaveOutAll rs]
  | .sequence rs _ => by simp [leaveOut, canMatch, canMatchAll_leaveOutAll rs]
  | .separateBy r b _ _ _ => by simp [leaveOut, canMatch, canMatch_leaveOut' r]
  | .repeat_ r _ _ => by simp [leaveOut, canMatch, canMatch_leaveOut' r]
  | .lines r _ _ => by simp [leaveOut, canMatch]
  | .optional r _ => by simp [leaveOut, canMatch]
  | .not r _ => by simp [leaveOut, canMatch]
  | .node _ _ _ _ => by simp [leaveOut]
  | .whitespace _ _ => by simp [leaveOut]
  | .tag _ _ _ _ _ => by simp [leaveOut]
  | .untilAny _ _ _ _ => by simp [leaveOut]
  | .untilAnyOrWs _ _ _ _ => by simp [leaveOut]
  | .text _ _ _ => by simp [leaveOut]
  | .number _ _ _ => by simp [leaveOut]
theorem canMatchAll_leaveOutAll : ∀ rs : List Rule, canMatchAll U (leaveOutAll T rs) = canMatchAll U rs
  | [] => rfl
  | r :: rs => by simp [leaveOutAll, canMatchAll, canMatch_leaveOut' r, canMatchAll_leaveOutAll rs]
theorem canMatchOf_leaveOutAll : ∀ rs : List Rule, canMatchOf U (leaveOutAll T rs) = canMatchOf U rs
  | [] => rfl
  | r :: rs => by simp [leaveOutAll, canMatchOf, canMatch_leaveOut' r, canMatchOf_leaveOutAll rs]
theorem canMatchOf_leaveOutOf : ∀ rs : List Rule, canMatchOf U (leaveOutOf T rs) = canMatchOf U rs
  | [] => rfl
  | r :: rs => by
    unfold leaveOutOf
    cases h : canMatch T r with
    | true => simp [canMatchOf, canMatch_leaveOut' r, canMatchOf_leaveOutOf rs]
    | false => simp [canMatchOf, canMatch_less hU h, canMatchOf_leaveOutOf rs]
end

end

theorem canMatch_leaveOut (r : Rule) : canMatch T (leaveOut T r) = canMatch T r := canMatch_leaveOut' (fun _ h => h) r

theorem leaveOutOf_filter (rs : List Rule) : leaveOutOf T rs = (leaveOutAll T rs).filter (canMatch T) := by
  rw [leaveOutOf_map, leaveOutAll_map, List.filter_map]
  congr 2
  funext r
  exact (canMatch_leaveOut r).symm

/-- The parts are parts without alternatives that never match. -/
theorem child_leaveOut {c r : Rule} (h : Child c (leaveOut T r)) : ∃ d, c = leaveOut T d ∧ Child d r := by
  cases r <;> simp only [leaveOut, leaveOutAll_map, leaveOutOf_map] at h <;> cases h
  case select.select h =>
    obtain ⟨d, hd, rfl⟩ := List.mem_map.1 h
    exact ⟨d, rfl, .select (List.mem_filter.1 hd).1⟩
  case fastSelect.fast h =>
    obtain ⟨d, hd, rfl⟩ := List.mem_map.1 h
    exact ⟨d, rfl, .fast hd⟩
  case sequence.sequence h =>
    obtain ⟨d, hd, rfl⟩ := List.mem_map.1 h
    exact ⟨d, rfl, .sequence hd⟩
  case separateBy.item => exact ⟨_, rfl, .item⟩
  case separateBy.sep => exact ⟨_, rfl, .sep⟩
  case repeat_.repeat_ => exact ⟨_, rfl, .repeat_⟩
  case lines.lines => exact ⟨_, rfl, .lines⟩
  case optional.optional => exact ⟨_, rfl, .optional⟩
  case not.not => exact ⟨_, rfl, .not⟩

theorem occurs_leaveOut {x s : Rule} (h : Occurs x s) : ∀ {r}, s = leaveOut T r → ∃ y, x = leaveOut T y ∧ Occurs y r := by
  induction h with
  | refl => exact fun he => ⟨_, he, .refl⟩
  | step h hc ih =>
    rintro r rfl
    obtain ⟨d, hd, hc⟩ := child_leaveOut hc
    obtain ⟨y, hy, ho⟩ := ih hd
    exact ⟨y, hy, .step ho hc⟩

theorem flat_leaveOut {r : Rule} (h : Flat r) : Flat (leaveOut T r) := by
  intro x id ho
  obtain ⟨y, hy, ho⟩ := occurs_leaveOut ho rfl
  cases y <;> simp only [leaveOut] at hy <;> cases hy
  exact h _ _ ho

section
variable {E : Env}

/-- Alternatives that never match may be left out, if no indentation is left behind. -/
theorem sel_filter (hT : ∀ i q, E.refs[i]? = some q → canMatch T q = true → T i = true) (hn : NoIndent E.refs) {p o j tr} :
    ∀ {rs : List Rule} {i}, (∀ r ∈ rs, Flat r) → Run E (.sel rs) p i o j tr → Does E (.sel (rs.filter (canMatch T))) p i o j := by
  intro rs i hf h
  generalize hg : Goal.sel rs = g at h
  induction h generalizing rs with
  | sel_nil => cases hg; exact ⟨_, .sel_nil⟩
  | sel_here h =>
    cases hg
    have hm : canMatch T _ = true := run_canMatch hT h rfl
    rw [List.filter_cons_of_pos hm]
    exact ⟨_, .sel_here h⟩
  | sel_next h h' _ ih =>
    cases hg
    obtain ⟨tr', h2⟩ := ih (fun r hr => hf r (by simp [hr])) rfl
    cases run_flat hn (hf _ (by simp)) h
    rw [List.filter_cons]
    split
    · exact ⟨_, .sel_next h h2⟩
    · exact ⟨_, h2⟩
  | _ => cases hg

/-- They may be put in again, if they always return. -/
theorem sel_unfilter (hT : ∀ i q, E.refs[i]? = some q → canMatch T q = true → T i = true) (hn : NoIndent E.refs) {p o j} :
    ∀ {rs : List Rule} {i}, (∀ r ∈ rs, Flat r ∧ ∀ i, Has E (.rule r) p i) → Does E (.sel (rs.filter (canMatch T))) p i o j →
      Does E (.sel rs) p i o j := by
  intro rs
  induction rs with
  | nil => exact fun _ h => h
  | cons r rs ih =>
    intro i hf h
    have hf' : ∀ r ∈ rs, Flat r ∧ ∀ i, Has E (.rule r) p i := fun r hr => hf r (by simp [hr])
    cases hm : canMatch T r with
    | true =>
      rw [List.filter_cons_of_pos hm] at h
      obtain ⟨tr, h⟩ := h
      cases h with
      | sel_here h => exact ⟨_, .sel_here h⟩
      | sel_next h h' =>
        obtain ⟨_, h2⟩ := ih hf' ⟨_, h'⟩
        exact ⟨_, .sel_next h h2⟩
    | false =>
      rw [List.filter_cons_of_neg (by simp [hm])] at h
      obtain ⟨_, h2⟩ := ih hf' h
      obtain ⟨h3, h4⟩ := hf r (by simp)
      obtain ⟨o', j', tr', h5⟩ := h4 i
      cases o' with
      | some x =>
        have : canMatch T r = true := run_canMatch hT h5 rfl
        rw [hm] at this
        cases this
      | none =>
        cases run_flat hn h3 h5
        exact ⟨_, .sel_next h5 h2⟩

theorem select_sel {rs : List Rule} {id : DebugId} {p i o j} : Does E (.rule (.select rs id)) p i o j ↔ Does E (.sel rs) p i o j := by
  cases rs with
  | cons r rs => exact sel_does
  | nil =>
    constructor
    · rintro ⟨_, h⟩
      cases h
      exact ⟨_, .sel_nil⟩
    · rintro ⟨_, h⟩
      cases h
      exact ⟨_, .select_empty⟩

end

/-- One step of leaving out. -/
def Fewer (T : Nat → Bool) (r r' : Rule) : Prop := ∃ rs id, (∀ x ∈ rs, Flat x) ∧ r = .select rs id ∧ r' = .select (rs.filter (canMatch T)) id

/-- One step of putting in again. -/
def More (T : Nat → Bool) (refs : List Rule) (r r' : Rule) : Prop := ∃ rs id, Part refs (.select rs id) ∧ r = .select (rs.filter (canMatch T)) id ∧ r' = .select rs id

mutual
theorem change_fewer : ∀ r : Rule, Flat r → Change (Fewer T) r (leaveOut T r)
  | .select rs id, h => by
    have hf : ∀ x ∈ rs, Flat x := fun x hx => flat_child h (.select hx)
    refine .law (.select (change_fewerL rs hf)) ⟨_, id, ?_, rfl, ?_⟩
    · intro x hx
      rw [leaveOutAll_map] at hx
      obtain ⟨y, hy, rfl⟩ := List.mem_map.1 hx
      exact flat_leaveOut (hf y hy)
    · simp [leaveOut, leaveOutOf_filter]
  | .fastSelect _ rs _ _, h => by unfold leaveOut; exact .fastSelect (change_fewerL rs fun x hx => flat_child h (.fast hx))
  | .sequence rs _, h => by unfold leaveOut; exact .sequence (change_fewerL rs fun x hx => flat_child h (.sequence hx))
  | .separateBy r b _ _ _, h => by unfold leaveOut; exact .separateBy (change_fewer r (flat_child h .item)) (change_fewer b (flat_child h .sep))
  | .repeat_ r _ _, h => by unfold leaveOut; exact .repeat_ (change_fewer r (flat_child h .repeat_))
  | .lines r _ _, h => by unfold leaveOut; exact .lines (change_fewer r (flat_child h .lines))
  | .optional r _, h => by unfold leaveOut; exact .optional (change_fewer r (flat_child h .optional))
  | .not r _, h => by unfold leaveOut; exact .not (change_fewer r (flat_child h .not))
  | .node _ _ _ _, _ => by unfold leaveOut; exact .keep
  | .whitespace _ _, _ => by unfold leaveOut; exact .keep
  | .tag _ _ _ _ _, _ => by unfold leaveOut; exact .keep
  | .untilAny _ _ _ _, _ => by unfold leaveOut; exact .keep
  | .untilAnyOrWs _ _ _ _, _ => by unfold leaveOut; exact .keep
  | .text _ _ _, _ => by unfold leaveOut; exact .keep
  | .number _ _ _, _ => by unfold leaveOut; exact .keep
theorem change_fewerL : ∀ rs : List Rule, (∀ r ∈ rs, Flat r) → ChangeL (Fewer T) rs (leaveOutAll T rs)
  | [], _ => by unfold leaveOutAll; exact .nil
  | r :: rs, h => by unfold leaveOutAll; exact .cons (change_fewer r (h r (by simp))) (change_fewerL rs fun x hx => h x (by simp [hx]))
end

variable {refs : List Rule}

mutual
theorem change_more : ∀ r : Rule, Part refs r → Change (More T refs) (leaveOut T r) r
  | .select rs id, h => by
    unfold leaveOut
    exact .law (.select (change_moreOf rs fun x hx => decided_part h (.select hx))) ⟨rs, id, h, rfl, rfl⟩
  | .fastSelect _ rs _ _, h => by unfold leaveOut; exact .fastSelect (change_moreL rs fun x hx => decided_part h (.fast hx))
  | .sequence rs _, h => by unfold leaveOut; exact .sequence (change_moreL rs fun x hx => decided_part h (.sequence hx))
  | .separateBy r b _ _ _, h => by unfold leaveOut; exact .separateBy (change_more r (decided_part h .item)) (change_more b (decided_part h .sep))
  | .repeat_ r _ _, h => by unfold leaveOut; exact .repeat_ (change_more r (decided_part h .repeat_))
  | .lines r _ _, h => by unfold leaveOut; exact .lines (change_more r (decided_part h .lines))
  | .optional r _, h => by unfold leaveOut; exact .optional (change_more r (decided_part h .optional))
  | .not r _, h => by unfold leaveOut; exact .not (change_more r (decided_part h .not))
  | .node _ _ _ _, _ => by unfold leaveOut; exact .keep
  | .whitespace _ _, _ => by unfold leaveOut; exact .keep
  | .tag _ _ _ _ _, _ => by unfold leaveOut; exact .keep
  | .untilAny _ _ _ _, _ => by unfold leaveOut; exact .keep
  | .untilAnyOrWs _ _ _ _, _ => by unfold leaveOut; exact .keep
  | .text _ _ _, _ => by unfold leaveOut; exact .keep
  | .number _ _ _, _ => by unfold leaveOut; exact .keep
theorem change_moreL : ∀ rs : List Rule, (∀ r ∈ rs, Part refs r) → ChangeL (More T refs) (leaveOutAll T rs) rs
  | [], _ => by unfold leaveOutAll; exact .nil
  | r :: rs, h => by unfold leaveOutAll; exact .cons (change_more r (h r (by simp))) (change_moreL rs fun x hx => h x (by simp [hx]))
theorem change_moreOf : ∀ rs : List Rule, (∀ r ∈ rs, Part refs r) → ChangeL (More T refs) (leaveOutOf T rs) (rs.filter (canMatch T))
  | [], _ => by unfold leaveOutOf; exact .nil
  | r :: rs, h => by
    unfold leaveOutOf
    have h' : ∀ x ∈ rs, Part refs x := fun x hx => h x (by simp [hx])
    cases hm : canMatch T r with
    | true =>
      rw [List.filter_cons_of_pos hm]
      exact .cons (change_more r (h r (by simp))) (change_moreOf rs h')
    | false =>
      rw [List.filter_cons_of_neg (by simp [hm])]
      exact change_moreOf rs h'
end

mutual
theorem leaveOut_again : ∀ r : Rule, leaveOut T (leaveOut T r) = leaveOut T r
  | .select rs _ => by simp [leaveOut, leaveOutOf_again rs]
  | .fastSelect _ rs _ _ => by simp [leaveOut, leaveOutAll_again rs]
  | .sequence rs _ => by simp [leaveOut, leaveOutAll_again rs]
  | .separateBy r b _ _ _ => by simp [leaveOut, leaveOut_again r, leaveOut_again b]
  | .repeat_ r _ _ => by simp [leaveOut, leaveOut_again r]
  | .lines r _ _ => by simp [leaveOut, leaveOut_again r]
  | .optional r _ => by simp [leaveOut, leaveOut_again r]
  | .not r _ => by simp [leaveOut, leaveOut_again r]
  | .node _ _ _ _ => by simp [leaveOut]
  | .whitespace _ _ => by simp [leaveOut]
  | .tag _ _ _ _ _ => by simp [leaveOut]
  | .untilAny _ _ _ _ => by simp [leaveOut]
  | .untilAnyOrWs _ _ _ _ => by simp [leaveOut]
  | .text _ _ _ => by simp [leaveOut]
  | .number _ _ _ => by simp [leaveOut]
theorem leaveOutAll_again : ∀ rs : List Rule, leaveOutAll T (leaveOutAll T rs) = leaveOutAll T rs
  | [] => rfl
  | r :: rs => by simp [leaveOutAll, leaveOut_again r, leaveOutAll_again rs]
theorem leaveOutOf_again : ∀ rs : List Rule, leaveOutOf T (leaveOutOf T rs) = leaveOutOf T rs
  | [] => rfl
  | r :: rs => by
    cases h : canMatch T r with
    | true => simp [leaveOutOf, h, canMatch_leaveOut, leaveOut_again r, leaveOutOf_again rs]
    | false => simp [leaveOutOf, h, leaveOutOf_again rs]
end

theorem matchAt_le {k m : Nat} (h : k ≤ m) {i : Nat} (hi : textAt (findMatches refs k) i = true) : textAt (findMatches refs m) i = true := by
  induction h with
  | refl => exact hi
  | step _ ih => exact matchAt_grows _ i ih

/-- The same rules may match. -/
theorem findMatches_withoutDead (syn : Syntax) : ∀ k ≤ syn.rules.length, findMatches (withoutDead syn).rules k = findMatches syn.rules k
  | 0, _ => by simp [findMatches, withoutDead, leaveOutAll_map, Function.comp_def]
  | k + 1, hk => by
    rw [findMatches, findMatches, findMatches_withoutDead syn k (by omega)]
    simp only [withoutDead, leaveOutAll_map, List.map_map]
    refine List.map_congr_left fun r _ => ?_
    exact canMatch_leaveOut' (fun i hi => matchAt_le (by omega) hi) r

theorem withoutDead_length (syn : Syntax) : (withoutDead syn).rules.length = syn.rules.length := by simp [withoutDead, leaveOutAll_map]

theorem noIndent_withoutDead {syn : Syntax} (h : NoIndent syn.rules) : NoIndent (withoutDead syn).rules := by
  intro q hq
  simp only [withoutDead, leaveOutAll_map] at hq
  obtain ⟨r, hr, rfl⟩ := List.mem_map.1 hq
  exact flat_leaveOut (h r hr)

end

end Verif.Props
