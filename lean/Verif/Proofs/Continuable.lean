import Verif.Spec.Continuable
import Verif.Proofs.PredictableSteps
import Verif.Proofs.Viable
/-
The check for continued texts means the conditions.
-/
namespace Verif
open Spec Props

section
variable {L : Lexer} {A : List Char} {nums : Bool → List Char} {ends : List Char} {F : Nat → Found} {G : Nat → List (Option Char)} {o : Char}

/-- What may follow a number, as far as it can be told. -/
def keyEnds (A : List Char) (ends : List Char) (c : Char) : Prop := keyOf A c ∉ ends.map (keyOf A)

theorem keyEnds_ends {c : Char} (h : keyEnds A ends c) : c ∉ ends := fun hc => h (List.mem_map.2 ⟨c, hc, rfl⟩)

theorem keyEnds_numbers {us : Bool} (h : NumbersEnd L (fun c => c ∉ ends) us) : NumbersEnd L (keyEnds A ends) us := by
  intro s n hn t ht
  refine h s n hn t ?_
  rcases ht with rfl | ⟨c, t', rfl, hc⟩
  · exact .inl rfl
  · exact .inr ⟨c, t', rfl, keyEnds_ends hc⟩

mutual
theorem beyondOf_keys (hA : Separated A nums) (hn : NumbersBegin L nums) (c : Char) : ∀ (r : Rule), (∀ c ∈ charsOf r, c ∈ A) →
    (afterOf L (keyEnds A ends) (fun i => (F i).mark A) (fun i c => keyOf A c ∈ G i) r c ↔ keyOf A c ∈ beyondOf A nums ends F G r)
  | .whitespace _ _, _ => by
    unfold afterOf beyondOf
    rw [keyOf_map hA.ws, mem_wsChars]
  | .tag _ _ _ _ _, _ => by simp [afterOf, beyondOf]
  | .untilAny any _ _ _, h => by
    unfold afterOf beyondOf
    simp only [charsOf, asksFor] at h
    simp only [List.mem_filter, keyOf_all, true_and, Bool.not_eq_true', List.contains_eq_mem, decide_eq_false_iff_not, keyOf_map h]
  | .untilAnyOrWs any _ _ _, h => by
    unfold afterOf beyondOf
    simp only [charsOf, asksFor] at h
    simp only [List.mem_filter, keyOf_all, true_and, Bool.not_eq_true', List.contains_eq_mem, decide_eq_false_iff_not, keyOf_map h,
      keyOf_map hA.ws, mem_wsChars, Bool.and_eq_true, Bool.not_eq_true]
  | .text _ _ _, _ => by simp [afterOf, beyondOf]
  | .number _ _ _, _ => by
    unfold afterOf beyondOf
    simp only [keyEnds, Classical.not_not]
  | .node _ _ none _, _ => by simp [afterOf, beyondOf]
  | .node _ _ (some i) _, _ => by simp [afterOf, beyondOf]
  | .select rs _, h => by
    unfold afterOf beyondOf
    exact beyondSelect_keys hA hn c rs h
  | .fastSelect _ _ _ _, _ => by simp [afterOf, beyondOf]
  | .sequence rs _, h => by
    unfold afterOf beyondOf
    exact beyondSequence_keys hA hn c rs h
  | .separateBy r b opt trail _, h => by
    unfold afterOf beyondOf
    simp only [charsOf, List.mem_append] at h
    have hr : ∀ c ∈ charsOf r, c ∈ A := fun c hc => h c (.inl hc)
    have hb : ∀ c ∈ charsOf b, c ∈ A := fun c hc => h c (.inr hc)
    rw [beyondOf_keys hA hn c r hr, beyondOf_keys hA hn c b hb]
    simp only [mem_joinKeys, mem_keysIf]
  | .repeat_ r _ _, h => by
    unfold afterOf beyondOf
    exact beyondOf_keys hA hn c r h
  | .lines _ _ _, _ => by simp [afterOf, beyondOf]
  | .optional r _, h => by
    unfold afterOf beyondOf
    exact beyondOf_keys hA hn c r h
  | .not _ _, _ => by simp [afterOf, beyondOf]
theorem beyondSequence_keys (hA : Separated A nums) (hn : NumbersBegin L nums) (c : Char) : ∀ (rs : List Rule), (∀ c ∈ charsOfAll rs, c ∈ A) →
    (afterSequence L (keyEnds A ends) (fun i => (F i).mark A) (fun i c => keyOf A c ∈ G i) rs c ↔
      keyOf A c ∈ beyondSequence A nums ends F G rs)
  | [], _ => by simp [afterSequence, beyondSequence]
  | r :: rs, h => by
    unfold afterSequence beyondSequence
    simp only [charsOfAll, List.mem_append] at h
    have hr : ∀ c ∈ charsOf r, c ∈ A := fun c hc => h c (.inl hc)
    have hb : ∀ c ∈ charsOfAll rs, c ∈ A := fun c hc => h c (.inr hc)
    rw [beyondOf_keys hA hn c r hr, beyondSequence_keys hA hn c rs hb, markSequence_mark hA hn rs hb, mem_joinKeys, mem_keysIf]
    rfl
theorem beyondSelect_keys (hA : Separated A nums) (hn : NumbersBegin L nums) (c : Char) : ∀ (rs : List Rule), (∀ c ∈ charsOfAll rs, c ∈ A) →
    (afterSelect L (keyEnds A ends) (fun i => (F i).mark A) (fun i c => keyOf A c ∈ G i) rs c ↔
      keyOf A c ∈ beyondSelect A nums ends F G rs)
  | [], _ => by simp [afterSelect, beyondSelect]
  | r :: rs, h => by
    unfold afterSelect beyondSelect
    simp only [charsOfAll, List.mem_append] at h
    have hr : ∀ c ∈ charsOf r, c ∈ A := fun c hc => h c (.inl hc)
    have hb : ∀ c ∈ charsOfAll rs, c ∈ A := fun c hc => h c (.inr hc)
    rw [beyondOf_keys hA hn c r hr, beyondSelect_keys hA hn c rs hb, mem_joinKeys]
end

theorem beyondOf_eq (hA : Separated A nums) (hn : NumbersBegin L nums) (r : Rule) (h : ∀ c ∈ charsOf r, c ∈ A) :
    afterOf L (keyEnds A ends) (fun i => (F i).mark A) (fun i c => keyOf A c ∈ G i) r = fun c => keyOf A c ∈ beyondOf A nums ends F G r :=
  funext fun c => propext (beyondOf_keys hA hn c r h)

theorem freeSequence_iff (hA : Separated A nums) (hn : NumbersBegin L nums) (ho : o ∉ A) : ∀ {rs : List Rule}, (∀ c ∈ charsOfAll rs, c ∈ A) →
    (freeSequence A nums ends F G rs = true ↔
      SetApartSequence L (keyEnds A ends) (fun i => (F i).mark A) (fun i c => keyOf A c ∈ G i) rs)
  | [], _ => by simp [freeSequence, SetApartSequence]
  | r :: rs, h => by
    simp only [charsOfAll, List.mem_append] at h
    have hr : ∀ c ∈ charsOf r, c ∈ A := fun c hc => h c (.inl hc)
    have hs : ∀ c ∈ charsOfAll rs, c ∈ A := fun c hc => h c (.inr hc)
    unfold freeSequence SetApartSequence
    rw [Bool.and_eq_true, noKey_iff ho, freeSequence_iff hA hn ho hs, markSequence_mark hA hn rs hs, beyondOf_eq hA hn r hr]
    rfl

theorem free_iff (hA : Separated A nums) (hn : NumbersBegin L nums) (hS : NumbersStop L ends) (ho : o ∉ A) {r : Rule}
    (h : ∀ c ∈ charsOf r, c ∈ A) :
    free A nums ends F G r = true ↔ SetApart L (keyEnds A ends) (fun i => (F i).mark A) (fun i c => keyOf A c ∈ G i) r := by
  cases r with
  | sequence rs id => exact freeSequence_iff hA hn ho h
  | separateBy r b opt trail id =>
    simp only [charsOf, List.mem_append] at h
    have hr : ∀ c ∈ charsOf r, c ∈ A := fun c hc => h c (.inl hc)
    have hb : ∀ c ∈ charsOf b, c ∈ A := fun c hc => h c (.inr hc)
    simp only [free, SetApart]
    rw [markOf_mark hA hn r hr, markOf_mark hA hn b hb, beyondOf_eq hA hn r hr, beyondOf_eq hA hn b hb]
    simp only [Bool.and_eq_true, noKey_iff ho]
    rfl
  | repeat_ r opt id =>
    simp only [free, SetApart]
    rw [markOf_mark hA hn r h, beyondOf_eq hA hn r h, noKey_iff ho]
    rfl
  | number prop us id => simp [free, SetApart, keyEnds_numbers (hS us).1]
  | _ => simp [free, SetApart]

end

section
variable {L : Lexer} {nums : Bool → List Char} {ends : List Char} {refs : List Rule} {o : Char}

theorem someTextAll_mem {T : Nat → Bool} : ∀ {rs : List Rule}, someTextAll T rs = true ↔ ∀ r ∈ rs, someText T r = true
  | [] => by simp [someTextAll]
  | r :: rs => by simp [someTextAll, someTextAll_mem (rs := rs)]

theorem someTextOf_mem {T : Nat → Bool} : ∀ {rs : List Rule}, someTextOf T rs = true ↔ ∃ r ∈ rs, someText T r = true
  | [] => by simp [someTextOf]
  | r :: rs => by simp [someTextOf, someTextOf_mem (rs := rs)]

/-- The part of the check about texts that must not follow. -/
theorem continues_of_check (hn : NumbersBegin L nums) (hS : NumbersStop L ends) (ho : o ∉ alphabet nums refs) {ms : List Found}
    {gs : List (List (Option Char))} {k : Nat} (h : confirmsContinues nums ends refs ms gs k = true) :
    Continues L (keyEnds (alphabet nums refs) ends) (fun i => (foundAt ms i).mark (alphabet nums refs))
      (fun i c => keyOf (alphabet nums refs) c ∈ furtherAt gs i) refs := by
  simp only [confirmsContinues, Bool.and_eq_true, beq_iff_eq] at h
  obtain ⟨⟨⟨hl, h2⟩, h3⟩, -⟩ := h
  rw [zip_all hl] at h2
  rw [everyPartOf_iff] at h3
  refine ⟨fun x hx => (free_iff alphabet_separated hn hS ho (charsOf_part hx)).1 (h3 x hx), fun i q hq c => ?_⟩
  have hi : i < gs.length := by rw [hl]; exact (List.getElem?_eq_some_iff.1 hq).1
  rw [beyondOf_keys alphabet_separated hn c q (charsOf_part (part_self hq))]
  have := (hasKeys_iff ho).1 (h2 i gs[i] q (by simp [hi]) hq) c
  simpa [furtherAt, hi] using this

theorem textAt_succ {k i : Nat} (h : textAt (findTexts refs (k + 1)) i = true) :
    ∃ q, refs[i]? = some q ∧ someText (textAt (findTexts refs k)) q = true := by
  simp only [textAt, findTexts, List.getElem?_map] at h
  cases hq : refs[i]? with
  | none => simp [hq] at h
  | some q => exact ⟨q, rfl, by simpa [hq] using h⟩

end

section
variable {E : Env} {M : Nat → Mark} {N A : Nat → Char → Prop} {K : Char → Prop} {I : Nat}
  {nums : Bool → List Char} {ends : List Char} {o : Char}
variable (hL : E.L.Lawful) (hX : E.L.Exact) (hU : LL1 E.L M N E.refs) (hI : ∀ i, (M i).idle ≤ I) (hC : Continues E.L K M A E.refs)
  (hS : NumbersStop E.L ends) (ho : o ∉ alphabet nums E.refs)
include hL hX hU hI hC hS ho

mutual
theorem someText_yields {T : Nat → Bool} (hT : ∀ i, T i = true → ∃ q, E.refs[i]? = some q ∧ ∃ y, Yields E (.rule q) y) :
    ∀ (r : Rule), Part E.refs r → someText T r = true → ∃ y, Yields E (.rule r) y
  | .whitespace opt id, _, _ => ⟨[' '], [], .token (i := 0) trivial (.ws_ok ⟨by simp, by decide, by simp⟩ (by simp))⟩
  | .tag t neg inv prop id, _, h => by
    simp only [someText, Bool.not_eq_true'] at h
    subst h
    exact ⟨t, _, .token (i := 0) trivial (.tag_ok (List.prefix_refl _))⟩
  | .untilAny any opt prop id, hr, _ => by
    refine ⟨[o], _, .token (i := 0) trivial (.until_ok (n := 1) ⟨by simp, ?_, by simp⟩ (by simp))⟩
    intro c hc
    simp only [List.take_succ_cons, List.take_zero, List.mem_singleton] at hc
    subst hc
    exact fun h => ho (charsOf_part (nums := nums) hr _ (by simpa [charsOf, asksFor] using h))
  | .untilAnyOrWs any opt prop id, hr, _ => by
    refine ⟨[o], _, .token (i := 0) trivial (.untilWs_ok (n := 1) ⟨by simp, ?_, by simp⟩ (by simp))⟩
    intro c hc
    simp only [List.take_succ_cons, List.take_zero, List.mem_singleton] at hc
    subst hc
    refine ⟨fun h => ho (charsOf_part (nums := nums) hr _ (by simpa [charsOf, asksFor] using h)), ?_⟩
    cases hw : isWs c with
    | false => rfl
    | true => exact absurd (alphabet_separated.ws _ (mem_wsChars.2 hw)) ho
  | .text empty prop id, hr, _ => by
    have h := hL.str_items [.newline] []
    exact ⟨_, yields_of_generates hL hX hU hI hC hr (.token (p := ⟨_, 0⟩) (i := 0) trivial (.text_ok h.1 (by intro h; simp [StrItem.text] at h) h.2))⟩
  | .number prop us id, hr, _ => by
    obtain ⟨-, s, n, v, h1, h2⟩ := hS us
    exact ⟨_, yields_of_generates hL hX hU hI hC hr (.token (p := ⟨s, 0⟩) (i := 0) trivial (.num_ok h1 h2))⟩
  | .node name prop (some i) id, hr, h => by
    obtain ⟨q, hq, y, ts, hy⟩ := hT i h
    exact ⟨y, _, .node hq hy⟩
  | .select rs id, hr, h => by
    obtain ⟨r, h1, y, ts, h2⟩ := someTextOf_yields hT rs (fun r h => decided_part hr (.select h)) h
    exact ⟨y, _, .select h1 h2⟩
  | .sequence rs id, hr, h => by
    obtain ⟨y, ts, h1⟩ := someTextAll_yields hT rs (ok_sequence hU hr) (hC.apart _ hr) (fun r h => decided_part hr (.sequence h)) h
    exact ⟨y, _, .sequence h1⟩
  | .separateBy r b opt trail id, hr, h => by
    cases opt with
    | true => exact ⟨[], _, .sep_none⟩
    | false =>
      obtain ⟨y, ts, h1⟩ := someText_yields hT r (decided_part hr .item) (by simpa [someText] using h)
      exact ⟨_, yields_of_generates hL hX hU hI hC hr (.sep_some h1 .tail_nil)⟩
  | .repeat_ r opt id, hr, h => by
    cases opt with
    | true => exact ⟨[], _, .repeat_any .rep_nil⟩
    | false =>
      obtain ⟨y, ts, h1⟩ := someText_yields hT r (decided_part hr .repeat_) (by simpa [someText] using h)
      exact ⟨_, yields_of_generates hL hX hU hI hC hr (.repeat_some h1 .rep_nil)⟩
  | .optional r id, hr, h => ⟨[], _, .optional_none⟩
  | .node _ _ none _, _, h => by simp [someText] at h
  | .fastSelect _ _ _ _, _, h => by simp [someText] at h
  | .lines _ _ _, _, h => by simp [someText] at h
  | .not _ _, _, h => by simp [someText] at h
theorem someTextAll_yields {T : Nat → Bool} (hT : ∀ i, T i = true → ∃ q, E.refs[i]? = some q ∧ ∃ y, Yields E (.rule q) y) :
    ∀ (rs : List Rule), GoalOk E M N (.seq rs) → SetApartSequence E.L K M A rs → (∀ r ∈ rs, Part E.refs r) → someTextAll T rs = true →
      ∃ y, Yields E (.seq rs) y
  | [], _, _, _, _ => ⟨[], [], .seq_nil⟩
  | r :: rs, hg, ha, hp, h => by
    simp only [someTextAll, Bool.and_eq_true] at h
    obtain ⟨x, hx⟩ := someText_yields hT r (hp r (by simp)) h.1
    obtain ⟨y, hy⟩ := someTextAll_yields hT rs (ok_cons hg).2.1 ha.2 (fun r hr => hp r (by simp [hr])) h.2
    exact ⟨_, yields_cons hL hX hU hI hC hg ha hx hy⟩
theorem someTextOf_yields {T : Nat → Bool} (hT : ∀ i, T i = true → ∃ q, E.refs[i]? = some q ∧ ∃ y, Yields E (.rule q) y) :
    ∀ (rs : List Rule), (∀ r ∈ rs, Part E.refs r) → someTextOf T rs = true → ∃ r ∈ rs, ∃ y, Yields E (.rule r) y
  | [], _, h => by simp [someTextOf] at h
  | r :: rs, hp, h => by
    simp only [someTextOf, Bool.or_eq_true] at h
    rcases h with h | h
    · exact ⟨r, by simp, someText_yields hT r (hp r (by simp)) h⟩
    · obtain ⟨q, h1, h2⟩ := someTextOf_yields hT rs (fun r hr => hp r (by simp [hr])) h
      exact ⟨q, by simp [h1], h2⟩
end

theorem findTexts_yields : ∀ (k i : Nat), textAt (findTexts E.refs k) i = true → ∃ q, E.refs[i]? = some q ∧ ∃ y, Yields E (.rule q) y
  | 0, i, h => by
    simp only [textAt, findTexts, List.getElem?_map] at h
    cases hq : E.refs[i]? <;> simp [hq] at h
  | k + 1, i, h => by
    obtain ⟨q, hq, h1⟩ := textAt_succ h
    exact ⟨q, hq, someText_yields hL hX hU hI hC hS ho (findTexts_yields k) q (part_self hq) h1⟩

end

end Verif
