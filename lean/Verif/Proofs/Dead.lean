import Verif.Spec.Dead
import Verif.Proofs.ContinuableFind
import Verif.Props.Generates
/-
Rules that are found dead never match, and where the next character decides the others match.
-/
namespace Verif
open Spec

theorem canMatchAll_mem {T : Nat → Bool} : ∀ {rs : List Rule}, canMatchAll T rs = true ↔ ∀ r ∈ rs, canMatch T r = true
  | [] => by simp [canMatchAll]
  | r :: rs => by simp [canMatchAll, canMatchAll_mem (rs := rs)]

theorem canMatchOf_mem {T : Nat → Bool} : ∀ {rs : List Rule}, canMatchOf T rs = true ↔ ∃ r ∈ rs, canMatch T r = true
  | [] => by simp [canMatchOf]
  | r :: rs => by simp [canMatchOf, canMatchOf_mem (rs := rs)]

mutual
theorem canMatch_mono {T T' : Nat → Bool} (hT : ∀ i, T i = true → T' i = true) : ∀ (r : Rule), canMatch T r = true → canMatch T' r = true
  | .node _ _ ix _, h => by
    simp only [canMatch, Option.any_eq_true] at h ⊢
    obtain ⟨i, hi, h⟩ := h
    exact ⟨i, hi, hT i h⟩
  | .select rs _, h => by unfold canMatch at h ⊢; exact canMatchOf_mono hT rs h
  | .fastSelect _ rs _ _, h => by unfold canMatch at h ⊢; exact canMatchOf_mono hT rs h
  | .sequence rs _, h => by unfold canMatch at h ⊢; exact canMatchAll_mono hT rs h
  | .separateBy r _ _ _ _, h => by
    unfold canMatch at h ⊢
    rw [Bool.or_eq_true] at h ⊢
    exact h.imp id (canMatch_mono hT r)
  | .repeat_ r _ _, h => by
    unfold canMatch at h ⊢
    rw [Bool.or_eq_true] at h ⊢
    exact h.imp id (canMatch_mono hT r)
  | .whitespace _ _, _ | .tag _ _ _ _ _, _ | .untilAny _ _ _ _, _ | .untilAnyOrWs _ _ _ _, _ | .text _ _ _, _ | .number _ _ _, _
  | .optional _ _, _ | .not _ _, _ | .lines _ _ _, _ => by unfold canMatch; rfl
theorem canMatchAll_mono {T T' : Nat → Bool} (hT : ∀ i, T i = true → T' i = true) :
    ∀ (rs : List Rule), canMatchAll T rs = true → canMatchAll T' rs = true
  | [], _ => rfl
  | r :: rs, h => by
    unfold canMatchAll at h ⊢
    rw [Bool.and_eq_true] at h ⊢
    exact ⟨canMatch_mono hT r h.1, canMatchAll_mono hT rs h.2⟩
theorem canMatchOf_mono {T T' : Nat → Bool} (hT : ∀ i, T i = true → T' i = true) :
    ∀ (rs : List Rule), canMatchOf T rs = true → canMatchOf T' rs = true
  | [], h => h
  | r :: rs, h => by
    unfold canMatchOf at h ⊢
    rw [Bool.or_eq_true] at h ⊢
    exact h.imp (canMatch_mono hT r) (canMatchOf_mono hT rs)
end

section
variable {refs : List Rule}

theorem matchAt_next (k i : Nat) : textAt (findMatches refs (k + 1)) i =
    (refs[i]?.map (canMatch (textAt (findMatches refs k)))).getD false := by
  simp only [textAt, findMatches, List.getElem?_map]

theorem matchAt_grows : ∀ k i, textAt (findMatches refs k) i = true → textAt (findMatches refs (k + 1)) i = true
  | 0, i, h => by
    simp only [textAt, findMatches, List.getElem?_map] at h
    cases hq : refs[i]? <;> simp [hq] at h
  | k + 1, i, h => by
    rw [matchAt_next] at h ⊢
    cases hq : refs[i]? with
    | none => simp [hq] at h
    | some q =>
      simp only [hq, Option.map_some, Option.getD_some] at h ⊢
      exact canMatch_mono (matchAt_grows k) q h

theorem findMatches_stops : ∃ k ≤ refs.length, ∀ i, textAt (findMatches refs (k + 1)) i = true → textAt (findMatches refs k) i = true := by
  obtain ⟨k, hk, hs⟩ := still (f := fun k => sumTo (fun i => (textAt (findMatches refs k) i).toNat) refs.length)
    fun k => sumTo_le (fun i => Bool.toNat_le _) _
  refine ⟨k, by omega, fun i h => ?_⟩
  have hi : i < refs.length := by
    rw [matchAt_next] at h
    cases hq : refs[i]? with
    | none => simp [hq] at h
    | some q => exact (List.getElem?_eq_some_iff.1 hq).1
  exact toNat_eq ((sumTo_mono (fun i => toNat_mono (matchAt_grows k i)) refs.length).2 hs i hi) h

/-- After as many steps as there are rules nothing changes. -/
theorem findMatches_fixed (i : Nat) (q : Rule) (hq : refs[i]? = some q) :
    canMatch (textAt (findMatches refs refs.length)) q = true → textAt (findMatches refs refs.length) i = true := by
  obtain ⟨k, hk, h⟩ := findMatches_stops (refs := refs)
  have h1 : textAt (findMatches refs (k + 1)) = textAt (findMatches refs k) := by
    funext i
    exact Bool.eq_iff_iff.2 ⟨h i, matchAt_grows k i⟩
  have h2 : ∀ d, textAt (findMatches refs (k + d)) = textAt (findMatches refs k) := by
    intro d
    induction d with
    | zero => rfl
    | succ d ih =>
      funext i
      rw [← Nat.add_assoc, matchAt_next, ih, ← matchAt_next, h1]
  obtain ⟨d, hd⟩ := Nat.exists_eq_add_of_le hk
  rw [hd, h2 d]
  intro hc
  refine h i ?_
  rw [matchAt_next, hq]
  exact hc

end

/-- What is needed for a goal. -/
def goalMatch (T : Nat → Bool) : Goal → Prop
  | .rule r => canMatch T r = true
  | .sel rs => canMatchOf T rs = true
  | .seq rs => canMatchAll T rs = true
  | _ => True

/-- What matches may match. -/
theorem run_canMatch {E : Env} {T : Nat → Bool} (hT : ∀ i q, E.refs[i]? = some q → canMatch T q = true → T i = true) {g p i o j tr}
    (h : Run E g p i o j tr) : o.isSome → goalMatch T g := by
  induction h with
  | select h ih => exact fun ho => by simpa [goalMatch, canMatch] using ih ho
  | sel_here h ih => exact fun ho => by simpa [goalMatch, canMatchOf] using .inl (ih ho)
  | sel_next h h' ih ih' => exact fun ho => by simpa [goalMatch, canMatchOf] using .inr (ih' ho)
  | fast_hit h hb ht hr h' ih | fastTail_hit h hb ht hr h' ih =>
    exact fun ho => by
      simp only [goalMatch, canMatch]
      exact canMatchOf_mem.2 ⟨_, List.mem_of_getElem? hr, ih ho⟩
  | fastTail_miss h hb ht hr h' ih =>
    exact fun ho => by
      simp only [goalMatch, canMatch]
      exact canMatchOf_mem.2 ⟨_, List.mem_of_getLast? hr, ih ho⟩
  | fastTail_next h hb ht hr h' hr' h'' ih ih' =>
    exact fun ho => by
      simp only [goalMatch, canMatch]
      exact canMatchOf_mem.2 ⟨_, List.mem_of_getLast? hr', ih' ho⟩
  | sequence h ih => exact fun ho => by simpa [goalMatch, canMatch] using ih ho
  | seq_nil => exact fun _ => rfl
  | @seq_cons r rs p i n ts j tr o k tr' h h' ih ih' =>
    intro ho
    simp only [goalMatch, canMatchAll, Bool.and_eq_true]
    refine ⟨ih rfl, ih' ?_⟩
    cases o <;> simp_all [before]
  | repeat_opt h ih => exact fun _ => by simp [goalMatch, canMatch]
  | repeat_ok h h' ih ih' => exact fun _ => by simpa [goalMatch, canMatch] using ih rfl
  | sep_none h ih => exact fun _ => by simp [goalMatch, canMatch]
  | sep_first h h' ih ih' =>
    intro _
    simp only [goalMatch, canMatch, Bool.or_eq_true]
    exact .inr (ih rfl)
  | @node_ok name prop ix id p i r n ts j tr hr h ih =>
    intro _
    simp only [goalMatch, canMatch, Option.any_some]
    exact hT _ _ hr (ih rfl)
  | _ => intro ho; first | (simp only [goalMatch]; done) | (simp [goalMatch, canMatch]; done) | simp at ho

/-- Nothing is forbidden, and there are neither lines nor look-up tables. -/
def Outright : Rule → Prop
  | .tag _ neg _ _ _ => neg = false
  | .not _ _ | .fastSelect _ _ _ _ | .lines _ _ _ => False
  | _ => True

mutual
theorem canMatch_someText {T : Nat → Bool} : ∀ (r : Rule), (∀ x, Occurs x r → Outright x) → canMatch T r = someText T r
  | .node _ _ none _, _ => by simp [canMatch, someText]
  | .node _ _ (some i) _, _ => by simp [canMatch, someText]
  | .select rs _, h => by
    unfold canMatch someText
    exact canMatchOf_someText rs fun r hr x hx => h x (Occurs.trans hx (.step .refl (.select hr)))
  | .sequence rs _, h => by
    unfold canMatch someText
    exact canMatchAll_someText rs fun r hr x hx => h x (Occurs.trans hx (.step .refl (.sequence hr)))
  | .separateBy r _ _ _ _, h => by
    unfold canMatch someText
    rw [canMatch_someText r fun x hx => h x (Occurs.trans hx (.step .refl .item))]
  | .repeat_ r _ _, h => by
    unfold canMatch someText
    rw [canMatch_someText r fun x hx => h x (Occurs.trans hx (.step .refl .repeat_))]
  | .tag _ neg _ _ _, h => by
    have : neg = false := h _ .refl
    simp [canMatch, someText, this]
  | .not _ _, h => (h _ .refl).elim
  | .fastSelect _ _ _ _, h => (h _ .refl).elim
  | .lines _ _ _, h => (h _ .refl).elim
  | .whitespace _ _, _ | .untilAny _ _ _ _, _ | .untilAnyOrWs _ _ _ _, _ | .text _ _ _, _ | .number _ _ _, _ | .optional _ _, _ => by
    unfold canMatch someText; rfl
theorem canMatchAll_someText {T : Nat → Bool} : ∀ (rs : List Rule), (∀ r ∈ rs, ∀ x, Occurs x r → Outright x) → canMatchAll T rs = someTextAll T rs
  | [], _ => rfl
  | r :: rs, h => by
    unfold canMatchAll someTextAll
    rw [canMatch_someText r (h r (by simp)), canMatchAll_someText rs fun r hr => h r (by simp [hr])]
theorem canMatchOf_someText {T : Nat → Bool} : ∀ (rs : List Rule), (∀ r ∈ rs, ∀ x, Occurs x r → Outright x) → canMatchOf T rs = someTextOf T rs
  | [], _ => rfl
  | r :: rs, h => by
    unfold canMatchOf someTextOf
    rw [canMatch_someText r (h r (by simp)), canMatchOf_someText rs fun r hr => h r (by simp [hr])]
end

theorem findMatches_texts {refs : List Rule} (h : ∀ x, Part refs x → Outright x) : ∀ k, findMatches refs k = findTexts refs k
  | 0 => rfl
  | k + 1 => by
    simp only [findMatches, findTexts, findMatches_texts h k]
    exact List.map_congr_left fun r hr => canMatch_someText r fun x hx => h x ⟨r, hr, hx⟩

theorem outright_of {L : Lexer} {M : Nat → Mark} {N A : Nat → Char → Prop} {K : Char → Prop} {refs : List Rule} (hU : LL1 L M N refs)
    (hC : Continues L K M A refs) (x : Rule) (hx : Part refs x) : Outright x := by
  have h1 := hU.decided x hx
  have h2 := hU.oneWay x hx
  have h3 := hC.apart x hx
  cases x <;> first | trivial | exact h1.elim | exact h2.elim | exact h3 | exact h3.elim

/-- The check for what must not follow. -/
theorem continues_of_apart {L : Lexer} {nums : Bool → List Char} {ends : List Char} {refs : List Rule} {o : Char}
    (hn : NumbersBegin L nums) (hS : NumbersStop L ends) (ho : o ∉ alphabet nums refs) {ms : List Found}
    {gs : List (List (Option Char))} (h : confirmsApart nums ends refs ms gs = true) :
    Continues L (keyEnds (alphabet nums refs) ends) (fun i => (foundAt ms i).mark (alphabet nums refs))
      (fun i c => keyOf (alphabet nums refs) c ∈ furtherAt gs i) refs := by
  simp only [confirmsApart, Bool.and_eq_true, beq_iff_eq] at h
  obtain ⟨⟨hl, h2⟩, h3⟩ := h
  rw [zip_all hl] at h2
  rw [everyPartOf_iff] at h3
  refine ⟨fun x hx => (free_iff alphabet_separated hn hS ho (charsOf_part hx)).1 (h3 x hx), fun i q hq c => ?_⟩
  have hi : i < gs.length := by rw [hl]; exact (List.getElem?_eq_some_iff.1 hq).1
  rw [beyondOf_keys alphabet_separated hn c q (charsOf_part (part_self hq))]
  have := (hasKeys_iff ho).1 (h2 i gs[i] q (by simp [hi]) hq) c
  simpa [furtherAt, hi] using this

end Verif
