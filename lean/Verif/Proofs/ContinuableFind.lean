import Verif.Proofs.Continuable
/-
If whatever has been read can be continued, the check finds it out.
-/
namespace Verif
open Spec Props

section
variable {L : Lexer} {A : List Char} {nums : Bool → List Char} {ends : List Char} {F : Nat → Found} {G : Nat → List (Option Char)}
  {M : Nat → Mark} {B : Nat → Char → Prop} {o : Char}

section
variable (hA : Separated A nums) (hn : NumbersBegin L nums) (hM : ∀ i, (M i).Covers ((F i).mark A))
  (hG : ∀ i c, keyOf A c ∈ G i → ∃ d, keyOf A d = keyOf A c ∧ B i d)
include hA hn hM hG

mutual
/-- What is found not to follow must not follow, or something that is not told from it. -/
theorem beyondOf_least (c : Char) : ∀ (r : Rule), (∀ c ∈ charsOf r, c ∈ A) → keyOf A c ∈ beyondOf A nums ends F G r →
    ∃ d, keyOf A d = keyOf A c ∧ afterOf L (fun c => c ∉ ends) M B r d
  | .whitespace opt id, h, hc => by
    refine ⟨c, rfl, ?_⟩
    have := (beyondOf_keys (L := L) (ends := ends) (F := F) (G := G) hA hn c (.whitespace opt id) h).2 hc
    simpa only [afterOf] using this
  | .tag _ _ _ _ _, _, hc => by simp [beyondOf] at hc
  | .untilAny any opt prop id, h, hc => by
    refine ⟨c, rfl, ?_⟩
    have := (beyondOf_keys (L := L) (ends := ends) (F := F) (G := G) hA hn c (.untilAny any opt prop id) h).2 hc
    simpa only [afterOf] using this
  | .untilAnyOrWs any opt prop id, h, hc => by
    refine ⟨c, rfl, ?_⟩
    have := (beyondOf_keys (L := L) (ends := ends) (F := F) (G := G) hA hn c (.untilAnyOrWs any opt prop id) h).2 hc
    simpa only [afterOf] using this
  | .text _ _ _, _, hc => by simp [beyondOf] at hc
  | .number _ _ _, _, hc => by
    unfold beyondOf at hc
    obtain ⟨d, hd, he⟩ := List.mem_map.1 hc
    exact ⟨d, he, fun h => h hd⟩
  | .node _ _ none _, _, hc => by simp [beyondOf] at hc
  | .node _ _ (some i) _, _, hc => by
    unfold beyondOf at hc
    unfold afterOf
    exact hG i c hc
  | .select rs _, h, hc => by
    unfold beyondOf at hc
    unfold afterOf
    exact beyondSelect_least c rs h hc
  | .fastSelect _ _ _ _, _, hc => by simp [beyondOf] at hc
  | .sequence rs _, h, hc => by
    unfold beyondOf at hc
    unfold afterOf
    exact beyondSequence_least c rs h hc
  | .separateBy r b opt trail _, h, hc => by
    unfold beyondOf at hc
    unfold afterOf
    simp only [charsOf, List.mem_append] at h
    rw [mem_joinKeys, mem_keysIf] at hc
    rcases hc with hc | ⟨ht, hc⟩
    · obtain ⟨d, h1, h2⟩ := beyondOf_least c r (fun c hc => h c (.inl hc)) hc
      exact ⟨d, h1, .inl h2⟩
    · obtain ⟨d, h1, h2⟩ := beyondOf_least c b (fun c hc => h c (.inr hc)) hc
      exact ⟨d, h1, .inr ⟨ht, h2⟩⟩
  | .repeat_ r _ _, h, hc => by
    unfold beyondOf at hc
    unfold afterOf
    exact beyondOf_least c r h hc
  | .lines _ _ _, _, hc => by simp [beyondOf] at hc
  | .optional r _, h, hc => by
    unfold beyondOf at hc
    unfold afterOf
    exact beyondOf_least c r h hc
  | .not _ _, _, hc => by simp [beyondOf] at hc
theorem beyondSequence_least (c : Char) : ∀ (rs : List Rule), (∀ c ∈ charsOfAll rs, c ∈ A) → keyOf A c ∈ beyondSequence A nums ends F G rs →
    ∃ d, keyOf A d = keyOf A c ∧ afterSequence L (fun c => c ∉ ends) M B rs d
  | [], _, hc => by simp [beyondSequence] at hc
  | r :: rs, h, hc => by
    unfold beyondSequence at hc
    unfold afterSequence
    simp only [charsOfAll, List.mem_append] at h
    rw [mem_joinKeys, mem_keysIf] at hc
    rcases hc with hc | ⟨ht, hc⟩
    · obtain ⟨d, h1, h2⟩ := beyondSequence_least c rs (fun c hc => h c (.inr hc)) hc
      exact ⟨d, h1, .inl h2⟩
    · obtain ⟨d, h1, h2⟩ := beyondOf_least c r (fun c hc => h c (.inl hc)) hc
      refine ⟨d, h1, .inr ⟨?_, h2⟩⟩
      have h3 := (markSequence_mono (L := L) hM rs).empty
      rw [markSequence_mark hA hn rs fun c hc => h c (.inr hc)] at h3
      exact h3 ht
theorem beyondSelect_least (c : Char) : ∀ (rs : List Rule), (∀ c ∈ charsOfAll rs, c ∈ A) → keyOf A c ∈ beyondSelect A nums ends F G rs →
    ∃ d, keyOf A d = keyOf A c ∧ afterSelect L (fun c => c ∉ ends) M B rs d
  | [], _, hc => by simp [beyondSelect] at hc
  | r :: rs, h, hc => by
    unfold beyondSelect at hc
    unfold afterSelect
    simp only [charsOfAll, List.mem_append] at h
    rw [mem_joinKeys] at hc
    rcases hc with hc | hc
    · obtain ⟨d, h1, h2⟩ := beyondOf_least c r (fun c hc => h c (.inl hc)) hc
      exact ⟨d, h1, .inl h2⟩
    · obtain ⟨d, h1, h2⟩ := beyondSelect_least c rs (fun c hc => h c (.inr hc)) hc
      exact ⟨d, h1, .inr h2⟩
end

variable (ho : o ∉ A)
include ho

theorem noKey_of_apart {r b : Rule} (hr : ∀ c ∈ charsOf r, c ∈ A) (hb : ∀ c ∈ charsOf b, c ∈ A)
    (h : NoShared (afterOf L (fun c => c ∉ ends) M B r) (markOf L M b).first) :
    noKey A (beyondOf A nums ends F G r) (foundOf A nums F b).first = true := by
  refine (noKey_iff ho).2 fun c ⟨h1, h2⟩ => ?_
  obtain ⟨d, h3, h4⟩ := beyondOf_least hA hn hM hG c r hr h1
  refine h d ⟨h4, (markOf_mono (L := L) hM b).first d ?_⟩
  rw [markOf_mark hA hn b hb]
  show keyOf A d ∈ _
  rw [h3]
  exact h2

theorem freeSequence_of : ∀ {rs : List Rule}, (∀ c ∈ charsOfAll rs, c ∈ A) → SetApartSequence L (fun c => c ∉ ends) M B rs →
    freeSequence A nums ends F G rs = true
  | [], _, _ => rfl
  | r :: rs, h, ha => by
    simp only [charsOfAll, List.mem_append] at h
    unfold freeSequence
    rw [Bool.and_eq_true]
    refine ⟨(noKey_iff ho).2 fun c ⟨h1, h2⟩ => ?_, freeSequence_of (fun c hc => h c (.inr hc)) ha.2⟩
    obtain ⟨d, h3, h4⟩ := beyondOf_least hA hn hM hG c r (fun c hc => h c (.inl hc)) h1
    refine ha.1 d ⟨h4, (markSequence_mono (L := L) hM rs).first d ?_⟩
    rw [markSequence_mark hA hn rs fun c hc => h c (.inr hc)]
    show keyOf A d ∈ _
    rw [h3]
    exact h2

theorem free_of {r : Rule} (h : ∀ c ∈ charsOf r, c ∈ A) (ha : SetApart L (fun c => c ∉ ends) M B r) : free A nums ends F G r = true := by
  cases r with
  | sequence rs id => exact freeSequence_of hA hn hM hG ho h ha
  | separateBy r b opt trail id =>
    simp only [charsOf, List.mem_append] at h
    have hr : ∀ c ∈ charsOf r, c ∈ A := fun c hc => h c (.inl hc)
    have hb : ∀ c ∈ charsOf b, c ∈ A := fun c hc => h c (.inr hc)
    simp only [free, Bool.and_eq_true]
    exact ⟨noKey_of_apart hA hn hM hG ho hr hb ha.1, noKey_of_apart hA hn hM hG ho hb hr ha.2⟩
  | repeat_ r opt id => exact noKey_of_apart hA hn hM hG ho h h ha
  | tag t neg inv prop id => simpa [free, SetApart] using ha
  | not r id => exact ha.elim
  | _ => rfl

end

mutual
theorem beyondOf_mono {G' : Nat → List (Option Char)} (hG : ∀ i x, x ∈ G i → x ∈ G' i) (x : Option Char) :
    ∀ (r : Rule), x ∈ beyondOf A nums ends F G r → x ∈ beyondOf A nums ends F G' r
  | .whitespace _ _, h => by unfold beyondOf at h ⊢; exact h
  | .tag _ _ _ _ _, h => by unfold beyondOf at h ⊢; exact h
  | .untilAny _ _ _ _, h => by unfold beyondOf at h ⊢; exact h
  | .untilAnyOrWs _ _ _ _, h => by unfold beyondOf at h ⊢; exact h
  | .text _ _ _, h => by unfold beyondOf at h ⊢; exact h
  | .number _ _ _, h => by unfold beyondOf at h ⊢; exact h
  | .node _ _ none _, h => by unfold beyondOf at h ⊢; exact h
  | .node _ _ (some i) _, h => by unfold beyondOf at h ⊢; exact hG i x h
  | .select rs _, h => by unfold beyondOf at h ⊢; exact beyondSelect_mono hG x rs h
  | .fastSelect _ _ _ _, h => by unfold beyondOf at h ⊢; exact h
  | .sequence rs _, h => by unfold beyondOf at h ⊢; exact beyondSequence_mono hG x rs h
  | .separateBy r b opt trail _, h => by
    unfold beyondOf at h ⊢
    rw [mem_joinKeys, mem_keysIf] at h ⊢
    exact h.imp (beyondOf_mono hG x r) fun ⟨h1, h2⟩ => ⟨h1, beyondOf_mono hG x b h2⟩
  | .repeat_ r _ _, h => by unfold beyondOf at h ⊢; exact beyondOf_mono hG x r h
  | .lines _ _ _, h => by unfold beyondOf at h ⊢; exact h
  | .optional r _, h => by unfold beyondOf at h ⊢; exact beyondOf_mono hG x r h
  | .not _ _, h => by unfold beyondOf at h ⊢; exact h
theorem beyondSequence_mono {G' : Nat → List (Option Char)} (hG : ∀ i x, x ∈ G i → x ∈ G' i) (x : Option Char) :
    ∀ (rs : List Rule), x ∈ beyondSequence A nums ends F G rs → x ∈ beyondSequence A nums ends F G' rs
  | [], h => by unfold beyondSequence at h ⊢; exact h
  | r :: rs, h => by
    unfold beyondSequence at h ⊢
    rw [mem_joinKeys, mem_keysIf] at h ⊢
    exact h.imp (beyondSequence_mono hG x rs) fun ⟨h1, h2⟩ => ⟨h1, beyondOf_mono hG x r h2⟩
theorem beyondSelect_mono {G' : Nat → List (Option Char)} (hG : ∀ i x, x ∈ G i → x ∈ G' i) (x : Option Char) :
    ∀ (rs : List Rule), x ∈ beyondSelect A nums ends F G rs → x ∈ beyondSelect A nums ends F G' rs
  | [], h => by unfold beyondSelect at h ⊢; exact h
  | r :: rs, h => by
    unfold beyondSelect at h ⊢
    rw [mem_joinKeys] at h ⊢
    exact h.imp (beyondOf_mono hG x r) (beyondSelect_mono hG x rs)
end

end

section
variable {L : Lexer} {nums : Bool → List Char} {ends : List Char} {refs : List Rule} {o : Char} {ms : List Found}

theorem findBeyond_length (k : Nat) : (findBeyond nums ends refs ms k).length = refs.length := by
  cases k <;> simp [findBeyond]

theorem beyondAt_zero (i : Nat) : furtherAt (findBeyond nums ends refs ms 0) i = [] := by
  simp only [furtherAt, findBeyond, List.getElem?_map]
  cases refs[i]? <;> rfl

theorem beyondAt_succ (k i : Nat) : furtherAt (findBeyond nums ends refs ms (k + 1)) i =
    (refs[i]?.map (beyondOf (alphabet nums refs) nums ends (foundAt ms) (furtherAt (findBeyond nums ends refs ms k)))).getD [] := by
  simp only [furtherAt, findBeyond, List.getElem?_map]

theorem beyondAt_least (hn : NumbersBegin L nums) {M : Nat → Mark} {B : Nat → Char → Prop}
    (hM : ∀ i, (M i).Covers ((foundAt ms i).mark (alphabet nums refs)))
    (hB : ∀ i q, refs[i]? = some q → ∀ c, afterOf L (fun c => c ∉ ends) M B q c → B i c) : ∀ k i c,
    keyOf (alphabet nums refs) c ∈ furtherAt (findBeyond nums ends refs ms k) i →
    ∃ d, keyOf (alphabet nums refs) d = keyOf (alphabet nums refs) c ∧ B i d
  | 0, i, c, h => by rw [beyondAt_zero] at h; cases h
  | k + 1, i, c, h => by
    rw [beyondAt_succ] at h
    cases hq : refs[i]? with
    | none => simp [hq] at h
    | some q =>
      simp only [hq, Option.map_some, Option.getD_some] at h
      obtain ⟨d, h1, h2⟩ := beyondOf_least alphabet_separated hn hM (beyondAt_least hn hM hB k) c q (charsOf_part (part_self hq)) h
      exact ⟨d, h1, hB i q hq d h2⟩

theorem beyondAt_grows : ∀ k i x, x ∈ furtherAt (findBeyond nums ends refs ms k) i → x ∈ furtherAt (findBeyond nums ends refs ms (k + 1)) i
  | 0, i, x, h => by rw [beyondAt_zero] at h; cases h
  | k + 1, i, x, h => by
    rw [beyondAt_succ] at h ⊢
    cases hq : refs[i]? with
    | none => simp [hq] at h
    | some q =>
      simp only [hq, Option.map_some, Option.getD_some] at h ⊢
      exact beyondOf_mono (beyondAt_grows k) x q h

/-- The characters are found. -/
theorem findBeyond_stops (ho : o ∉ alphabet nums refs) :
    ∃ k ≤ refs.length * ((alphabet nums refs).length + 1), ∀ i q, refs[i]? = some q → ∀ c,
      keyOf (alphabet nums refs) c ∈ beyondOf (alphabet nums refs) nums ends (foundAt ms) (furtherAt (findBeyond nums ends refs ms k)) q →
      keyOf (alphabet nums refs) c ∈ furtherAt (findBeyond nums ends refs ms k) i := by
  obtain ⟨k, hk, hs⟩ := still (f := fun k => sumTo (fun i => keyCount (alphabet nums refs) (furtherAt (findBeyond nums ends refs ms k) i)) refs.length)
    fun k => sumTo_le (fun i => keyCount_le) _
  refine ⟨k, hk, fun i q hq c hc => ?_⟩
  have hi := (List.getElem?_eq_some_iff.1 hq).1
  have h1 := (sumTo_mono (fun i => keyCount_mono ho fun c => beyondAt_grows (ms := ms) (ends := ends) k i _) refs.length).2 hs i hi
  refine keyCount_eq ho (fun c => beyondAt_grows k i _) h1 c ?_
  rw [beyondAt_succ, hq]
  exact hc

/-! ### Texts -/

mutual
theorem someText_mono {T T' : Nat → Bool} (hT : ∀ i, T i = true → T' i = true) : ∀ (r : Rule), someText T r = true → someText T' r = true
  | .whitespace _ _, _ => rfl
  | .tag _ _ _ _ _, h => by unfold someText at h ⊢; exact h
  | .untilAny _ _ _ _, _ => rfl
  | .untilAnyOrWs _ _ _ _, _ => rfl
  | .text _ _ _, _ => rfl
  | .number _ _ _, _ => rfl
  | .node _ _ none _, h => by unfold someText at h ⊢; exact h
  | .node _ _ (some i) _, h => by unfold someText at h ⊢; exact hT i h
  | .select rs _, h => by unfold someText at h ⊢; exact someTextOf_mono hT rs h
  | .fastSelect _ _ _ _, h => by unfold someText at h ⊢; exact h
  | .sequence rs _, h => by unfold someText at h ⊢; exact someTextAll_mono hT rs h
  | .separateBy r b opt trail _, h => by
    unfold someText at h ⊢
    rw [Bool.or_eq_true] at h ⊢
    exact h.imp id (someText_mono hT r)
  | .repeat_ r _ _, h => by
    unfold someText at h ⊢
    rw [Bool.or_eq_true] at h ⊢
    exact h.imp id (someText_mono hT r)
  | .lines _ _ _, h => by unfold someText at h ⊢; exact h
  | .optional r _, _ => by unfold someText; rfl
  | .not _ _, h => by unfold someText at h ⊢; exact h
theorem someTextAll_mono {T T' : Nat → Bool} (hT : ∀ i, T i = true → T' i = true) :
    ∀ (rs : List Rule), someTextAll T rs = true → someTextAll T' rs = true
  | [], _ => rfl
  | r :: rs, h => by
    unfold someTextAll at h ⊢
    rw [Bool.and_eq_true] at h ⊢
    exact ⟨someText_mono hT r h.1, someTextAll_mono hT rs h.2⟩
theorem someTextOf_mono {T T' : Nat → Bool} (hT : ∀ i, T i = true → T' i = true) :
    ∀ (rs : List Rule), someTextOf T rs = true → someTextOf T' rs = true
  | [], h => h
  | r :: rs, h => by
    unfold someTextOf at h ⊢
    rw [Bool.or_eq_true] at h ⊢
    exact h.imp (someText_mono hT r) (someTextOf_mono hT rs)
end

theorem textAt_next (k i : Nat) : textAt (findTexts refs (k + 1)) i =
    (refs[i]?.map (someText (textAt (findTexts refs k)))).getD false := by
  simp only [textAt, findTexts, List.getElem?_map]

theorem textAt_grows : ∀ k i, textAt (findTexts refs k) i = true → textAt (findTexts refs (k + 1)) i = true
  | 0, i, h => by
    simp only [textAt, findTexts, List.getElem?_map] at h
    cases hq : refs[i]? <;> simp [hq] at h
  | k + 1, i, h => by
    rw [textAt_next] at h ⊢
    cases hq : refs[i]? with
    | none => simp [hq] at h
    | some q =>
      simp only [hq, Option.map_some, Option.getD_some] at h ⊢
      exact someText_mono (textAt_grows k) q h

theorem findTexts_stops : ∃ k ≤ refs.length, ∀ i q, refs[i]? = some q → someText (textAt (findTexts refs k)) q = true →
    textAt (findTexts refs k) i = true := by
  obtain ⟨k, hk, hs⟩ := still (f := fun k => sumTo (fun i => (textAt (findTexts refs k) i).toNat) refs.length)
    fun k => sumTo_le (fun i => Bool.toNat_le _) _
  refine ⟨k, by omega, fun i q hq h => ?_⟩
  have hi := (List.getElem?_eq_some_iff.1 hq).1
  have h1 := (sumTo_mono (fun i => toNat_mono (textAt_grows k i)) refs.length).2 hs i hi
  refine toNat_eq h1 ?_
  rw [textAt_next, hq]
  exact h

/-- What the parts of a goal need. -/
def goalText (T : Nat → Bool) : Goal → Prop
  | .rule r => someText T r = true
  | .seq rs => someTextAll T rs = true
  | _ => True

/-- What generates a text is found to do so. -/
theorem generates_someText {E : Env} {K : Char → Prop} {M : Nat → Mark} {B : Nat → Char → Prop} {T : Nat → Bool}
    (hB : ∀ x, Part E.refs x → SetApart E.L K M B x)
    (hT : ∀ i q, E.refs[i]? = some q → someText T q = true → T i = true) {g p n ts} (h : Generates E g p n ts) :
    (match g with | .rule r => Part E.refs r | .seq rs => ∀ r ∈ rs, Part E.refs r | _ => True) → goalText T g := by
  induction h with
  | @token r p i n ts j tr hr h =>
    intro hg
    cases r with
    | tag t neg inv prop id =>
      have := hB _ hg
      simp only [SetApart] at this
      simp [goalText, someText, this]
    | whitespace | untilAny | untilAnyOrWs | text | number => rfl
    | _ => exact hr.elim
  | absent hr h => exact fun hg => (hB _ hg).elim
  | select hr h ih =>
    intro hg
    simp only [goalText, someText]
    exact someTextOf_mem.2 ⟨_, hr, ih (decided_part hg (.select hr))⟩
  | sequence h ih =>
    intro hg
    simp only [goalText, someText]
    exact ih fun r hr => decided_part hg (.sequence hr)
  | seq_nil => exact fun _ => rfl
  | seq_cons h h' ih ih' =>
    intro hg
    simp only [goalText, someTextAll, Bool.and_eq_true]
    exact ⟨ih (hg _ (by simp)), ih' fun r hr => hg r (by simp [hr])⟩
  | repeat_any h ih => intro _; simp [goalText, someText]
  | repeat_some h h' ih ih' =>
    intro hg
    simp only [goalText, someText, Bool.or_eq_true]
    exact .inr (ih (decided_part hg .repeat_))
  | sep_none => intro _; simp [goalText, someText]
  | sep_some h h' ih ih' =>
    intro hg
    simp only [goalText, someText, Bool.or_eq_true]
    exact .inr (ih (decided_part hg .item))
  | node hr h ih =>
    intro hg
    simp only [goalText, someText]
    exact hT _ _ hr (ih (part_self hr))
  | optional_none | optional_some => intro _; simp [goalText, someText]
  | rep_nil | rep_cons | tail_nil | tail_trail | tail_cons => exact fun _ => trivial

end

end Verif
