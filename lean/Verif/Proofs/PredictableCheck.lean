import Verif.Proofs.Predictable
/-
The checks on lists mean the conditions on marks.
-/
namespace Verif
open Spec

section
variable {L : Lexer} {A : List Char} {nums : Bool → List Char} {F : Nat → Found} {N : Nat → List (Option Char)} {o : Char}

theorem noKey_iff (ho : o ∉ A) {a b : List (Option Char)} :
    noKey A a b = true ↔ NoShared (fun c => keyOf A c ∈ a) (fun c => keyOf A c ∈ b) := by
  simp only [noKey, List.all_eq_true, Bool.or_eq_true, Bool.not_eq_true', List.contains_eq_mem, decide_eq_false_iff_not]
  constructor
  · rintro h c ⟨h1, h2⟩
    rcases h _ h1 with h | h
    · exact h h2
    · exact h (keyOf_all c)
  · intro h x hx
    by_cases hb : x ∈ b
    · refine .inr fun hA => ?_
      obtain ⟨c, rfl⟩ := keyOf_surj ho hA
      exact h c ⟨hx, hb⟩
    · exact .inl hb

theorem hasKeys_iff (ho : o ∉ A) {a b : List (Option Char)} : hasKeys A a b = true ↔ ∀ c, keyOf A c ∈ b → keyOf A c ∈ a := by
  simp only [hasKeys, List.all_eq_true, Bool.or_eq_true, Bool.not_eq_true', List.contains_eq_mem, decide_eq_false_iff_not,
    decide_eq_true_eq]
  constructor
  · intro h c h1
    rcases h _ h1 with h | h
    · exact h
    · exact absurd (keyOf_all c) h
  · intro h x hx
    by_cases hA : x ∈ allKeys A
    · obtain ⟨c, rfl⟩ := keyOf_surj ho hA
      exact .inl (h c hx)
    · exact .inr hA

theorem covers_iff (ho : o ∉ A) {a b : Found} : a.covers A b = true ↔ (a.mark A).Covers (b.mark A) := by
  have hb : ∀ x y : Bool, (!x || y) = true ↔ (x = true → y = true) := by decide
  simp only [Found.covers, Bool.and_eq_true, hasKeys_iff ho, hb, Nat.ble_eq]
  constructor
  · rintro ⟨⟨⟨⟨⟨h1, h2⟩, h3⟩, h4⟩, h5⟩, h6⟩
    exact ⟨h1, h2, h3, h4, h5, h6⟩
  · rintro ⟨h1, h2, h3, h4, h5, h6⟩
    exact ⟨⟨⟨⟨⟨h1, h2⟩, h3⟩, h4⟩, h5⟩, h6⟩

theorem callsNone_iff {r : Rule} : callsNone r = true ↔ CallsNone r := by
  cases r <;> simp [callsNone, CallsNone]

theorem knownSelect_iff (hA : Separated A nums) (hn : NumbersBegin L nums) (ho : o ∉ A) : ∀ {rs : List Rule}, (∀ c ∈ charsOfAll rs, c ∈ A) →
    (knownSelect A nums F rs = true ↔ DecidedSelect L (fun i => (F i).mark A) rs)
  | [], _ => by simp [knownSelect, DecidedSelect]
  | r :: rs, h => by
    simp only [charsOfAll, List.mem_append] at h
    have hr : ∀ c ∈ charsOf r, c ∈ A := fun c hc => h c (.inl hc)
    have hs : ∀ c ∈ charsOfAll rs, c ∈ A := fun c hc => h c (.inr hc)
    unfold knownSelect DecidedSelect
    rw [Bool.and_eq_true, noKey_iff ho, knownSelect_iff hA hn ho hs, markOf_mark hA hn r hr, markSelect_mark hA hn rs hs]
    rfl

theorem knownSequence_iff (hA : Separated A nums) (hn : NumbersBegin L nums) (ho : o ∉ A) : ∀ {rs : List Rule}, (∀ c ∈ charsOfAll rs, c ∈ A) →
    (knownSequence A nums F rs = true ↔ DecidedSequence L (fun i => (F i).mark A) rs)
  | [], _ => by simp [knownSequence, DecidedSequence]
  | r :: rs, h => by
    simp only [charsOfAll, List.mem_append] at h
    have hr : ∀ c ∈ charsOf r, c ∈ A := fun c hc => h c (.inl hc)
    have hs : ∀ c ∈ charsOfAll rs, c ∈ A := fun c hc => h c (.inr hc)
    unfold knownSequence DecidedSequence
    rw [Bool.and_eq_true, noKey_iff ho, knownSequence_iff hA hn ho hs, markOf_mark hA hn r hr, markSequence_mark hA hn rs hs]
    rfl

theorem known_iff (hA : Separated A nums) (hn : NumbersBegin L nums) (ho : o ∉ A) {r : Rule} (h : ∀ c ∈ charsOf r, c ∈ A) :
    known A nums F r = true ↔ Decided L (fun i => (F i).mark A) r := by
  cases r with
  | select rs id => exact knownSelect_iff hA hn ho h
  | sequence rs id => exact knownSequence_iff hA hn ho h
  | separateBy r b opt trail id =>
    simp only [charsOf, List.mem_append] at h
    simp only [known, Decided]
    rw [markOf_mark hA hn r fun c hc => h c (.inl hc), markOf_mark hA hn b fun c hc => h c (.inr hc)]
    simp only [Bool.and_eq_true, noKey_iff ho, Bool.not_eq_true', and_assoc]
    rfl
  | repeat_ r opt id =>
    simp only [known, Decided]
    rw [markOf_mark hA hn r h]
    simp only [Bool.and_eq_true, noKey_iff ho, Bool.not_eq_true']
    rfl
  | lines r ind id =>
    simp only [known, Decided]
    rw [markOf_mark hA hn r h, lines_mark hA]
    simp only [Bool.and_eq_true, noKey_iff ho, Bool.not_eq_true', and_assoc]
    rfl
  | not r id => exact callsNone_iff
  | fastSelect t rs tail id => simp [known, Decided]
  | _ => simp [known, Decided]

theorem clearSelect_iff (hA : Separated A nums) (hn : NumbersBegin L nums) : ∀ {rs : List Rule}, (∀ c ∈ charsOfAll rs, c ∈ A) →
    (clearSelect A nums F rs = true ↔ OneWaySelect L (fun i => (F i).mark A) rs)
  | [], _ => by simp [clearSelect, OneWaySelect]
  | r :: rs, h => by
    simp only [charsOfAll, List.mem_append] at h
    have hr : ∀ c ∈ charsOf r, c ∈ A := fun c hc => h c (.inl hc)
    have hs : ∀ c ∈ charsOfAll rs, c ∈ A := fun c hc => h c (.inr hc)
    unfold clearSelect OneWaySelect
    rw [Bool.and_eq_true, clearSelect_iff hA hn hs, markOf_mark hA hn r hr]
    cases rs <;> simp [Found.mark]

theorem moreOf_eq (hA : Separated A nums) (hn : NumbersBegin L nums) (r : Rule) (h : ∀ c ∈ charsOf r, c ∈ A) :
    moreOf L (fun i => (F i).mark A) (fun i c => keyOf A c ∈ N i) r = fun c => keyOf A c ∈ furtherOf A nums F N r :=
  funext fun c => propext (moreOf_keys hA hn c r h)

theorem clearSequence_iff (hA : Separated A nums) (hn : NumbersBegin L nums) (ho : o ∉ A) : ∀ {rs : List Rule}, (∀ c ∈ charsOfAll rs, c ∈ A) →
    (clearSequence A nums F N rs = true ↔ OneWaySequence L (fun i => (F i).mark A) (fun i c => keyOf A c ∈ N i) rs)
  | [], _ => by simp [clearSequence, OneWaySequence]
  | r :: rs, h => by
    simp only [charsOfAll, List.mem_append] at h
    have hr : ∀ c ∈ charsOf r, c ∈ A := fun c hc => h c (.inl hc)
    have hs : ∀ c ∈ charsOfAll rs, c ∈ A := fun c hc => h c (.inr hc)
    unfold clearSequence OneWaySequence
    rw [Bool.and_eq_true, noKey_iff ho, clearSequence_iff hA hn ho hs, markSequence_mark hA hn rs hs,
      moreOf_eq hA hn r hr]
    rfl

theorem clear_iff (hA : Separated A nums) (hn : NumbersBegin L nums) (ho : o ∉ A) {r : Rule} (h : ∀ c ∈ charsOf r, c ∈ A) :
    clear A nums F N r = true ↔ OneWay L (fun i => (F i).mark A) (fun i c => keyOf A c ∈ N i) r := by
  cases r with
  | select rs id => exact clearSelect_iff hA hn h
  | sequence rs id => exact clearSequence_iff hA hn ho h
  | separateBy r b opt trail id =>
    simp only [charsOf, List.mem_append] at h
    have hr : ∀ c ∈ charsOf r, c ∈ A := fun c hc => h c (.inl hc)
    have hb : ∀ c ∈ charsOf b, c ∈ A := fun c hc => h c (.inr hc)
    simp only [clear, OneWay]
    rw [markOf_mark hA hn r hr, markOf_mark hA hn b hb, moreOf_eq hA hn r hr,
      moreOf_eq hA hn b hb]
    simp only [Bool.and_eq_true, noKey_iff ho, Bool.not_eq_true', and_assoc]
    rfl
  | repeat_ r opt id =>
    simp only [clear, OneWay]
    rw [markOf_mark hA hn r h, moreOf_eq hA hn r h, noKey_iff ho]
    rfl
  | optional r id =>
    simp only [clear, OneWay]
    rw [markOf_mark hA hn r h]
    simp [Found.mark]
  | _ => simp [clear, OneWay]

end

/-! ### Parts -/

theorem everyPartOf_mem {P : Rule → Bool} : ∀ {rs : List Rule}, everyPartOf P rs = true ↔ ∀ r ∈ rs, everyPart P r = true
  | [] => by simp [everyPartOf]
  | r :: rs => by simp [everyPartOf, everyPartOf_mem (rs := rs)]

theorem everyPart_self {P : Rule → Bool} {r : Rule} (h : everyPart P r = true) : P r = true := by
  cases r <;> simp [everyPart] at h <;> simp [h]

theorem everyPart_child {P : Rule → Bool} {c r : Rule} (hc : Child c r) (h : everyPart P r = true) : everyPart P c = true := by
  cases hc <;> simp [everyPart] at h <;> first | exact everyPartOf_mem.1 h.2 _ ‹_› | simp [h]

theorem everyPart_occurs {P : Rule → Bool} {x r : Rule} (hx : Occurs x r) : everyPart P r = true → P x = true := by
  induction hx with
  | refl => exact everyPart_self
  | step _ hc ih => exact fun h => ih (everyPart_child hc h)

mutual
theorem everyPart_of {P : Rule → Bool} : ∀ r : Rule, (∀ x, Occurs x r → P x = true) → everyPart P r = true
  | .select rs id, h => by
    unfold everyPart
    rw [h _ .refl, everyPartOf_of rs fun r hr x hx => h x (hx.step (.select hr))]
    rfl
  | .fastSelect t rs tail id, h => by
    unfold everyPart
    rw [h _ .refl, everyPartOf_of rs fun r hr x hx => h x (hx.step (.fast hr))]
    rfl
  | .sequence rs id, h => by
    unfold everyPart
    rw [h _ .refl, everyPartOf_of rs fun r hr x hx => h x (hx.step (.sequence hr))]
    rfl
  | .separateBy r b opt trail id, h => by
    unfold everyPart
    rw [h _ .refl, everyPart_of r fun x hx => h x (hx.step .item), everyPart_of b fun x hx => h x (hx.step .sep)]
    rfl
  | .repeat_ r opt id, h => by
    unfold everyPart
    rw [h _ .refl, everyPart_of r fun x hx => h x (hx.step .repeat_)]
    rfl
  | .lines r ind id, h => by
    unfold everyPart
    rw [h _ .refl, everyPart_of r fun x hx => h x (hx.step .lines)]
    rfl
  | .optional r id, h => by
    unfold everyPart
    rw [h _ .refl, everyPart_of r fun x hx => h x (hx.step .optional)]
    rfl
  | .not r id, h => by
    unfold everyPart
    rw [h _ .refl, everyPart_of r fun x hx => h x (hx.step .not)]
    rfl
  | .whitespace _ _, h => h _ .refl
  | .tag _ _ _ _ _, h => h _ .refl
  | .untilAny _ _ _ _, h => h _ .refl
  | .untilAnyOrWs _ _ _ _, h => h _ .refl
  | .text _ _ _, h => h _ .refl
  | .number _ _ _, h => h _ .refl
  | .node _ _ _ _, h => h _ .refl
theorem everyPartOf_of {P : Rule → Bool} : ∀ rs : List Rule, (∀ r ∈ rs, ∀ x, Occurs x r → P x = true) → everyPartOf P rs = true
  | [], _ => rfl
  | r :: rs, h => by
    unfold everyPartOf
    rw [everyPart_of r fun x hx => h r (by simp) x hx, everyPartOf_of rs fun r' hr x hx => h r' (by simp [hr]) x hx]
    rfl
end

/-- The check is made for every part. -/
theorem everyPartOf_iff {P : Rule → Bool} {refs : List Rule} : everyPartOf P refs = true ↔ ∀ x, Part refs x → P x = true := by
  constructor
  · rintro h x ⟨q, hq, hx⟩
    exact everyPart_occurs hx (everyPartOf_mem.1 h q hq)
  · exact fun h => everyPartOf_of refs fun r hr x hx => h x ⟨r, hr, hx⟩

theorem charsOfAll_mem {r : Rule} : ∀ {rs : List Rule}, r ∈ rs → ∀ c ∈ charsOf r, c ∈ charsOfAll rs
  | q :: rs, hr, c, hc => by
    rw [charsOfAll, List.mem_append]
    rcases List.mem_cons.1 hr with rfl | hr
    · exact .inl hc
    · exact .inr (charsOfAll_mem hr c hc)

theorem charsOf_child {x r : Rule} (h : Child x r) : ∀ c ∈ charsOf x, c ∈ charsOf r := by
  intro c hc
  cases h <;> simp only [charsOf, List.mem_append] <;>
    first | exact charsOfAll_mem ‹_› c hc | exact hc | exact .inl hc | exact .inr hc

theorem charsOf_occurs {x r : Rule} (h : Occurs x r) : ∀ c ∈ charsOf x, c ∈ charsOf r := by
  induction h with
  | refl => exact fun c hc => hc
  | step _ hc ih => exact fun c h => charsOf_child hc c (ih c h)

theorem charsOf_part {refs : List Rule} {nums : Bool → List Char} {x : Rule} (h : Part refs x) : ∀ c ∈ charsOf x, c ∈ alphabet nums refs := by
  obtain ⟨q, hq, hx⟩ := h
  intro c hc
  rw [alphabet, List.mem_eraseDups]
  have := charsOfAll_mem hq c (charsOf_occurs hx c hc)
  simp [this]

theorem alphabet_separated {refs : List Rule} {nums : Bool → List Char} : Separated (alphabet nums refs) nums where
  ws c hc := by
    rw [alphabet, List.mem_eraseDups]
    simp [hc]
  quote := by
    rw [alphabet, List.mem_eraseDups]
    simp
  num us c hc := by
    rw [alphabet, List.mem_eraseDups]
    cases us <;> simp [hc]

end Verif
