import Verif.Proofs.PredictableFind
/-
The steps in which marks are found.
-/
namespace Verif
open Spec

theorem zip_all {α : Type} {P : α × Rule → Bool} : ∀ {ms : List α} {refs : List Rule}, ms.length = refs.length →
    ((ms.zip refs).all P = true ↔ ∀ (i : Nat) m q, ms[i]? = some m → refs[i]? = some q → P (m, q) = true)
  | [], [], _ => by simp
  | m :: ms, q :: refs, h => by
    simp only [List.length_cons, Nat.add_right_cancel_iff] at h
    simp only [List.zip_cons_cons, List.all_cons, Bool.and_eq_true]
    rw [zip_all h]
    constructor
    · rintro ⟨h1, h2⟩ i m' q' hm hq
      cases i with
      | zero => cases hm; cases hq; exact h1
      | succ i => exact h2 i m' q' hm hq
    · intro h'
      exact ⟨h' 0 m q rfl rfl, fun i m' q' hm hq => h' (i + 1) m' q' hm hq⟩

section
variable {L : Lexer} {nums : Bool → List Char} {refs : List Rule} {o : Char}

theorem part_self {i : Nat} {q : Rule} (h : refs[i]? = some q) : Part refs q := ⟨q, List.mem_of_getElem? h, .refl⟩

/-- The check is exact. -/
theorem confirms_iff (hn : NumbersBegin L nums) (ho : o ∉ alphabet nums refs) {ms : List Found} (hl : ms.length = refs.length) :
    confirms nums refs ms = true ↔ Predictive L (fun i => (foundAt ms i).mark (alphabet nums refs)) refs := by
  simp only [confirms, hl, Bool.and_eq_true, beq_self_eq_true, true_and, zip_all hl, everyPartOf_iff]
  have hat : ∀ i q, refs[i]? = some q → ∃ m, ms[i]? = some m ∧ foundAt ms i = m := by
    intro i q hq
    have : i < ms.length := by rw [hl]; exact (List.getElem?_eq_some_iff.1 hq).1
    exact ⟨ms[i], by simp [this], by simp [foundAt, this]⟩
  constructor
  · rintro ⟨h1, h2⟩
    refine ⟨fun x hx => (known_iff alphabet_separated hn ho (charsOf_part hx)).1 (h2 x hx), fun i q hq => ?_⟩
    obtain ⟨m, hm, he⟩ := hat i q hq
    rw [markOf_mark alphabet_separated hn q (charsOf_part (part_self hq)), ← covers_iff ho, he]
    exact h1 i m q hm hq
  · intro h
    refine ⟨fun i m q hm hq => ?_, fun x hx => (known_iff alphabet_separated hn ho (charsOf_part hx)).2 (h.decided x hx)⟩
    have h1 := h.covers i q hq
    rw [markOf_mark alphabet_separated hn q (charsOf_part (part_self hq)), ← covers_iff ho] at h1
    rw [foundAt, hm] at h1
    exact h1

/-- The second check is exact. -/
theorem confirmsAll_iff (hn : NumbersBegin L nums) (ho : o ∉ alphabet nums refs) {ms : List Found} {ns : List (List (Option Char))}
    (hl : ms.length = refs.length) (hl' : ns.length = refs.length) :
    confirmsAll nums refs ms ns = true ↔ LL1 L (fun i => (foundAt ms i).mark (alphabet nums refs))
      (fun i c => keyOf (alphabet nums refs) c ∈ furtherAt ns i) refs := by
  simp only [confirmsAll, hl', Bool.and_eq_true, beq_self_eq_true, and_true, zip_all hl', everyPartOf_iff, confirms_iff hn ho hl]
  have hat : ∀ i q, refs[i]? = some q → ∃ m, ns[i]? = some m ∧ furtherAt ns i = m := by
    intro i q hq
    have : i < ns.length := by rw [hl']; exact (List.getElem?_eq_some_iff.1 hq).1
    exact ⟨ns[i], by simp [this], by simp [furtherAt, this]⟩
  constructor
  · rintro ⟨⟨h1, h2⟩, h3⟩
    refine ⟨h1, fun x hx => (clear_iff alphabet_separated hn ho (charsOf_part hx)).1 (h3 x hx), fun i q hq c => ?_⟩
    obtain ⟨m, hm, he⟩ := hat i q hq
    rw [moreOf_keys alphabet_separated hn c q (charsOf_part (part_self hq)), he]
    exact (hasKeys_iff ho).1 (h2 i m q hm hq) c
  · intro h
    refine ⟨⟨h.toPredictive, fun i m q hm hq => (hasKeys_iff ho).2 fun c hc => ?_⟩,
      fun x hx => (clear_iff alphabet_separated hn ho (charsOf_part hx)).2 (h.oneWay x hx)⟩
    have h1 := h.more i q hq c
    rw [moreOf_keys alphabet_separated hn c q (charsOf_part (part_self hq))] at h1
    have h2 := h1 hc
    rw [furtherAt, hm] at h2
    exact h2

theorem findMarks_length (k : Nat) : (findMarks nums refs k).length = refs.length := by
  cases k <;> simp [findMarks]

theorem findFurther_length (ms : List Found) (k : Nat) : (findFurther nums refs ms k).length = refs.length := by
  cases k <;> simp [findFurther]

theorem start_least {A : List Char} (a : Mark) : a.Covers (Found.start.mark A) :=
  ⟨fun c h => by simp [Found.start, Found.mark] at h, fun c h => by simp [Found.start, Found.mark] at h, (fun h => nomatch h),
    fun _ => rfl, fun _ => rfl, Nat.zero_le _⟩

theorem foundAt_zero (i : Nat) : foundAt (findMarks nums refs 0) i = .start := by
  simp only [foundAt, findMarks, List.getElem?_map]
  cases refs[i]? <;> rfl

theorem foundAt_succ (k i : Nat) : foundAt (findMarks nums refs (k + 1)) i =
    (refs[i]?.map (foundOf (alphabet nums refs) nums (foundAt (findMarks nums refs k)))).getD .start := by
  simp only [foundAt, findMarks, List.getElem?_map]

/-- The marks of step `k`. -/
abbrev stepMark (nums : Bool → List Char) (refs : List Rule) (k i : Nat) : Mark :=
  (foundAt (findMarks nums refs k) i).mark (alphabet nums refs)

theorem stepMark_succ (hn : NumbersBegin L nums) {k i : Nat} {q : Rule} (hq : refs[i]? = some q) :
    stepMark nums refs (k + 1) i = markOf L (stepMark nums refs k) q := by
  rw [stepMark, foundAt_succ, hq]
  exact (markOf_mark alphabet_separated hn q (charsOf_part (part_self hq))).symm

theorem stepMark_none {k i : Nat} (hq : refs[i]? = none) : stepMark nums refs k i = Found.start.mark (alphabet nums refs) := by
  cases k with
  | zero => rw [stepMark, foundAt_zero]
  | succ k => rw [stepMark, foundAt_succ, hq]; rfl

/-- What is found is not more than what must be. -/
theorem stepMark_least (hn : NumbersBegin L nums) {M : Nat → Mark} (hM : ∀ i q, refs[i]? = some q → (M i).Covers (markOf L M q)) :
    ∀ k i, (M i).Covers (stepMark nums refs k i)
  | 0, i => by
    rw [stepMark, foundAt_zero]
    exact start_least _
  | k + 1, i => by
    cases hq : refs[i]? with
    | none =>
      rw [stepMark_none hq]
      exact start_least _
    | some q =>
      rw [stepMark_succ hn hq]
      exact covers_trans (hM i q hq) (markOf_mono (stepMark_least hn hM k) q)

theorem stepMark_grows (hn : NumbersBegin L nums) : ∀ k i, (stepMark nums refs (k + 1) i).Covers (stepMark nums refs k i)
  | 0, i => by
    rw [stepMark, stepMark, foundAt_zero]
    exact start_least _
  | k + 1, i => by
    cases hq : refs[i]? with
    | none =>
      rw [stepMark_none hq, stepMark_none hq]
      exact covers_refl _
    | some q =>
      rw [stepMark_succ hn hq, stepMark_succ hn hq]
      exact markOf_mono (stepMark_grows hn k) q

end

/-! ### Counting -/

theorem count_mono {α : Type} {p q : α → Bool} : ∀ {l : List α}, (∀ x ∈ l, p x = true → q x = true) → l.countP p ≤ l.countP q
  | [], _ => by simp
  | x :: l, h => by
    have := count_mono (l := l) fun y hy => h y (by simp [hy])
    have hx := h x (by simp)
    rw [List.countP_cons, List.countP_cons]
    cases hp : p x with
    | false => simp only [Bool.false_eq_true, if_false]; omega
    | true => simp only [hx hp, if_true]; omega

theorem count_eq {α : Type} {p q : α → Bool} : ∀ {l : List α}, (∀ x ∈ l, p x = true → q x = true) → l.countP q ≤ l.countP p →
    ∀ x ∈ l, q x = true → p x = true
  | y :: l, h, hc, x, hx, hq => by
    have hm := count_mono (l := l) fun y hy => h y (by simp [hy])
    have hy := h y (by simp)
    rw [List.countP_cons, List.countP_cons] at hc
    cases hp : p y with
    | false =>
      cases hqy : q y with
      | true => rw [hp, hqy] at hc; simp only [Bool.false_eq_true, if_false, if_true] at hc; omega
      | false =>
        rcases List.mem_cons.1 hx with rfl | hx
        · rw [hqy] at hq; cases hq
        · rw [hp, hqy] at hc
          exact count_eq (fun z hz => h z (by simp [hz])) (by simpa using hc) x hx hq
    | true =>
      rcases List.mem_cons.1 hx with rfl | hx
      · exact hp
      · rw [hp, hy hp] at hc
        exact count_eq (fun z hz => h z (by simp [hz])) (by simpa using hc) x hx hq

/-- How many characters are in the list. -/
def keyCount (A : List Char) (a : List (Option Char)) : Nat := (allKeys A).countP a.contains

theorem keyCount_le {A : List Char} {a : List (Option Char)} : keyCount A a ≤ A.length + 1 := by
  refine Nat.le_trans List.countP_le_length ?_
  simp [allKeys]

theorem keyCount_mono {A : List Char} {o : Char} (ho : o ∉ A) {a b : List (Option Char)} (h : ∀ c, keyOf A c ∈ a → keyOf A c ∈ b) :
    keyCount A a ≤ keyCount A b := by
  refine count_mono fun x hx => ?_
  obtain ⟨c, rfl⟩ := keyOf_surj ho hx
  simpa using h c

theorem keyCount_eq {A : List Char} {o : Char} (ho : o ∉ A) {a b : List (Option Char)} (h : ∀ c, keyOf A c ∈ a → keyOf A c ∈ b)
    (hc : keyCount A b ≤ keyCount A a) : ∀ c, keyOf A c ∈ b → keyOf A c ∈ a := by
  intro c hb
  have := count_eq (p := a.contains) (q := b.contains) (l := allKeys A) (fun x hx => by
    obtain ⟨c, rfl⟩ := keyOf_surj ho hx
    simpa using h c) hc _ (keyOf_all c) (by simpa using hb)
  simpa using this

/-- How much is known. -/
def foundSize (A : List Char) (f : Found) : Nat :=
  keyCount A f.first + keyCount A f.again + f.empty.toNat + (!f.sure).toNat + (!f.safe).toNat + f.idle

theorem toNat_mono {a b : Bool} (h : a = true → b = true) : a.toNat ≤ b.toNat := by
  cases a with
  | false => simp
  | true => simp [h rfl]

theorem toNat_eq {a b : Bool} (h : b.toNat ≤ a.toNat) : b = true → a = true := by
  cases a <;> cases b <;> simp at h ⊢

theorem not_mono {a b : Bool} (h : b = true → a = true) : (!a) = true → (!b) = true := by
  cases a <;> cases b <;> simp at h ⊢

theorem foundSize_mono {A : List Char} {o : Char} (ho : o ∉ A) {a b : Found} (h : (a.mark A).Covers (b.mark A)) :
    foundSize A b ≤ foundSize A a ∧ (foundSize A a ≤ foundSize A b → (b.mark A).Covers (a.mark A)) := by
  have h1 := keyCount_mono ho h.first
  have h2 := keyCount_mono ho h.again
  have h3 := toNat_mono h.empty
  have h4 := toNat_mono (not_mono h.sure)
  have h5 := toNat_mono (not_mono h.safe)
  have h6 := h.idle
  simp only [Found.mark] at h3 h4 h5 h6
  constructor
  · unfold foundSize; omega
  · intro hc
    unfold foundSize at hc
    refine ⟨keyCount_eq ho h.first (by omega), keyCount_eq ho h.again (by omega), toNat_eq (by simp only [Found.mark]; omega), ?_, ?_,
      by simp only [Found.mark]; omega⟩
    · have : (!a.sure).toNat ≤ (!b.sure).toNat := by omega
      have := toNat_eq this
      simp only [Found.mark]
      intro hb
      cases ha : a.sure with
      | true => rfl
      | false => rw [ha, hb] at this; exact absurd (this rfl) (by simp)
    · have : (!a.safe).toNat ≤ (!b.safe).toNat := by omega
      have := toNat_eq this
      simp only [Found.mark]
      intro hb
      cases ha : a.safe with
      | true => rfl
      | false => rw [ha, hb] at this; exact absurd (this rfl) (by simp)

/-- The sum over the first `n`. -/
def sumTo (f : Nat → Nat) : Nat → Nat
  | 0 => 0
  | n + 1 => sumTo f n + f n

theorem sumTo_mono {f g : Nat → Nat} (h : ∀ i, f i ≤ g i) : ∀ n, sumTo f n ≤ sumTo g n ∧ (sumTo g n ≤ sumTo f n → ∀ i < n, g i ≤ f i)
  | 0 => ⟨Nat.le_refl _, fun _ i hi => absurd hi (Nat.not_lt_zero i)⟩
  | n + 1 => by
    obtain ⟨h1, h2⟩ := sumTo_mono h n
    have h3 := h n
    unfold sumTo
    refine ⟨by omega, fun hc i hi => ?_⟩
    rcases Nat.lt_succ_iff_lt_or_eq.1 hi with hi | rfl
    · exact h2 (by omega) i hi
    · omega

theorem sumTo_le {f : Nat → Nat} {B : Nat} (h : ∀ i, f i ≤ B) : ∀ n, sumTo f n ≤ n * B
  | 0 => by simp [sumTo]
  | n + 1 => by
    have := sumTo_le h n
    have := h n
    rw [sumTo, Nat.succ_mul]
    omega

/-- What grows and is bounded stands still at some time. -/
theorem still {f : Nat → Nat} {B : Nat} (hB : ∀ k, f k ≤ B) : ∃ k ≤ B, f (k + 1) ≤ f k := by
  by_cases h : ∃ k ≤ B, f (k + 1) ≤ f k
  · exact h
  · have : ∀ k, k ≤ B + 1 → k ≤ f k := by
      intro k
      induction k with
      | zero => intro _; exact Nat.zero_le _
      | succ k ih =>
        intro hk
        have h1 := ih (by omega)
        have h2 : ¬ f (k + 1) ≤ f k := fun hle => h ⟨k, by omega, hle⟩
        omega
    have h1 := this (B + 1) (Nat.le_refl _)
    have h2 := hB (B + 1)
    omega

section
variable {L : Lexer} {nums : Bool → List Char} {refs : List Rule} {o : Char}

/-- If there are marks, they are found. -/
theorem findMarks_stops (hn : NumbersBegin L nums) (ho : o ∉ alphabet nums refs) {M : Nat → Mark} {I : Nat} (hI : ∀ i, (M i).idle ≤ I)
    (hM : ∀ i q, refs[i]? = some q → (M i).Covers (markOf L M q)) :
    ∃ k ≤ refs.length * (2 * (alphabet nums refs).length + 5 + I),
      ∀ i q, refs[i]? = some q → (stepMark nums refs k i).Covers (markOf L (stepMark nums refs k) q) := by
  have hb : ∀ k i, foundSize (alphabet nums refs) (foundAt (findMarks nums refs k) i) ≤ 2 * (alphabet nums refs).length + 5 + I := by
    intro k i
    have h1 := keyCount_le (A := alphabet nums refs) (a := (foundAt (findMarks nums refs k) i).first)
    have h2 := keyCount_le (A := alphabet nums refs) (a := (foundAt (findMarks nums refs k) i).again)
    have h3 := (stepMark_least hn hM k i).idle
    have h4 := hI i
    have h5 := Bool.toNat_le (foundAt (findMarks nums refs k) i).empty
    have h6 := Bool.toNat_le (!(foundAt (findMarks nums refs k) i).sure)
    have h7 := Bool.toNat_le (!(foundAt (findMarks nums refs k) i).safe)
    simp only [stepMark, Found.mark] at h3
    unfold foundSize
    omega
  obtain ⟨k, hk, hs⟩ := still (f := fun k => sumTo (fun i => foundSize (alphabet nums refs) (foundAt (findMarks nums refs k) i)) refs.length)
    fun k => sumTo_le (hb k) _
  refine ⟨k, hk, fun i q hq => ?_⟩
  have hi := (List.getElem?_eq_some_iff.1 hq).1
  have h1 := (sumTo_mono (fun i => (foundSize_mono ho (stepMark_grows hn k i)).1) refs.length).2 hs i hi
  have h2 := (foundSize_mono ho (stepMark_grows hn k i)).2 h1
  rw [← stepMark_succ hn hq]
  exact h2

theorem furtherAt_zero (ms : List Found) (i : Nat) : furtherAt (findFurther nums refs ms 0) i = [] := by
  simp only [furtherAt, findFurther, List.getElem?_map]
  cases refs[i]? <;> rfl

theorem furtherAt_succ (ms : List Found) (k i : Nat) : furtherAt (findFurther nums refs ms (k + 1)) i =
    (refs[i]?.map (furtherOf (alphabet nums refs) nums (foundAt ms) (furtherAt (findFurther nums refs ms k)))).getD [] := by
  simp only [furtherAt, findFurther, List.getElem?_map]

/-- The characters of step `k`. -/
abbrev stepMore (nums : Bool → List Char) (refs : List Rule) (ms : List Found) (k i : Nat) (c : Char) : Prop :=
  keyOf (alphabet nums refs) c ∈ furtherAt (findFurther nums refs ms k) i

theorem stepMore_succ (hn : NumbersBegin L nums) {ms : List Found} {k i : Nat} {q : Rule} (hq : refs[i]? = some q) (c : Char) :
    stepMore nums refs ms (k + 1) i c ↔ moreOf L (fun i => (foundAt ms i).mark (alphabet nums refs)) (stepMore nums refs ms k) q c := by
  rw [stepMore, furtherAt_succ, hq]
  exact (moreOf_keys alphabet_separated hn c q (charsOf_part (part_self hq))).symm

theorem stepMore_none {ms : List Found} {k i : Nat} (hq : refs[i]? = none) (c : Char) : ¬ stepMore nums refs ms k i c := by
  cases k with
  | zero => rw [stepMore, furtherAt_zero]; simp
  | succ k => rw [stepMore, furtherAt_succ, hq]; simp

theorem stepMore_least (hn : NumbersBegin L nums) {ms : List Found} {M : Nat → Mark} {N : Nat → Char → Prop}
    (hM : ∀ i, (M i).Covers ((foundAt ms i).mark (alphabet nums refs)))
    (hN : ∀ i q, refs[i]? = some q → ∀ c, moreOf L M N q c → N i c) : ∀ k i c, stepMore nums refs ms k i c → N i c
  | 0, i, c, h => by
    rw [stepMore, furtherAt_zero] at h
    cases h
  | k + 1, i, c, h => by
    cases hq : refs[i]? with
    | none => exact absurd h (stepMore_none hq c)
    | some q =>
      rw [stepMore_succ hn hq] at h
      exact hN i q hq c (moreOf_mono hM (stepMore_least hn hM hN k) c q h)

theorem stepMore_grows (hn : NumbersBegin L nums) {ms : List Found} : ∀ k i c, stepMore nums refs ms k i c → stepMore nums refs ms (k + 1) i c
  | 0, i, c, h => by
    rw [stepMore, furtherAt_zero] at h
    cases h
  | k + 1, i, c, h => by
    cases hq : refs[i]? with
    | none => exact absurd h (stepMore_none hq c)
    | some q =>
      rw [stepMore_succ hn hq] at h ⊢
      exact moreOf_mono (fun i => covers_refl _) (stepMore_grows hn k) c q h

/-- The characters are found as well. -/
theorem findFurther_stops (hn : NumbersBegin L nums) (ho : o ∉ alphabet nums refs) (ms : List Found) :
    ∃ k ≤ refs.length * ((alphabet nums refs).length + 1), ∀ i q, refs[i]? = some q → ∀ c,
      moreOf L (fun i => (foundAt ms i).mark (alphabet nums refs)) (stepMore nums refs ms k) q c → stepMore nums refs ms k i c := by
  obtain ⟨k, hk, hs⟩ := still (f := fun k => sumTo (fun i => keyCount (alphabet nums refs) (furtherAt (findFurther nums refs ms k) i)) refs.length)
    fun k => sumTo_le (fun i => keyCount_le) _
  refine ⟨k, hk, fun i q hq c hc => ?_⟩
  have hi := (List.getElem?_eq_some_iff.1 hq).1
  have h1 := (sumTo_mono (fun i => keyCount_mono ho (stepMore_grows hn (ms := ms) k i)) refs.length).2 hs i hi
  rw [← stepMore_succ hn hq] at hc
  exact keyCount_eq ho (stepMore_grows hn k i) h1 c hc

end

end Verif
