import Verif.Model.Eval
import Verif.Spec.Run
/-
Helper lemmas relating the functions of the model to the vocabulary of the specification.
-/
namespace Verif
open Spec

/-! ### Errors -/

@[simp] theorem errUpdate_none_right (x : Option RErr) : errUpdate x none = x := rfl
@[simp] theorem errUpdate_none_left (x : Option RErr) : errUpdate none x = x := by
  cases x <;> rfl

theorem errUpdate_assoc (a b c : Option RErr) :
    errUpdate c (errUpdate b a) = errUpdate (errUpdate c b) a := by
  rcases a with _ | a
  · simp
  rcases b with _ | b
  · simp
  rcases c with _ | c
  · simp
  simp only [errUpdate]
  by_cases h1 : a.depth ≤ b.depth <;> by_cases h2 : b.depth ≤ c.depth <;>
    by_cases h3 : a.depth ≤ c.depth <;> simp [h1, h2, h3] <;> omega

/-- The error to report after a list of failures: the last of the deepest. -/
def best : List RErr → Option RErr
  | [] => none
  | e :: es => errUpdate (best es) (some e)

@[simp] theorem best_nil : best [] = none := rfl
@[simp] theorem best_single (e : RErr) : best [e] = some e := rfl

theorem best_append (a b : List RErr) : best (a ++ b) = errUpdate (best b) (best a) := by
  induction a with
  | nil => simp
  | cons e es ih => simp [best, ih, errUpdate_assoc]

theorem some_retErr (e : RErr) (oe : Option RErr) : some (retErr e oe) = errUpdate (some e) oe := by
  cases oe with
  | none => rfl
  | some b =>
    simp only [retErr, errUpdate]
    by_cases h : b.depth > e.depth
    · rw [if_pos h, if_neg (by omega)]
    · rw [if_neg h, if_pos (by omega)]

theorem le_retErr (e : RErr) (oe : Option RErr) : e.depth ≤ (retErr e oe).depth := by
  cases oe with
  | none => exact Nat.le_refl _
  | some b =>
    simp only [retErr]
    split
    · omega
    · exact Nat.le_refl _

theorem best_ne_none {tr : List RErr} (h : tr ≠ []) : ∃ e, best tr = some e := by
  cases tr with
  | nil => exact absurd rfl h
  | cons e es =>
    simp only [best]
    cases best es with
    | none => exact ⟨e, rfl⟩
    | some b => simp only [errUpdate]; split <;> exact ⟨_, rfl⟩

theorem best_eq_none {tr : List RErr} : best tr = none ↔ tr = [] := by
  constructor
  · intro h
    by_cases h' : tr = []
    · exact h'
    · obtain ⟨e, he⟩ := best_ne_none h'; simp [he] at h
  · rintro rfl; rfl

theorem best_reported {tr : List RErr} {e : RErr} (h : best tr = some e) : Reported tr e := by
  induction tr generalizing e with
  | nil => simp at h
  | cons a as ih =>
    simp only [best] at h
    cases hb : best as with
    | none =>
      rw [hb] at h
      rw [best_eq_none] at hb
      subst hb
      simp [errUpdate] at h
      subst h
      exact ⟨[], [], rfl, by simp, by simp⟩
    | some b =>
      rw [hb] at h
      obtain ⟨x, y, rfl, hx, hy⟩ := ih hb
      simp only [errUpdate] at h
      split at h
      · simp at h; subst h
        rename_i hle
        refine ⟨a :: x, y, rfl, ?_, hy⟩
        intro z hz
        rcases List.mem_cons.1 hz with rfl | hz
        · exact hle
        · exact hx z hz
      · simp at h; subst h
        rename_i hlt
        refine ⟨[], x ++ b :: y, rfl, by simp, ?_⟩
        intro z hz
        rcases List.mem_append.1 hz with hz | hz
        · have := hx z hz; omega
        · rcases List.mem_cons.1 hz with rfl | hz
          · omega
          · have := hy z hz; omega

theorem reported_unique {tr : List RErr} {e e' : RErr} (h : Reported tr e) (h' : Reported tr e') :
    e = e' := by
  obtain ⟨a, b, rfl, ha, hb⟩ := h
  obtain ⟨a', b', heq, ha', hb'⟩ := h'
  rcases List.append_eq_append_iff.1 heq with ⟨c, hc, hc'⟩ | ⟨c, hc, hc'⟩
  · cases c with
    | nil => simp at hc'; exact hc'.1
    | cons d ds =>
      simp at hc'
      obtain ⟨rfl, rfl⟩ := hc'
      have h1 := ha' e (by rw [hc]; simp)
      have h2 := hb e' (by simp)
      omega
  · cases c with
    | nil => simp at hc'; exact hc'.1.symm
    | cons d ds =>
      simp at hc'
      obtain ⟨rfl, rfl⟩ := hc'
      have h1 := ha e' (by rw [hc]; simp)
      have h2 := hb' e (by simp)
      omega

theorem best_iff {tr : List RErr} {e : RErr} : best tr = some e ↔ Reported tr e := by
  constructor
  · exact best_reported
  · intro h
    obtain ⟨e', he'⟩ := best_ne_none (tr := tr) (by
      rintro rfl
      obtain ⟨a, b, h, _⟩ := h
      simp at h)
    rw [he', reported_unique h (best_reported he')]

theorem reported_mem {tr : List RErr} {e : RErr} (h : Reported tr e) : e ∈ tr := by
  obtain ⟨a, b, rfl, _⟩ := h; simp

theorem reported_max {tr : List RErr} {e : RErr} (h : Reported tr e) :
    ∀ x ∈ tr, x.depth ≤ e.depth := by
  obtain ⟨a, b, rfl, ha, hb⟩ := h
  intro x hx
  rcases List.mem_append.1 hx with hx | hx
  · exact ha x hx
  · rcases List.mem_cons.1 hx with rfl | hx
    · exact Nat.le_refl _
    · exact Nat.le_of_lt (hb x hx)

/-! ### Longest prefixes -/

theorem longest_takeWhile (q : Char → Bool) (P : Char → Prop) (hq : ∀ c, q c = true ↔ P c)
    (cs : List Char) : Longest P cs (cs.takeWhile q).length := by
  induction cs with
  | nil => simp [Longest]
  | cons c cs ih =>
    rw [List.takeWhile_cons]
    split
    · rename_i h
      obtain ⟨h1, h2, h3⟩ := ih
      refine ⟨by simpa using h1, ?_, by simpa using h3⟩
      intro x hx
      simp only [List.length_cons, List.take_succ_cons, List.mem_cons] at hx
      rcases hx with rfl | hx
      · exact (hq _).1 h
      · exact h2 x hx
    · rename_i h
      refine ⟨by simp, by simp, ?_⟩
      intro x hx hp
      simp at hx
      subst hx
      exact h ((hq _).2 hp)

theorem longest_unique {P : Char → Prop} {cs : List Char} {m n : Nat} (hm : Longest P cs m)
    (hn : Longest P cs n) : m = n := by
  induction cs generalizing m n with
  | nil => have := hm.1; have := hn.1; simp at *; omega
  | cons c cs ih =>
    obtain ⟨m1, m2, m3⟩ := hm
    obtain ⟨n1, n2, n3⟩ := hn
    cases m with
    | zero =>
      cases n with
      | zero => rfl
      | succ n => exact absurd (n2 c (by simp)) (m3 c (by simp))
    | succ m =>
      cases n with
      | zero => exact absurd (m2 c (by simp)) (n3 c (by simp))
      | succ n =>
        congr 1
        refine ih ⟨by simpa using m1, ?_, by simpa using m3⟩ ⟨by simpa using n1, ?_, by simpa using n3⟩
        · intro x hx; exact m2 x (by simp [hx])
        · intro x hx; exact n2 x (by simp [hx])

theorem whitespace_longest (p : Pos) : Longest (fun c => isWs c = true) p.src p.whitespace.length :=
  longest_takeWhile _ _ (fun _ => Iff.rfl) _

theorem untilAny_longest (p : Pos) (any : Str) :
    Longest (fun c => c ∉ any) p.src (p.untilAny any).length :=
  longest_takeWhile _ _ (by simp) _

theorem untilAnyOrWs_longest (p : Pos) (any : Str) :
    Longest (fun c => c ∉ any ∧ isWs c = false) p.src (p.untilAnyOrWs any).length :=
  longest_takeWhile _ _ (by simp) _

theorem tag_some {p : Pos} {t : Str} {r : Range} (h : p.tag t = some r) :
    t <+: p.src ∧ r = ⟨p.off, t.length⟩ := by
  unfold Pos.tag at h
  split at h
  · rename_i h'; simp [Pos.peek] at h; exact ⟨List.isPrefixOf_iff_prefix.1 h', h.symm⟩
  · simp at h

theorem tag_none {p : Pos} {t : Str} (h : p.tag t = none) : ¬ t <+: p.src := by
  unfold Pos.tag at h
  split at h
  · simp at h
  · rename_i h'; exact fun hh => h' (List.isPrefixOf_iff_prefix.2 hh)

theorem tag_of_prefix {p : Pos} {t : Str} (h : t <+: p.src) : p.tag t = some ⟨p.off, t.length⟩ := by
  unfold Pos.tag
  rw [if_pos (List.isPrefixOf_iff_prefix.2 h)]; rfl

theorem tag_of_not_prefix {p : Pos} {t : Str} (h : ¬ t <+: p.src) : p.tag t = none := by
  unfold Pos.tag
  rw [if_neg (fun hh => h (List.isPrefixOf_iff_prefix.1 hh))]

/-! ### Indentation -/

theorem eatIndent_some (tab : Nat) : ∀ (cs : List Char) (n k : Nat),
    eatIndent tab cs n = some k → Carries tab n cs k
  | cs, 0, k, h => by
    cases cs <;> simp [eatIndent] at h <;> subst h <;> simp [Carries, width]
  | [], n + 1, k, h => by simp [eatIndent] at h
  | c :: cs, n + 1, k, h => by
    simp only [eatIndent] at h
    split at h
    · rename_i hc
      simp only [Option.map_eq_some_iff] at h
      obtain ⟨k', hk, rfl⟩ := h
      obtain ⟨h1, h2, h3, h4⟩ := eatIndent_some tab cs n k' hk
      subst hc
      refine ⟨by simpa using h1, ?_, ?_, ?_⟩
      · intro x hx
        simp only [List.take_succ_cons, List.mem_cons] at hx
        rcases hx with rfl | hx
        · exact .inl rfl
        · exact h2 x hx
      · simp [width]; omega
      · intro j hj
        cases j with
        | zero => simp [width]
        | succ j => have := h4 j (by omega); simp [width]; omega
    · split at h
      · rename_i hc
        subst hc
        split at h
        · rename_i hle
          simp at h; subst h
          refine ⟨by simp, ?_, ?_, ?_⟩
          · intro x hx; simp at hx; exact .inr hx
          · simp [width]; omega
          · intro j hj
            have : j = 0 := by omega
            subst this; simp [width]
        · rename_i hle
          simp only [Option.map_eq_some_iff] at h
          obtain ⟨k', hk, rfl⟩ := h
          obtain ⟨h1, h2, h3, h4⟩ := eatIndent_some tab cs _ k' hk
          refine ⟨by simpa using h1, ?_, ?_, ?_⟩
          · intro x hx
            simp only [List.take_succ_cons, List.mem_cons] at hx
            rcases hx with rfl | hx
            · exact .inr rfl
            · exact h2 x hx
          · simp [width]; omega
          · intro j hj
            cases j with
            | zero => simp [width]
            | succ j => have := h4 j (by omega); simp [width]; omega
      · simp at h

theorem carries_unique {tab n : Nat} {cs : List Char} {k k' : Nat} (h : Carries tab n cs k)
    (h' : Carries tab n cs k') : k = k' := by
  rcases Nat.lt_trichotomy k k' with hlt | rfl | hlt
  · have := h'.2.2.2 k hlt; have := h.2.2.1; omega
  · rfl
  · have := h.2.2.2 k' hlt; have := h'.2.2.1; omega

theorem carries_tail {tab n : Nat} {c : Char} {cs : List Char} {k : Nat}
    (h : Carries tab (n + 1) (c :: cs) k) :
    ∃ k', k = k' + 1 ∧ Blank c ∧
      Carries tab (n + 1 - (if c = '\t' then tab else 1)) cs k' := by
  obtain ⟨h1, h2, h3, h4⟩ := h
  cases k with
  | zero => simp [width] at h3
  | succ k =>
    refine ⟨k, rfl, h2 c (by simp), by simpa using h1, ?_, ?_, ?_⟩
    · intro x hx; exact h2 x (by simp [hx])
    · simp only [List.take_succ_cons, width] at h3; omega
    · intro j hj
      have := h4 (j + 1) (by omega)
      simp only [List.take_succ_cons, width] at this; omega

theorem eatIndent_none (tab : Nat) : ∀ (cs : List Char) (n : Nat),
    eatIndent tab cs n = none → ¬ ∃ k, Carries tab n cs k
  | cs, 0, h => by cases cs <;> simp [eatIndent] at h
  | [], n + 1, _ => by
    rintro ⟨k, h1, h2, h3, h4⟩
    simp [width] at h3
  | c :: cs, n + 1, h => by
    rintro ⟨k, hk⟩
    obtain ⟨k', rfl, hb, hk'⟩ := carries_tail hk
    simp only [eatIndent] at h
    rcases hb with rfl | rfl
    · simp at h hk'
      exact eatIndent_none tab cs n h ⟨k', hk'⟩
    · simp at h hk'
      split at h
      · simp at h
      · simp at h
        exact eatIndent_none tab cs _ h ⟨k', hk'⟩

theorem eatIndent_of_carries {tab n : Nat} {cs : List Char} {k : Nat} (h : Carries tab n cs k) :
    eatIndent tab cs n = some k := by
  cases he : eatIndent tab cs n with
  | none => exact absurd ⟨k, h⟩ (eatIndent_none tab cs n he)
  | some k' => rw [carries_unique h (eatIndent_some _ _ _ _ he)]

theorem eatIndent_of_not {tab n : Nat} {cs : List Char} (h : ¬ ∃ k, Carries tab n cs k) :
    eatIndent tab cs n = none := by
  cases he : eatIndent tab cs n with
  | none => rfl
  | some k' => exact absurd ⟨k', eatIndent_some _ _ _ _ he⟩ h

theorem eatAlign_spec (tab : Nat) : ∀ cs : List Char,
    Longest Blank cs (eatAlign tab cs).1 ∧
      (eatAlign tab cs).2 = width tab (cs.take (eatAlign tab cs).1)
  | [] => by simp [eatAlign, Longest, width]
  | c :: cs => by
    obtain ⟨⟨h1, h2, h3⟩, h4⟩ := eatAlign_spec tab cs
    simp only [eatAlign]
    split
    · rename_i hc
      subst hc
      refine ⟨⟨by simpa using h1, ?_, by simpa using h3⟩, ?_⟩
      · intro x hx
        simp only [List.take_succ_cons, List.mem_cons] at hx
        rcases hx with rfl | hx
        · exact .inl rfl
        · exact h2 x hx
      · simp [width, ← h4]; omega
    · split
      · rename_i hc
        subst hc
        refine ⟨⟨by simpa using h1, ?_, by simpa using h3⟩, ?_⟩
        · intro x hx
          simp only [List.take_succ_cons, List.mem_cons] at hx
          rcases hx with rfl | hx
          · exact .inr rfl
          · exact h2 x hx
        · simp [width, ← h4]; omega
      · rename_i h1 h2
        refine ⟨⟨by simp, by simp, ?_⟩, by simp [width]⟩
        intro x hx hb
        simp at hx
        subst hx
        rcases hb with rfl | rfl
        · exact h1 rfl
        · exact h2 rfl

/-! ### Bytes -/

theorem utf8_ne_nil (c : Char) : ∃ b bs, String.utf8EncodeChar c = b :: bs := by
  cases h : String.utf8EncodeChar c with
  | nil => have := String.length_utf8EncodeChar c; rw [h] at this; have := c.utf8Size_pos; simp at *
  | cons b bs => exact ⟨b, bs, rfl⟩

theorem firstByte_eq {c : Char} {b : UInt8} {bs : List UInt8} (h : String.utf8EncodeChar c = b :: bs) :
    firstByte c = b := by
  simp [firstByte, h]

/-! ### The token vector -/

theorem readData_spec (toks : List Tok) (t : Tok) (s : Nat) (h : s ≤ toks.length) :
    readData toks t s = (toks.take s ++ [t], s + 1) := by
  unfold readData
  simp only
  split
  · simp; omega
  · have : s = toks.length := by omega
    subst this; simp

theorem pushOpt_none (mk : Str → MetaData) (r : Range) (st : St) (s : Nat) :
    pushOpt none mk r st s = (st, s) := rfl

theorem pushOpt_some (n : Str) (mk : Str → MetaData) (r : Range) (st : St) (s : Nat)
    (h : s ≤ st.toks.length) :
    pushOpt (some n) mk r st s = (⟨st.toks.take s ++ [⟨r, mk n⟩], st.ind⟩, s + 1) := by
  simp [pushOpt, readData_spec _ _ _ h]

@[simp] theorem consume_eq (p : Pos) (n : Nat) : p.consume n = adv p n := rfl

theorem adv_adv (p : Pos) (m n : Nat) : adv (adv p m) n = adv p (m + n) := by
  simp [adv, Nat.add_assoc]

@[simp] theorem adv_off (p : Pos) (n : Nat) : (adv p n).off = p.off + n := rfl
@[simp] theorem adv_src (p : Pos) (n : Nat) : (adv p n).src = p.src.drop n := rfl
@[simp] theorem adv_zero (p : Pos) : adv p 0 = p := by simp [adv]

end Verif
