import Verif.Proofs.Peg
/-
As many `a` as `b` as `c`.
-/
namespace Verif
open Spec

/-- Does the rule have neither lines nor tables? -/
def flatB : Rule → Bool
  | .lines _ _ _ => false
  | .fastSelect _ _ _ _ => false
  | .select args _ => flatL args
  | .sequence args _ => flatL args
  | .separateBy r b _ _ _ => flatB r && flatB b
  | .repeat_ r _ _ => flatB r
  | .optional r _ => flatB r
  | .not r _ => flatB r
  | _ => true
where
  flatL : List Rule → Bool
    | [] => true
    | r :: rs => flatB r && flatL rs

theorem flatL_mem {rs : List Rule} (h : flatB.flatL rs = true) : ∀ r ∈ rs, flatB r = true := by
  induction rs with
  | nil => simp
  | cons a rs ih =>
    simp only [flatB.flatL, Bool.and_eq_true] at h
    intro r hr
    cases hr with
    | head => exact h.1
    | tail _ hr => exact ih h.2 r hr

theorem flatB_child {c r : Rule} (h : flatB r = true) (hc : Child c r) : flatB c = true := by
  cases hc <;> simp_all [flatB] <;> exact flatL_mem (by assumption) _ (by assumption)

theorem flatB_flat {r : Rule} (h : flatB r = true) : Bare r := by
  intro x hx
  induction hx with
  | refl => exact ⟨fun q ind id e => by simp [e, flatB] at h, fun t args tail id e => by simp [e, flatB] at h⟩
  | step _ hc ih => exact ih (flatB_child h hc)

theorem split_char (x : Char) (s : Str) : ∃ n t, s = List.replicate n x ++ t ∧ t.head? ≠ some x := by
  induction s with
  | nil => exact ⟨0, [], rfl, by simp⟩
  | cons c s ih =>
    by_cases hc : c = x
    · obtain ⟨n, t, rfl, ht⟩ := ih
      exact ⟨n + 1, t, by rw [hc, List.replicate_succ]; rfl, ht⟩
    · exact ⟨0, c :: s, rfl, by simpa using hc⟩

/-- `x`, the expression itself or nothing, `y`. -/
def nestedPeg (x y : Char) (ix : Nat) : Peg := .seq (.word [x]) (.seq (.alt (.ref ix) .empty) (.seq (.word [y]) .empty))

section
variable {G : List Peg} {x y : Char} {k : Nat}

theorem nested_ok (hk : G[k]? = some (nestedPeg x y k)) (hxy : x ≠ y) {n : Nat} (hn : n ≠ 0) (u : Str) :
    Peg.Matches G (nestedPeg x y k) (List.replicate n x ++ (List.replicate n y ++ u)) (some (2 * n)) := by
  induction n generalizing u with
  | zero => exact absurd rfl hn
  | succ n ih =>
    have h1 : Peg.Matches G (.word [x]) (List.replicate (n + 1) x ++ (List.replicate (n + 1) y ++ u)) (some 1) :=
      word_ok (t := [x]) (by simp [List.replicate_succ])
    have h3 : ∀ u, Peg.Matches G (.seq (.word [y]) .empty) (y :: u) (some 1) := fun u =>
      .seq (word_ok (t := [y]) (by simp)) .empty
    have e2 : 2 * (n + 1) = 1 + (2 * n + 1) := by omega
    rw [e2]
    refine .seq (o := some (2 * n + 1)) h1 ?_
    have e1 : (List.replicate (n + 1) x ++ (List.replicate (n + 1) y ++ u)).drop 1 =
        List.replicate n x ++ (List.replicate n y ++ (y :: u)) := by
      rw [List.replicate_succ, List.replicate_succ' (n := n) (a := y)]; simp
    rw [e1]
    have hd : (List.replicate n x ++ (List.replicate n y ++ (y :: u))).drop (2 * n) = y :: u := by
      rw [← List.append_assoc, List.drop_left']
      simp; omega
    by_cases h0 : n = 0
    · subst h0
      have hf : Peg.Matches G (nestedPeg x y k) (y :: u) none := .seq_no (word_no (by simp [hxy]))
      exact .seq (n := 0) (o := some 1) (.alt_next (.ref hk hf) .empty) (h3 u)
    · refine .seq (o := some 1) (.alt_first (.ref hk (ih h0 _))) ?_
      rw [hd]
      exact h3 u

theorem nested_no (hk : G[k]? = some (nestedPeg x y k)) (hxy : x ≠ y) {n : Nat} {t : Str} (ht : t.head? ≠ some x)
    (hn : n = 0 ∨ ¬ List.replicate n y <+: t) : Peg.Matches G (nestedPeg x y k) (List.replicate n x ++ t) none := by
  have hy : ∀ {s : Str}, s.head? ≠ some y → Peg.Matches G (.seq (.word [y]) .empty) s none := by
    intro s hs
    refine .seq_no (word_no ?_)
    cases s with
    | nil => simp
    | cons c s => simpa [eq_comm] using hs
  induction n with
  | zero =>
    refine .seq_no (word_no ?_)
    cases t with
    | nil => simp
    | cons c t => simpa [eq_comm] using ht
  | succ n ih =>
    have hn : ¬ List.replicate (n + 1) y <+: t := by simpa using hn
    refine .seq (o := none) (word_ok (t := [x]) (by simp [List.replicate_succ])) ?_
    have e1 : (List.replicate (n + 1) x ++ t).drop [x].length = List.replicate n x ++ t := by simp [List.replicate_succ]
    rw [e1]
    by_cases h0 : n = 0
    · subst h0
      refine .seq (n := 0) (o := none) (.alt_next (.ref hk (ih (.inl rfl))) .empty) (hy ?_)
      cases t with
      | nil => simp
      | cons c t => simpa [eq_comm, List.replicate_succ] using hn
    · by_cases hp : List.replicate n y <+: t
      · obtain ⟨u, rfl⟩ := hp
        refine .seq (o := none) (.alt_first (.ref hk (nested_ok hk hxy h0 u))) ?_
        have hd : (List.replicate n x ++ (List.replicate n y ++ u)).drop (2 * n) = u := by
          rw [← List.append_assoc, List.drop_left']
          simp; omega
        rw [hd]
        refine hy fun hu => hn ?_
        cases u with
        | nil => cases hu
        | cons c u =>
          cases hu
          exact ⟨u, by rw [List.replicate_succ']; simp⟩
      · refine .seq (n := 0) (o := none) (.alt_next (.ref hk (ih (.inr hp))) .empty) (hy ?_)
        obtain ⟨m, rfl⟩ := Nat.exists_eq_succ_of_ne_zero h0
        simpa [List.replicate_succ] using hxy

/-- The whole of the text is read when there are as many of each. -/
theorem abc_whole {e : Peg} (h0 : G[0]? = some (nestedPeg 'a' 'b' 0)) (h1 : G[1]? = some (nestedPeg 'b' 'c' 1))
    (he : e = .seq (.neg (.neg (.seq (.ref 0) (.seq (.word c!"c") .empty)))) (.seq (.plus (.word c!"a")) (.seq (.ref 1) .empty)))
    {text : Str} : Peg.Matches G e text (some text.length) ↔
      ∃ n, n ≠ 0 ∧ text = List.replicate n 'a' ++ (List.replicate n 'b' ++ List.replicate n 'c') := by
  subst he
  -- the repetition reads all the `a`
  have reps : ∀ n t, t.head? ≠ some 'a' → Peg.Matches G (.star (.word c!"a")) (List.replicate n 'a' ++ t) (some n) := by
    intro n t ht
    induction n with
    | zero =>
      refine .star_stop (word_no ?_)
      cases t with
      | nil => simp
      | cons c t => simpa [eq_comm] using ht
    | succ n ih =>
      have h : Peg.Matches G (.star (.word c!"a")) ('a' :: (List.replicate n 'a' ++ t)) (some (1 + n)) :=
        .star_more (o := some n) (word_ok (t := c!"a") (by simp)) ih
      simpa [List.replicate_succ, Nat.add_comm] using h
  have plus : ∀ n t, n ≠ 0 → t.head? ≠ some 'a' → Peg.Matches G (.plus (.word c!"a")) (List.replicate n 'a' ++ t) (some n) := by
    intro n t hn ht
    obtain ⟨m, rfl⟩ := Nat.exists_eq_succ_of_ne_zero hn
    have e : m.succ = 1 + m := by omega
    have h : Peg.Matches G (.plus (.word c!"a")) ('a' :: (List.replicate m 'a' ++ t)) (some (1 + m)) :=
      .seq (o := some m) (word_ok (t := c!"a") (by simp)) (reps m t ht)
    rw [e, Nat.add_comm]
    simpa [List.replicate_succ, Nat.add_comm] using h
  constructor
  · intro h
    obtain ⟨n, t, rfl, ht⟩ := split_char 'a' text
    obtain ⟨m, u, rfl, hu⟩ := split_char 'b' t
    -- the first part
    generalize hx : some (List.replicate n 'a' ++ (List.replicate m 'b' ++ u)).length = x at h
    cases h with
    | seq_no => cases hx
    | @seq _ _ _ k o ha hb =>
      have hnn : ∃ j, Peg.Matches G (.seq (.ref 0) (.seq (.word c!"c") .empty)) (List.replicate n 'a' ++ (List.replicate m 'b' ++ u)) (some j) ∧ k = 0 := by
        generalize hk : some k = y at ha
        cases ha with
        | neg_no => cases hk
        | neg_ok ha =>
          cases hk
          generalize hk : (none : Option Nat) = y at ha
          cases ha with
          | neg_ok => cases hk
          | neg_no ha => exact ⟨_, ha, rfl⟩
      obtain ⟨j, hj, rfl⟩ := hnn
      rw [List.drop_zero] at hb
      have hn : n ≠ 0 := by
        rintro rfl
        have h2 : Peg.Matches G (.seq (.ref 0) (.seq (.word c!"c") .empty)) (List.replicate 0 'a' ++ (List.replicate m 'b' ++ u)) none :=
          .seq_no (.ref h0 (nested_no h0 (by decide) ht (.inl rfl)))
        cases hj.det h2
      have hp : List.replicate n 'b' <+: List.replicate m 'b' ++ u := by
        by_cases hp : List.replicate n 'b' <+: List.replicate m 'b' ++ u
        · exact hp
        · have h2 : Peg.Matches G (.seq (.ref 0) (.seq (.word c!"c") .empty)) (List.replicate n 'a' ++ (List.replicate m 'b' ++ u)) none :=
            .seq_no (.ref h0 (nested_no h0 (by decide) ht (.inr hp)))
          cases hj.det h2
      have hnm : n ≤ m := by
        obtain ⟨v, hv⟩ := hp
        refine Nat.le_of_not_lt fun hlt => hu ?_
        obtain ⟨d, rfl⟩ : ∃ d, n = m + (d + 1) := ⟨n - m - 1, by omega⟩
        rw [← List.replicate_append_replicate, List.append_assoc] at hv
        rw [← List.append_cancel_left hv]
        rfl
      -- the second part
      have hm : m ≠ 0 := by omega
      by_cases hc : List.replicate m 'c' <+: u
      · obtain ⟨v, rfl⟩ := hc
        have h2 : Peg.Matches G (.seq (.plus (.word c!"a")) (.seq (.ref 1) .empty))
            (List.replicate n 'a' ++ (List.replicate m 'b' ++ (List.replicate m 'c' ++ v))) (some (n + 2 * m)) := by
          refine .seq (o := some (2 * m)) (plus n _ hn ht) ?_
          rw [List.drop_left' (by simp)]
          exact .seq (o := some 0) (.ref h1 (nested_ok h1 (by decide) hm v)) .empty
        cases hb.det h2
        have hv : v = [] := by
          simp at hx
          have : v.length = 0 := by omega
          exact List.eq_nil_of_length_eq_zero this
        subst hv
        refine ⟨n, hn, ?_⟩
        have : n = m := by
          refine Nat.le_antisymm hnm (Nat.le_of_not_lt fun hlt => ?_)
          obtain ⟨d, rfl⟩ : ∃ d, m = n + (d + 1) := ⟨m - n - 1, by omega⟩
          have h3 : Peg.Matches G (.seq (.ref 0) (.seq (.word c!"c") .empty))
              (List.replicate n 'a' ++ (List.replicate (n + (d + 1)) 'b' ++ (List.replicate (n + (d + 1)) 'c' ++ []))) none := by
            rw [← List.replicate_append_replicate (n := n) (m := d + 1) (a := 'b'), List.append_assoc]
            refine .seq (o := none) (.ref h0 (nested_ok h0 (by decide) hn _)) (.seq_no (word_no ?_))
            rw [← List.append_assoc, List.drop_left' (by simp; omega)]
            simp [List.replicate_succ]
          cases hj.det h3
        subst this
        simp
      · have h2 : Peg.Matches G (.seq (.plus (.word c!"a")) (.seq (.ref 1) .empty))
            (List.replicate n 'a' ++ (List.replicate m 'b' ++ u)) none := by
          refine .seq (o := none) (plus n _ hn ht) ?_
          rw [List.drop_left' (by simp)]
          exact .seq_no (.ref h1 (nested_no h1 (by decide) hu (.inr hc)))
        cases hb.det h2
        cases hx
  · rintro ⟨n, hn, rfl⟩
    have hd : ∀ u : Str, (List.replicate n 'a' ++ (List.replicate n 'b' ++ u)).drop (2 * n) = u := by
      intro u
      rw [← List.append_assoc, List.drop_left']
      simp; omega
    have hc : Peg.Matches G (.seq (.word c!"c") .empty) (List.replicate n 'c') (some 1) := by
      obtain ⟨m, rfl⟩ := Nat.exists_eq_succ_of_ne_zero hn
      exact .seq (o := some 0) (word_ok (t := c!"c") (by simp [List.replicate_succ])) .empty
    have e : (List.replicate n 'a' ++ (List.replicate n 'b' ++ List.replicate n 'c')).length = 0 + (n + (2 * n + 0)) := by
      simp; omega
    rw [e]
    refine .seq (o := some (n + (2 * n + 0))) (.neg_ok (.neg_no (.seq (o := some 1) (.ref h0 (nested_ok h0 (by decide) hn _)) ?_))) ?_
    · rw [hd]; exact hc
    · refine .seq (o := some (2 * n + 0)) (plus n _ hn ?_) ?_
      · obtain ⟨m, rfl⟩ := Nat.exists_eq_succ_of_ne_zero hn
        simp [List.replicate_succ]
      · simp only [List.drop_zero]
        rw [List.drop_left' (by simp)]
        have := nested_ok h1 (by decide) hn []
        rw [List.append_nil] at this
        exact .seq (o := some 0) (.ref h1 this) .empty

end

end Verif
