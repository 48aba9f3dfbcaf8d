import Verif.Proofs.CostLogic
import Verif.Proofs.Boot
/-
What the hard-coded rules cost.
-/
namespace Verif
open Spec

section
variable {L : Lexer} {refs : List Rule} {n : Nat}

theorem Below.and {r : Rule} {Q R : Quo} (h : Below L refs n r Q) (h' : Below L refs n r R) :
    Below L refs n r (fun s o c => Q s o c ∧ R s o c) :=
  fun m hm st s p o st' ho => ⟨h m hm st s p o st' ho, h' m hm st s p o st' ho⟩

theorem below_any (r : Rule) : Below L refs n r (fun _ _ _ => True) := fun _ _ _ _ _ _ _ _ => trivial

theorem belowL_any : ∀ rs : List Rule, BelowL L refs n rs (rs.map fun _ _ _ _ => True)
  | [] => trivial
  | r :: rs => ⟨below_any r, belowL_any rs⟩

theorem BelowL.mono {m : Nat} (hm : m ≤ n) : ∀ {rs : List Rule} {Qs : List Quo}, BelowL L refs n rs Qs → BelowL L refs m rs Qs
  | [], [], _ => trivial
  | _ :: _, _ :: _, h => ⟨h.1.mono hm, BelowL.mono hm h.2⟩
  | [], _ :: _, h => h.elim
  | _ :: _, [], h => h.elim

/-! ### Rules without loops -/

/-- All of them, if each has an estimate. -/
def allOf (f : Rule → Option (Nat × Nat)) : List Rule → Option (List (Nat × Nat))
  | [] => some []
  | r :: rs =>
    match f r, allOf f rs with
    | some x, some xs => some (x :: xs)
    | _, _ => none

/-- At least so many characters are taken, with at most so many calls. -/
def cheap (refs : List Rule) : Nat → Rule → Option (Nat × Nat)
  | 0, _ => none
  | _ + 1, .whitespace opt _ => some (if opt then 0 else 1, 1)
  | _ + 1, .tag t false _ _ _ => some (t.length, 1)
  | _ + 1, .tag _ true _ _ _ => some (0, 1)
  | _ + 1, .untilAny _ opt _ _ => some (if opt then 0 else 1, 1)
  | _ + 1, .untilAnyOrWs _ opt _ _ => some (if opt then 0 else 1, 1)
  | _ + 1, .text _ _ _ => some (2, 1)
  | n + 1, .sequence args _ =>
    (allOf (cheap refs n) args).map fun l => ((l.map (·.1)).sum, 1 + (l.map (·.2)).sum)
  | n + 1, .select args _ =>
    (allOf (cheap refs n) args).map fun l => ((l.map (·.1)).foldr min 9, 1 + (l.map (·.2)).sum)
  | n + 1, .optional r _ => (cheap refs n r).map fun x => (0, 1 + x.2)
  | n + 1, .node _ _ (some i) _ =>
    match refs[i]? with
    | none => none
    | some r => (cheap refs n r).map fun x => (x.1, 1 + x.2)
  | _ + 1, _ => none

theorem seqQ_cheap : ∀ {l : List (Nat × Nat)} {s o c}, seqQ (l.map fun x => Cheap x.1 x.2) s o c →
    c ≤ (l.map (·.2)).sum ∧ ∀ k, o = some k → (l.map (·.1)).sum ≤ k ∧ k ≤ s.length
  | [], s, o, c, h => by
    obtain ⟨rfl, rfl⟩ := h
    exact ⟨Nat.le_refl _, fun k hk => by cases hk; simp⟩
  | x :: l, s, o, c, h => by
    simp only [List.map_cons, List.sum_cons]
    rcases h with ⟨h1, rfl⟩ | ⟨k, c1, o', c2, h1, h2, rfl, rfl⟩
    · exact ⟨Nat.le_trans h1.1 (by omega), fun k hk => by cases hk⟩
    · have h3 := seqQ_cheap h2
      have h4 := h1.2 k rfl
      refine ⟨by have := h1.1; omega, fun j hj => ?_⟩
      cases o' with
      | none => cases hj
      | some k' =>
        have h5 := h3.2 k' rfl
        simp only [Option.map_some, Option.some.injEq, List.length_drop] at hj h5
        omega

theorem selQ_cheap : ∀ {l : List (Nat × Nat)} {s o c}, selQ (l.map fun x => Cheap x.1 x.2) s o c →
    c ≤ (l.map (·.2)).sum ∧ ∀ k, o = some k → (l.map (·.1)).foldr min 9 ≤ k ∧ k ≤ s.length
  | [], s, o, c, h => by
    obtain ⟨rfl, rfl⟩ := h
    exact ⟨Nat.le_refl _, fun k hk => by cases hk⟩
  | x :: l, s, o, c, h => by
    simp only [List.map_cons, List.sum_cons, List.foldr_cons]
    rcases h with ⟨k, h1, rfl⟩ | ⟨c1, c2, h1, h2, rfl⟩
    · refine ⟨Nat.le_trans h1.1 (by omega), fun j hj => ?_⟩
      cases hj
      have := h1.2 k rfl
      omega
    · have h3 := selQ_cheap h2
      refine ⟨by have := h1.1; omega, fun j hj => ?_⟩
      have := h3.2 j hj
      omega

theorem allOf_below {f : Rule → Option (Nat × Nat)} (hf : ∀ r m b, f r = some (m, b) → Below L refs n r (Cheap m b)) :
    ∀ {rs : List Rule} {l : List (Nat × Nat)}, allOf f rs = some l → BelowL L refs n rs (l.map fun x => Cheap x.1 x.2)
  | [], l, h => by cases h; exact trivial
  | r :: rs, l, h => by
    simp only [allOf] at h
    split at h
    · rename_i x xs h1 h2
      cases h
      exact ⟨hf r _ _ h1, allOf_below hf h2⟩
    · cases h

theorem isPrefixOf_length {t s : Str} (h : t.isPrefixOf s = true) : t.length ≤ s.length :=
  (List.isPrefixOf_iff_prefix.1 h).length_le

theorem cheap_below (hL : L.Lawful) : ∀ (f : Nat) (r : Rule) (m b : Nat), cheap refs f r = some (m, b) → ∀ n,
    Below L refs n r (Cheap m b) := by
  intro f
  induction f with
  | zero => intro r m b h; simp [cheap] at h
  | succ f ih =>
    intro r m b h n
    cases r with
    | whitespace opt id => simp only [cheap, Option.some.injEq, Prod.mk.injEq] at h; obtain ⟨rfl, rfl⟩ := h; exact below_whitespace
    | untilAny any opt prop id => simp only [cheap, Option.some.injEq, Prod.mk.injEq] at h; obtain ⟨rfl, rfl⟩ := h; exact below_untilAny
    | untilAnyOrWs any opt prop id => simp only [cheap, Option.some.injEq, Prod.mk.injEq] at h; obtain ⟨rfl, rfl⟩ := h; exact below_untilAnyOrWs
    | text ae prop id =>
      simp only [cheap, Option.some.injEq, Prod.mk.injEq] at h
      obtain ⟨rfl, rfl⟩ := h
      exact (below_text hL).weaken fun s o c h => ⟨Nat.le_of_eq h.1, fun k hk => ⟨(h.2 k hk).1, (h.2 k hk).2.1⟩⟩
    | tag t not inv prop id =>
      cases not with
      | false =>
        simp only [cheap, Option.some.injEq, Prod.mk.injEq] at h
        obtain ⟨rfl, rfl⟩ := h
        refine below_tag.weaken fun s o c h => ⟨Nat.le_of_eq h.1, fun k hk => ?_⟩
        rcases h.2 with ⟨h1, h2⟩ | ⟨_, h2⟩
        · rw [hk] at h2; cases h2; exact ⟨Nat.le_refl _, isPrefixOf_length h1⟩
        · rw [hk] at h2; cases h2
      | true =>
        simp only [cheap, Option.some.injEq, Prod.mk.injEq] at h
        obtain ⟨rfl, rfl⟩ := h
        refine below_noTag.weaken fun s o c h => ⟨Nat.le_of_eq h.1, fun k hk => ?_⟩
        rcases h.2 with ⟨_, h2⟩ | ⟨_, h2⟩
        · rw [hk] at h2; cases h2
        · rw [hk] at h2; cases h2; exact ⟨Nat.le_refl _, Nat.zero_le _⟩
    | sequence args id =>
      simp only [cheap, Option.map_eq_some_iff, Prod.mk.injEq] at h
      obtain ⟨l, h1, rfl, rfl⟩ := h
      refine (below_sequence (allOf_below (fun r m b h => ih r m b h n) h1)).mono (Nat.le_succ n) |>.weaken ?_
      rintro s o c ⟨c', h2, rfl⟩
      have := seqQ_cheap h2
      exact ⟨by omega, this.2⟩
    | select args id =>
      simp only [cheap, Option.map_eq_some_iff, Prod.mk.injEq] at h
      obtain ⟨l, h1, rfl, rfl⟩ := h
      refine (below_select (allOf_below (fun r m b h => ih r m b h n) h1)).mono (Nat.le_succ n) |>.weaken ?_
      rintro s o c ⟨c', h2, rfl⟩
      have := selQ_cheap h2
      exact ⟨by omega, this.2⟩
    | optional r id =>
      simp only [cheap, Option.map_eq_some_iff, Prod.mk.injEq] at h
      obtain ⟨⟨m', b'⟩, h1, rfl, rfl⟩ := h
      refine (below_optional (ih r _ _ h1 n)).mono (Nat.le_succ n) |>.weaken ?_
      rintro s o c ⟨c', ⟨k, h2, rfl⟩ | ⟨h2, rfl⟩, rfl⟩
      · refine ⟨by have := h2.1; simp only; omega, fun j hj => ?_⟩
        cases hj
        exact ⟨Nat.zero_le _, (h2.2 k rfl).2⟩
      · refine ⟨by have := h2.1; simp only; omega, fun j hj => ?_⟩
        cases hj
        exact ⟨Nat.zero_le _, Nat.zero_le _⟩
    | node name prop ix id =>
      cases ix with
      | none => simp [cheap] at h
      | some i =>
        simp only [cheap] at h
        split at h
        · cases h
        · rename_i r hr
          simp only [Option.map_eq_some_iff, Prod.mk.injEq] at h
          obtain ⟨⟨m', b'⟩, h1, rfl, rfl⟩ := h
          refine (below_node hr (ih r _ _ h1 n)).mono (Nat.le_succ n) |>.weaken ?_
          rintro s o c ⟨c', h2, rfl⟩
          exact ⟨by have := h2.1; simp only; omega, h2.2⟩
    | _ => simp [cheap] at h

/-! ### Linear growth -/

/-- At most 600 calls for each character, and `a` more. -/
def GrowQ (a : Nat) : Quo := fun s o c =>
  (∀ k, o = some k → k ≤ s.length ∧ c ≤ 600 * k + a) ∧ (o = none → c ≤ 600 * s.length + a)

theorem Cheap.grow {m b s o c} (h : Cheap m b s o c) : GrowQ b s o c :=
  ⟨fun k hk => ⟨(h.2 k hk).2, by have := h.1; omega⟩, fun _ => by have := h.1; omega⟩

theorem grow_cons {Q : Quo} {Qs : List Quo} {a b : Nat} (h : ∀ s o c, Q s o c → GrowQ a s o c)
    (h' : ∀ s o c, seqQ Qs s o c → GrowQ b s o c) {s o c} (hs : seqQ (Q :: Qs) s o c) : GrowQ (a + b) s o c := by
  rcases hs with ⟨h1, rfl⟩ | ⟨k, c1, o', c2, h1, h2, rfl, rfl⟩
  · exact ⟨fun k hk => (by cases hk), fun _ => (by have := (h _ _ _ h1).2 rfl; omega)⟩
  · have h3 := (h _ _ _ h1).1 k rfl
    have h4 := h' _ _ _ h2
    simp only [GrowQ, List.length_drop] at h4
    cases o' with
    | none =>
      refine ⟨fun k hk => (by cases hk), fun _ => ?_⟩
      have := h4.2 rfl
      omega
    | some k' =>
      have := h4.1 k' rfl
      refine ⟨fun j hj => ?_, fun h => by cases h⟩
      simp only [Option.map_some, Option.some.injEq] at hj
      omega

theorem grow_nil {s o c} (h : seqQ [] s o c) : GrowQ 0 s o c := by
  obtain ⟨rfl, rfl⟩ := h
  exact ⟨fun k hk => by cases hk; simp, fun h => by cases h⟩

/-- A sequence that begins with a token is refused at once where the token is missing; otherwise the token pays. -/
theorem below_lead {t : Str} (ht : 1 ≤ t.length) {inv prop id rs id'} {Qs : List Quo} (h : BelowL L refs n rs Qs) {a : Nat}
    (hq : ∀ s o c, seqQ Qs s o c → GrowQ a s o c) :
    Below L refs (n + 1) (.sequence (.tag t false inv prop id :: rs) id') (fun s o c =>
      (o = none ∧ c ≤ 2) ∨ (t.isPrefixOf s = true ∧
        ((∃ k, o = some k ∧ 1 ≤ k ∧ k ≤ s.length ∧ c + 600 ≤ 600 * k + a + 2) ∨
          (o = none ∧ c + 600 ≤ 600 * s.length + a + 2)))) := by
  have hb : BelowL L refs n (.tag t false inv prop id :: rs) (TagQ t :: Qs) := ⟨below_tag, h⟩
  refine (below_sequence hb).weaken ?_
  rintro s o c ⟨c', h1, rfl⟩
  rcases h1 with ⟨h1, rfl⟩ | ⟨k, c1, o', c2, h1, h2, rfl, rfl⟩
  · exact .inl ⟨rfl, by have := h1.1; omega⟩
  · obtain ⟨rfl, ⟨h3, h4⟩ | ⟨_, h4⟩⟩ := h1
    · refine .inr ⟨h3, ?_⟩
      have h5 := isPrefixOf_length h3
      cases h4
      have h6 := hq _ _ _ h2
      simp only [GrowQ, List.length_drop] at h6
      cases o' with
      | none =>
        have := h6.2 rfl
        exact .inr ⟨rfl, by omega⟩
      | some k' =>
        have := h6.1 k' rfl
        exact .inl ⟨t.length + k', rfl, by omega, by omega, by omega⟩
    · cases h4

/-! ### Alternatives -/

/-- An alternative: refused with at most `b` calls, or begun with `g`.  If it costs more and fails, then `e`. -/
def Alt (x : Nat × Bool × (Str → Bool)) : Quo := fun s o c =>
  (o = none ∧ c ≤ x.1) ∨ (x.2.2 s = true ∧
    ((∃ k, o = some k ∧ 1 ≤ k ∧ k ≤ s.length ∧ c + 200 ≤ 600 * k) ∨
      (x.2.1 = true ∧ o = none ∧ c + 200 ≤ 600 * s.length)))

/-- After a costly alternative no other begins. -/
def Apart (s : Str) : List (Nat × Bool × (Str → Bool)) → Prop
  | [] => True
  | x :: xs => (x.2.1 = true → x.2.2 s = true → ∀ y ∈ xs, y.2.2 s = false) ∧ Apart s xs

theorem selQ_quiet : ∀ {l : List (Nat × Bool × (Str → Bool))} {s o c}, (∀ y ∈ l, y.2.2 s = false) → selQ (l.map Alt) s o c →
    o = none ∧ c ≤ (l.map (·.1)).sum
  | [], s, o, c, _, h => ⟨h.1, Nat.le_of_eq h.2⟩
  | x :: l, s, o, c, hy, h => by
    have hx := hy x (by simp)
    simp only [List.map_cons, List.sum_cons]
    rcases h with ⟨k, h1, rfl⟩ | ⟨c1, c2, h1, h2, rfl⟩
    · rcases h1 with ⟨h1, _⟩ | ⟨h1, _⟩
      · cases h1
      · rw [hx] at h1; cases h1
    · have h3 := selQ_quiet (fun y hm => hy y (by simp [hm])) h2
      rcases h1 with ⟨_, h1⟩ | ⟨h1, _⟩
      · exact ⟨h3.1, by omega⟩
      · rw [hx] at h1; cases h1

theorem selQ_alts : ∀ {l : List (Nat × Bool × (Str → Bool))} {s o c}, Apart s l → selQ (l.map Alt) s o c →
    (o = none ∧ c ≤ (l.map (·.1)).sum) ∨
    (∃ k, o = some k ∧ 1 ≤ k ∧ k ≤ s.length ∧ c + 200 ≤ 600 * k + (l.map (·.1)).sum) ∨
    ((∃ x ∈ l, x.2.1 = true ∧ x.2.2 s = true) ∧ o = none ∧ c + 200 ≤ 600 * s.length + (l.map (·.1)).sum)
  | [], s, o, c, _, h => .inl ⟨h.1, Nat.le_of_eq h.2⟩
  | x :: l, s, o, c, ha, h => by
    simp only [List.map_cons, List.sum_cons]
    rcases h with ⟨k, h1, rfl⟩ | ⟨c1, c2, h1, h2, rfl⟩
    · rcases h1 with ⟨h1, _⟩ | ⟨_, ⟨k', h1, h2, h3, h4⟩ | ⟨_, h1, _⟩⟩
      · cases h1
      · cases h1
        exact .inr (.inl ⟨k, rfl, h2, h3, by omega⟩)
      · cases h1
    · rcases h1 with ⟨_, h1⟩ | ⟨hg, ⟨k', h1, _⟩ | ⟨he, _, h1⟩⟩
      · rcases selQ_alts ha.2 h2 with ⟨h3, h4⟩ | ⟨k, h3, h4, h5, h6⟩ | ⟨⟨y, hy, hy'⟩, h3, h4⟩
        · exact .inl ⟨h3, by omega⟩
        · exact .inr (.inl ⟨k, h3, h4, h5, by omega⟩)
        · exact .inr (.inr ⟨⟨y, by simp [hy], hy'⟩, h3, by omega⟩)
      · cases h1
      · have h3 := selQ_quiet (ha.1 he hg) h2
        exact .inr (.inr ⟨⟨x, by simp, he, hg⟩, h3.1, by omega⟩)

theorem belowL_alts {rs : List Rule} {l : List (Nat × Bool × (Str → Bool))}
    (h : BelowL L refs n rs (l.map Alt)) (id : DebugId) (ha : ∀ s, Apart s l) :
    Below L refs (n + 1) (.select rs id) (fun s o c =>
      (o = none ∧ c ≤ 1 + (l.map (·.1)).sum) ∨
      (∃ k, o = some k ∧ 1 ≤ k ∧ k ≤ s.length ∧ c + 199 ≤ 600 * k + (l.map (·.1)).sum) ∨
      ((∃ x ∈ l, x.2.1 = true ∧ x.2.2 s = true) ∧ o = none ∧ c + 199 ≤ 600 * s.length + (l.map (·.1)).sum)) := by
  refine (below_select h).weaken ?_
  rintro s o c ⟨c', h1, rfl⟩
  rcases selQ_alts (ha s) h1 with ⟨h3, h4⟩ | ⟨k, h3, h4, h5, h6⟩ | ⟨h2, h3, h4⟩
  · exact .inl ⟨h3, by omega⟩
  · exact .inr (.inl ⟨k, h3, h4, h5, by omega⟩)
  · exact .inr (.inr ⟨h2, h3, by omega⟩)

/-- A cheap rule as an alternative. -/
theorem alt_cheap {r : Rule} {m b : Nat} {g : Str → Bool} (h : Below L refs n r (Cheap m b)) (hm : 1 ≤ m) (hb : b ≤ 400)
    (hg : Below L refs n r (fun s o _ => g s = false → o = none)) : Below L refs n r (Alt (b, false, g)) := by
  refine (h.and hg).weaken ?_
  rintro s o c ⟨⟨h1, h2⟩, h3⟩
  cases o with
  | none => exact .inl ⟨rfl, h1⟩
  | some k =>
    have := h2 k rfl
    refine .inr ⟨?_, .inl ⟨k, rfl, by omega, this.2, by omega⟩⟩
    cases hgs : g s with
    | true => exact hgs
    | false => cases h3 hgs

theorem guard_node {name prop ix id r} {g : Str → Bool} (hr : refs[ix]? = some r)
    (h : Below L refs n r (fun s o _ => g s = false → o = none)) :
    Below L refs (n + 1) (.node name prop (some ix) id) (fun s o _ => g s = false → o = none) :=
  (below_node hr h).weaken fun _ _ _ ⟨_, h, _⟩ => h

theorem guard_lead {t inv prop id rs id'} :
    Below L refs n (.sequence (.tag t false inv prop id :: rs) id') (fun s o _ => t.isPrefixOf s = false → o = none) := by
  have hb : BelowL L refs n (.tag t false inv prop id :: rs) (TagQ t :: _) := ⟨below_tag, belowL_any rs⟩
  refine (below_sequence hb).mono (Nat.le_succ n) |>.weaken ?_
  rintro s o c ⟨c', h1, _⟩ hs
  rcases h1 with ⟨_, rfl⟩ | ⟨k, c1, o', c2, ⟨_, ⟨h1, _⟩ | ⟨_, h1⟩⟩, _⟩
  · rfl
  · rw [hs] at h1; cases h1
  · cases h1

/-- A sequence that begins with a token as an alternative. -/
theorem alt_lead {t : Str} (ht : 1 ≤ t.length) {name prop ix nid inv tprop id rs id'} {Qs : List Quo}
    (hr : refs[ix]? = some (.sequence (.tag t false inv tprop id :: rs) id')) (h : BelowL L refs n rs Qs) {a : Nat}
    (ha : a ≤ 390) (hq : ∀ s o c, seqQ Qs s o c → GrowQ a s o c) :
    Below L refs n (.node name prop (some ix) nid) (Alt (3, true, t.isPrefixOf)) := by
  refine (below_node hr (below_lead ht h hq)).mono (by omega) |>.weaken ?_
  rintro s o c ⟨c', h1, rfl⟩
  rcases h1 with ⟨h1, h2⟩ | ⟨h1, ⟨k, h2, h3, h4, h5⟩ | ⟨h2, h3⟩⟩
  · exact .inl ⟨h1, by simp only; omega⟩
  · exact .inr ⟨h1, .inl ⟨k, h2, h3, h4, by omega⟩⟩
  · exact .inr ⟨h1, .inr ⟨rfl, h2, by omega⟩⟩

end
end Verif
