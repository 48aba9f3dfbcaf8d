import Verif.Proofs.BootCost
/-
What the rule `rule` of the hard-coded rules costs.
-/
namespace Verif
open Spec

/-- What begins with a character after which much may be read in vain. -/
def hot (s : Str) : Prop := ∃ c, s.head? = some c ∧ c ∈ c!".[{?!"

/-- `rule`: refused soon, or accepted with at most 600 calls for each character, or given up after much has been read. -/
def RuleQ : Quo := fun s o c =>
  (o = none ∧ c ≤ 138) ∨
  (∃ k, o = some k ∧ 1 ≤ k ∧ k ≤ s.length ∧ c + 60 ≤ 600 * k) ∨
  (hot s ∧ o = none ∧ c + 60 ≤ 600 * s.length)

theorem RuleQ.grow {s o c} (h : RuleQ s o c) : GrowQ 138 s o c := by
  rcases h with ⟨rfl, h⟩ | ⟨k, rfl, _, h1, h2⟩ | ⟨_, rfl, h⟩
  · exact ⟨fun k hk => (by cases hk), fun _ => (by omega)⟩
  · exact ⟨fun j hj => (by cases hj; exact ⟨h1, by omega⟩), fun h => (by cases h)⟩
  · exact ⟨fun k hk => (by cases hk), fun _ => (by omega)⟩

/-- The items of a sequence or a selection. -/
def ItemsQ : Quo := fun s o c => ∃ c', ((o = none ∧ RuleQ s none c') ∨ ∃ k, o = some k ∧ k ≤ s.length ∧
    (c' ≤ 600 * k + 138 ∨ (hot (s.drop k) ∧ c' ≤ 600 * s.length))) ∧ c = 1 + c'

section
variable {L : Lexer} {refs : List Rule} {n : Nat}

theorem below_items {r : Rule} (h : Below L refs n r RuleQ) {id id'} :
    Below L refs n (.separateBy r (.whitespace false id) false true id') ItemsQ := by
  refine (below_separateBy h below_whitespace (I := fun s k c => k ≤ s.length ∧
    (c ≤ 600 * k + 138 ∨ (hot (s.drop k) ∧ c ≤ 600 * s.length))) ?_ ?_ ?_).mono (Nat.le_succ n) |>.weaken ?_
  · rintro s c (⟨_, h⟩ | ⟨k, h, _⟩ | ⟨h, _, h1⟩)
    · exact ⟨Nat.zero_le _, .inl (by omega)⟩
    · cases h
    · exact ⟨Nat.zero_le _, .inr ⟨by simpa using h, by omega⟩⟩
  · rintro s k c c' (⟨h, _⟩ | ⟨j, h, _, h1, h2⟩ | ⟨_, h, _⟩) h3
    · cases h
    · cases h
      have := h3.1
      exact ⟨h1, .inl (by omega)⟩
    · cases h
  · rintro s k c k' c' k'' c'' (⟨h, _⟩ | ⟨j, h, _, h1, h2⟩ | ⟨_, h, _⟩) h3 ⟨h4, h5⟩
    · cases h
    · cases h
      have h6 := h3.1
      have h7 := (h3.2 k' rfl).2
      simp only [List.length_drop] at h4 h5 h7
      refine ⟨by omega, ?_⟩
      rcases h5 with h5 | ⟨h5, h8⟩
      · exact .inl (by omega)
      · refine .inr ⟨?_, by omega⟩
        rwa [List.drop_drop, List.drop_drop, ← Nat.add_assoc] at h5
    · cases h
  · rintro s o c h
    exact h

theorem items_grow {t : Char} (ht : t ∉ c!".[{?!") {s o c} (h : seqQ [ItemsQ, TagQ [t]] s o c) : GrowQ 140 s o c := by
  rcases h with ⟨⟨c', ⟨_, h1⟩ | ⟨k, h1, _⟩, rfl⟩, rfl⟩ | ⟨k, c1, o', c2, ⟨c', ⟨h1, _⟩ | ⟨k', h1, h2, h3⟩, rfl⟩, h4, rfl, rfl⟩
  · have := h1.grow.2 rfl
    exact ⟨fun k hk => (by cases hk), fun _ => (by omega)⟩
  · cases h1
  · cases h1
  · cases h1
    rcases h4 with ⟨⟨h4, _⟩, rfl⟩ | ⟨j, c3, o'', c4, ⟨h4, h5⟩, ⟨h6, h7⟩, rfl, rfl⟩
    · exact ⟨fun k hk => (by cases hk), fun _ => (by omega)⟩
    · subst h6 h7 h4
      rcases h5 with ⟨h5, h6⟩ | ⟨_, h6⟩
      · cases h6
        have h8 := isPrefixOf_length h5
        simp only [List.length_drop, List.length_singleton] at h8
        refine ⟨fun j hj => ?_, fun h => (by cases h)⟩
        simp only [Option.map_some, List.length_singleton, Option.some.injEq] at hj
        rcases h3 with h3 | ⟨⟨ch, h9, h10⟩, _⟩
        · omega
        · exfalso
          cases hs : s.drop k with
          | nil => rw [hs] at h9; cases h9
          | cons x xs =>
            rw [hs] at h9 h5
            simp only [List.head?_cons, Option.some.injEq] at h9
            simp only [List.isPrefixOf, Bool.and_true, beq_iff_eq] at h5
            exact ht (by rw [h5, h9]; exact h10)
      · cases h6

/-- Not before a dot. -/
def noDot (s : Str) : Bool := !((c!".").isPrefixOf s)

/-- How `tag` begins. -/
def tagHead (s : Str) : Bool := (c!"!").isPrefixOf s || (c!"_").isPrefixOf s || (c!"\"").isPrefixOf s

theorem guard_reference {name prop id} (hr : refs[9]? = some Boot.reference) :
    Below L refs n (.node name prop (some 9) id) (fun s o _ => noDot s = false → o = none) := by
  refine (guard_node (n := n) hr ?_).mono (Nat.le_succ n)
  refine Below.weaken (Below.mono (below_sequence (.cons below_noTag (.cons below_noTag (belowL_any _)))) (Nat.le_succ n)) ?_
  rintro s o c ⟨c', h1, _⟩ hs
  simp only [noDot, Bool.not_eq_false'] at hs
  rcases h1 with ⟨_, rfl⟩ | ⟨k, c1, o', c2, ⟨_, ⟨_, h1⟩ | ⟨_, h1⟩⟩, h2, rfl, _⟩
  · rfl
  · cases h1
  · cases h1
    rcases h2 with ⟨_, rfl⟩ | ⟨k, c1, o', c2, ⟨_, ⟨_, h1⟩ | ⟨h1, _⟩⟩, h2, rfl, _⟩
    · rfl
    · cases h1
    · rw [List.drop_zero, hs] at h1; cases h1

theorem guard_set (hL : L.Lawful) {name prop id} (hr : refs[4]? = some Boot.set) :
    Below L refs n (.node name prop (some 4) id) (fun s o _ => ((c!"_").isPrefixOf s || (c!"\"").isPrefixOf s) = false → o = none) := by
  refine (guard_node (n := n) hr ?_ (g := fun s => (c!"_").isPrefixOf s || (c!"\"").isPrefixOf s)).mono (Nat.le_succ n)
  refine Below.weaken (Below.mono (below_select (.cons (below_text hL) (.cons guard_lead .nil))) (Nat.le_succ n)) ?_
  rintro s o c ⟨c', h1, _⟩ hs
  rw [Bool.or_eq_false_iff] at hs
  rcases h1 with ⟨k, h1, rfl⟩ | ⟨_, _, _, ⟨k, h1, rfl⟩ | ⟨_, _, _, ⟨rfl, _⟩, _⟩, _⟩
  · exfalso
    have h2 := (h1.2 k rfl).2.2
    cases s with
    | nil => cases h2
    | cons x xs =>
      simp only [List.head?_cons, Option.some.injEq] at h2
      subst h2
      simp [List.isPrefixOf] at hs
  · exact h1 hs.1
  · rfl

theorem guard_tag (hL : L.Lawful) {name prop id} (hr : refs[13]? = some Boot.tag) (hr' : refs[4]? = some Boot.set) :
    Below L refs n (.node name prop (some 13) id) (fun s o _ => tagHead s = false → o = none) := by
  refine (guard_node (n := n) hr ?_).mono (Nat.le_succ n)
  refine Below.weaken (Below.mono (below_sequence (.cons (Below.mono (below_optional below_tag) (Nat.le_succ n))
    (.cons (guard_set hL hr') (belowL_any _)))) (Nat.le_succ n)) ?_
  rintro s o c ⟨c', h1, _⟩ hs
  simp only [tagHead, Bool.or_assoc] at hs
  rw [Bool.or_eq_false_iff] at hs
  rcases h1 with ⟨_, rfl⟩ | ⟨k, c1, o', c2, ⟨_, ⟨_, ⟨_, ⟨h1, _⟩ | ⟨_, h1⟩⟩, _⟩ | ⟨_, h1⟩, _⟩, h2, rfl, _⟩
  · rfl
  · rw [hs.1] at h1; cases h1
  · cases h1
  · cases h1
    rcases h2 with ⟨_, rfl⟩ | ⟨k, c1, o', c2, h1, h2, rfl, _⟩
    · rfl
    · cases h1 (by simpa using hs.2)

/-! ### The rule -/

theorem cheap_alt (hL : L.Lawful) {r : Rule} {m b : Nat} (h : cheap refs 9 r = some (m, b)) (hm : 1 ≤ m) (hb : b ≤ 400)
    {g : Str → Bool} (hg : Below L refs n r (fun s o _ => g s = false → o = none)) : Below L refs n r (Alt (b, false, g)) :=
  alt_cheap (cheap_below hL 9 r m b h n) hm hb hg

/-- The alternatives of `rule`. -/
def ruleAlts : List (Nat × Bool × (Str → Bool)) :=
  [(7, false, (c!".w").isPrefixOf), (22, false, (c!"..").isPrefixOf), (22, false, (c!"...").isPrefixOf),
   (3, true, (c!".l").isPrefixOf), (3, true, (c!".r").isPrefixOf), (14, false, (c!".$").isPrefixOf),
   (15, false, (c!".t").isPrefixOf), (14, false, noDot), (3, true, (c!"[").isPrefixOf), (3, true, (c!"{").isPrefixOf),
   (3, true, (c!".s").isPrefixOf), (21, false, tagHead), (3, true, (c!"?").isPrefixOf), (3, true, (c!"!").isPrefixOf)]

theorem prefix_cons {c : Char} {t s : Str} (h : (c :: t).isPrefixOf s = true) : ∃ s', s = c :: s' ∧ t.isPrefixOf s' = true := by
  cases s with
  | nil => simp at h
  | cons x xs =>
    simp only [List.isPrefixOf, Bool.and_eq_true, beq_iff_eq] at h
    exact ⟨xs, by rw [h.1], h.2⟩

theorem ruleAlts_apart (s : Str) : Apart s ruleAlts := by
  simp only [Apart, ruleAlts, List.mem_cons, List.not_mem_nil, or_false, forall_eq_or_imp, forall_eq, Bool.false_eq_true,
    false_implies, true_and, and_true, true_implies, implies_true]
  refine ⟨?_, ?_, ?_, ?_, ?_, ?_⟩
  all_goals
    intro h
    obtain ⟨s₁, rfl, h₁⟩ := prefix_cons h
    first
    | obtain ⟨s₂, rfl, -⟩ := prefix_cons h₁; simp [List.isPrefixOf, noDot, tagHead]
    | simp [List.isPrefixOf, tagHead]

theorem ruleAlts_hot {s : Str} (h : ∃ x ∈ ruleAlts, x.2.1 = true ∧ x.2.2 s = true) : hot s := by
  simp only [ruleAlts, List.mem_cons, List.not_mem_nil, or_false, exists_eq_or_imp, exists_eq_left, Bool.false_eq_true,
    false_and, true_and, false_or] at h
  rcases h with h | h | h | h | h | h | h
  all_goals
    obtain ⟨s', rfl, -⟩ := prefix_cons h
    exact ⟨_, rfl, by decide⟩

theorem ruleAlts_below (hL : L.Lawful) (h : ∀ name prop id, Below L Boot.refs n (.node name prop (some 21) id) RuleQ) :
    ∃ rs id, Boot.rule = .select rs id ∧ BelowL L Boot.refs n rs (ruleAlts.map Alt) := by
  have hc : ∀ {r : Rule} {m b : Nat}, cheap Boot.refs 9 r = some (m, b) → Below L Boot.refs n r (GrowQ b) := fun h =>
    (cheap_below hL 9 _ _ _ h n).weaken fun _ _ _ h => h.grow
  have hr : ∀ name prop id, Below L Boot.refs n (.node name prop (some 21) id) (GrowQ 138) := fun name prop id =>
    (h name prop id).weaken fun _ _ _ h => h.grow
  have g : ∀ {a} s o c, GrowQ a s o c → GrowQ a s o c := fun _ _ _ h => h
  have gn : ∀ s o c, seqQ [] s o c → GrowQ 0 s o c := fun _ _ _ h => grow_nil h
  have gc : ∀ {a b} {Qs : List Quo}, (∀ s o c, seqQ Qs s o c → GrowQ b s o c) →
    ∀ s o c, seqQ (GrowQ a :: Qs) s o c → GrowQ (a + b) s o c := fun h _ _ _ h' => grow_cons g h h'
  refine ⟨_, _, rfl, .cons ?_ (.cons ?_ (.cons ?_ (.cons ?_ (.cons ?_ (.cons ?_ (.cons ?_ (.cons ?_ (.cons ?_ (.cons ?_
    (.cons ?_ (.cons ?_ (.cons ?_ (.cons ?_ .nil)))))))))))))⟩
  · exact cheap_alt hL (m := 3) (by rfl) (by omega) (by omega) ((guard_node (n := n) rfl guard_lead).mono (Nat.le_succ n))
  · exact cheap_alt hL (m := 5) (by rfl) (by omega) (by omega) ((guard_node (n := n) rfl guard_lead).mono (Nat.le_succ n))
  · exact cheap_alt hL (m := 6) (by rfl) (by omega) (by omega) ((guard_node (n := n) rfl guard_lead).mono (Nat.le_succ n))
  · exact alt_lead (by decide) rfl (.cons (hc rfl) (.cons (hc rfl) (.cons (hc rfl) (.cons (hr _ _ _)
      (.cons (hc rfl) (.cons (hc rfl) .nil)))))) (by decide) (gc (gc (gc (gc (gc (gc gn))))))
  · exact alt_lead (by decide) rfl (.cons (hc rfl) (.cons (hc rfl) (.cons (hr _ _ _)
      (.cons (hc rfl) .nil)))) (by decide) (gc (gc (gc (gc gn))))
  · exact cheap_alt hL (m := 2) (by rfl) (by omega) (by omega) ((guard_node (n := n) rfl guard_lead).mono (Nat.le_succ n))
  · exact cheap_alt hL (m := 3) (by rfl) (by omega) (by omega) ((guard_node (n := n) rfl guard_lead).mono (Nat.le_succ n))
  · exact cheap_alt hL (m := 1) (by rfl) (by omega) (by omega) (guard_reference rfl)
  · exact alt_lead (by decide) rfl (.cons (hc rfl) (.cons (below_items (h _ _ _)) (.cons below_tag .nil))) (by decide)
      (gc fun _ _ _ h => items_grow (by decide) h)
  · exact alt_lead (by decide) rfl (.cons (hc rfl) (.cons (below_items (h _ _ _)) (.cons below_tag .nil))) (by decide)
      (gc fun _ _ _ h => items_grow (by decide) h)
  · exact alt_lead (by decide) rfl (.cons (hc rfl) (.cons (hc rfl) (.cons (hc rfl) (.cons (hc rfl) (.cons (hr _ _ _)
      (.cons (hc rfl) (.cons (hr _ _ _) (.cons (hc rfl) (.cons (hc rfl) .nil))))))))) (by decide)
      (gc (gc (gc (gc (gc (gc (gc (gc (gc gn)))))))))
  · exact cheap_alt hL (m := 2) (by rfl) (by omega) (by omega) (guard_tag hL rfl rfl)
  · exact alt_lead (by decide) rfl (.cons (hr _ _ _) .nil) (by decide) (gc gn)
  · exact alt_lead (by decide) rfl (.cons (hr _ _ _) .nil) (by decide) (gc gn)

theorem below_rule (hL : L.Lawful) : ∀ n name prop id, Below L Boot.refs n (.node name prop (some 21) id) RuleQ := by
  intro n
  induction n with
  | zero => intro _ _ _ m hm; exact absurd hm (Nat.not_lt_zero m)
  | succ n ih =>
    intro name prop id
    obtain ⟨rs, id', h1, h2⟩ := ruleAlts_below hL ih
    refine Below.weaken (Below.mono (below_node (r := .select rs id') (by rw [← h1]; rfl)
      (belowL_alts h2 id' ruleAlts_apart)) (Nat.le_succ _)) ?_
    have hsum : (ruleAlts.map (·.1)).sum = 136 := by decide
    rintro s o c ⟨c', h3, rfl⟩
    rw [hsum] at h3
    rcases h3 with ⟨h3, h4⟩ | ⟨k, h3, h4, h5, h6⟩ | ⟨h3, h4, h5⟩
    · exact .inl ⟨h3, by omega⟩
    · exact .inr (.inl ⟨k, h3, h4, h5, by omega⟩)
    · exact .inr (.inr ⟨ruleAlts_hot h3, h4, by omega⟩)

end
end Verif
