import Verif.Proofs.BootComment
/-
What the whole document costs.
-/
namespace Verif
open Spec

/-- `comment`. -/
def LineCommentQ : Quo := fun s o c =>
  (o = none ∧ c ≤ pot s ∧ (s.head? ≠ some '/' → c ≤ 9)) ∨
    ∃ k, o = some k ∧ 1 ≤ k ∧ k ≤ s.length ∧ s.head? = some '/' ∧ c + 900 + pot (s.drop k) ≤ pot s

/-- An item of `lines`. -/
def LineQ : Quo := fun s o c =>
  (o = none ∧ c ≤ pot s + 13) ∨ ∃ k, o = some k ∧ k ≤ s.length ∧ c + pot (s.drop k) ≤ pot s

section
variable {L : Lexer} {n : Nat}

theorem below_comment {name prop id} : Below L Boot.refs n (.node name prop (some 1) id) LineCommentQ := by
  refine Below.weaken (Below.mono (below_node (r := Boot.comment) rfl (below_select (.cons (below_comment0 rfl n _ _ _)
    (.cons (Below.mono (below_sequence (.cons below_tag (.cons below_skip .nil))) (Nat.le_succ n)) .nil)))) (by omega)) ?_
  rintro s o c ⟨c', ⟨c'', ⟨k, h1, rfl⟩ | ⟨c1, c2, h1, ⟨k, h2, rfl⟩ | ⟨c3, c4, h2, ⟨rfl, rfl⟩, rfl⟩, rfl⟩, rfl⟩, rfl⟩
  · rcases h1 with ⟨h1, _⟩ | ⟨t, rfl, ⟨h1, _⟩ | ⟨k', h1, h2, h3, h4⟩⟩
    · cases h1
    · cases h1
    · cases h1
      have := pot_slash t
      exact .inr ⟨k, rfl, by omega, h3, rfl, by omega⟩
  · rcases h2 with ⟨c', ⟨_, h2⟩ | ⟨k, c3, o', c4, ⟨h2, ⟨h3, h4⟩ | ⟨_, h4⟩⟩, h5, h6, rfl⟩, rfl⟩
    · cases h2
    · cases h4
      obtain ⟨s₁, rfl, h7⟩ := prefix_cons h3
      obtain ⟨s₂, rfl, -⟩ := prefix_cons h7
      rcases h5 with ⟨⟨_, k, h5, _⟩, rfl⟩ | ⟨j, c5, o', c6, ⟨h5, j', h8, h9⟩, ⟨rfl, rfl⟩, rfl, rfl⟩
      · cases h5
      · cases h8
        simp only [Option.map_some, Option.some.injEq, List.length_cons, List.length_nil, List.length_drop] at h6 h9
        have hk : k = 2 + j := by omega
        subst hk
        have h10 := pot_drop (s := '/' :: '/' :: s₂) (k := 2 + j) (by simp only [List.length_cons]; omega)
        rcases h1 with ⟨_, h1⟩ | ⟨t, h1, _⟩
        · exact .inr ⟨2 + j, rfl, by omega, by simp only [List.length_cons]; omega, rfl, by omega⟩
        · cases h1
    · cases h4
  · have h3 : c2 = 2 := by
      rcases h2 with ⟨c', ⟨⟨h2, _⟩, _⟩ | ⟨k, c3, o', c4, _, h5, h6, rfl⟩, rfl⟩
      · omega
      · rcases h5 with ⟨⟨_, k, h5, _⟩, rfl⟩ | ⟨j, c5, o', c6, ⟨h5, j', h8, h9⟩, ⟨rfl, rfl⟩, rfl, rfl⟩
        · cases h5
        · cases h6
    subst h3
    have hl := pot_len s
    rcases h1 with ⟨_, h1⟩ | ⟨t, rfl, ⟨_, _, h1⟩ | ⟨k', h1, _⟩⟩
    · exact .inl ⟨rfl, by omega, fun _ => by omega⟩
    · have := pot_slash t
      exact .inl ⟨rfl, by omega, fun h => absurd rfl h⟩
    · cases h1

/-- `node`: refused at once, or begun with a number. -/
theorem below_nodeRule (hL : L.Lawful) (hX : L.Exact) {name prop id} : Below L Boot.refs n (.node name prop (some 3) id) (fun s o c =>
    (o = none ∧ c ≤ 3) ∨ (s.head? ≠ some '/' ∧
      ((o = none ∧ c ≤ 600 * s.length + 150) ∨ ∃ k, o = some k ∧ k ≤ s.length ∧ 1 ≤ k ∧ c ≤ 600 * k + 150))) := by
  have hc : ∀ {r : Rule} {m b : Nat}, cheap Boot.refs 9 r = some (m, b) → Below L Boot.refs n r (GrowQ b) := fun h =>
    (cheap_below hL 9 _ _ _ h n).weaken fun _ _ _ h => h.grow
  have hr : ∀ name prop id, Below L Boot.refs n (.node name prop (some 21) id) (GrowQ 138) := fun name prop id =>
    (below_rule hL n name prop id).weaken fun _ _ _ h => h.grow
  have g : ∀ {a} s o c, GrowQ a s o c → GrowQ a s o c := fun _ _ _ h => h
  have gn : ∀ s o c, seqQ [] s o c → GrowQ 0 s o c := fun _ _ _ h => grow_nil h
  have gc : ∀ {a b} {Qs : List Quo}, (∀ s o c, seqQ Qs s o c → GrowQ b s o c) →
    ∀ s o c, seqQ (GrowQ a :: Qs) s o c → GrowQ (a + b) s o c := fun h _ _ _ h' => grow_cons g h h'
  refine Below.weaken (Below.mono (below_node (r := Boot.node) rfl (below_sequence (.cons (below_number hL hX) (.cons (hc rfl)
    (.cons (hc rfl) (.cons (hc rfl) (.cons (hc rfl) (.cons (hc rfl) (.cons (hc rfl) (.cons (hc rfl)
    (.cons (hr _ _ _) .nil))))))))))) (by omega)) ?_
  rintro s o c ⟨c', ⟨c'', ⟨⟨h1, _⟩, rfl⟩ | ⟨k, c1, o', c2, ⟨h1, h2⟩, h3, rfl, rfl⟩, rfl⟩, rfl⟩
  · exact .inl ⟨rfl, by omega⟩
  · obtain ⟨h4, h5, h6⟩ := h2 k rfl
    have h7 := gc (gc (gc (gc (gc (gc (gc (gc gn))))))) _ _ _ h3
    refine .inr ⟨h6, ?_⟩
    simp only [GrowQ, List.length_drop] at h7
    cases o' with
    | none =>
      have := h7.2 rfl
      exact .inl ⟨rfl, by omega⟩
    | some k' =>
      have := h7.1 k' rfl
      exact .inr ⟨k + k', rfl, by omega, by omega, by omega⟩

theorem below_item1 (hL : L.Lawful) : Below L Boot.refs n Boot.item1 LineQ := by
  refine Below.weaken (Below.mono (below_sequence (.cons below_skipWs (.cons (Below.mono (below_select (.cons
    (cheap_below hL 9 _ 5 7 rfl n) (.cons below_comment .nil))) (Nat.le_succ n)) .nil))) (Nat.le_succ n)) ?_
  rintro s o c ⟨c', ⟨⟨_, k, h1, _⟩, _⟩ | ⟨k, c1, o', c2, ⟨h1, k', h2, h3⟩, h4, rfl, rfl⟩, rfl⟩
  · cases h1
  · cases h2
    have hp := pot_drop h3
    have key : ∀ s : Str, ∀ o c, (∃ c', selQ [Cheap 5 7, LineCommentQ] s o c' ∧ c = 1 + c') → 
        (o = none ∧ c ≤ pot s + 8) ∨ ∃ k, o = some k ∧ k ≤ s.length ∧ c + 800 + pot (s.drop k) ≤ pot s := by
      rintro s o c ⟨c', ⟨k, ⟨h1, h2⟩, rfl⟩ | ⟨c1, c2, ⟨h1, _⟩, ⟨k, h2, rfl⟩ | ⟨c3, c4, h2, ⟨rfl, rfl⟩, rfl⟩, rfl⟩, rfl⟩
      · have h3 := h2 k rfl
        have := pot_drop h3.2
        exact .inr ⟨k, rfl, h3.2, by omega⟩
      · rcases h2 with ⟨h2, _⟩ | ⟨k', h2, h3, h4, _, h5⟩
        · cases h2
        · cases h2
          exact .inr ⟨k, rfl, h4, by omega⟩
      · rcases h2 with ⟨_, h2, _⟩ | ⟨k', h2, _⟩
        · exact .inl ⟨rfl, by omega⟩
        · cases h2
    rcases h4 with ⟨h4, rfl⟩ | ⟨j, c3, o', c4, h4, ⟨rfl, rfl⟩, rfl, rfl⟩
    · rcases key _ _ _ h4 with ⟨_, h5⟩ | ⟨_, h5, _⟩
      · exact .inl ⟨rfl, by omega⟩
      · cases h5
    · rcases key _ _ _ h4 with ⟨h5, _⟩ | ⟨j', h5, h6, h7⟩
      · cases h5
      · cases h5
        rw [List.drop_drop] at h7
        rw [List.length_drop] at h6
        exact .inr ⟨k + j, by simp, by omega, by omega⟩

theorem below_item2 (hL : L.Lawful) (hX : L.Exact) : Below L Boot.refs n Boot.item2 LineQ := by
  refine Below.weaken (Below.mono (below_sequence (.cons below_skipWs (.cons (Below.mono (below_select (.cons
    (below_nodeRule hL hX) (.cons below_comment .nil))) (Nat.le_succ n)) .nil))) (Nat.le_succ n)) ?_
  rintro s o c ⟨c', ⟨⟨_, k, h1, _⟩, _⟩ | ⟨k, c1, o', c2, ⟨h1, k', h2, h3⟩, h4, rfl, rfl⟩, rfl⟩
  · cases h1
  · cases h2
    have hp := pot_drop h3
    have key : ∀ s : Str, ∀ o c, (∃ c', selQ [fun s o c => (o = none ∧ c ≤ 3) ∨ (s.head? ≠ some '/' ∧
      ((o = none ∧ c ≤ 600 * s.length + 150) ∨ ∃ k, o = some k ∧ k ≤ s.length ∧ 1 ≤ k ∧ c ≤ 600 * k + 150)), LineCommentQ] s o c' ∧ c = 1 + c') → 
        (o = none ∧ c ≤ pot s + 8) ∨ ∃ k, o = some k ∧ k ≤ s.length ∧ c + 200 + pot (s.drop k) ≤ pot s := by
      rintro s o c ⟨c', ⟨k, ⟨h1, _⟩ | ⟨h1, ⟨h2, _⟩ | ⟨k', h2, h3, h4, h5⟩⟩, rfl⟩ | ⟨c1, c2, h1, ⟨k, h2, rfl⟩ | ⟨c3, c4, h2, ⟨rfl, rfl⟩, rfl⟩, rfl⟩, rfl⟩
      · cases h1
      · cases h2
      · cases h2
        have := pot_drop h3
        exact .inr ⟨k, rfl, h3, by omega⟩
      · rcases h2 with ⟨h2, _⟩ | ⟨k', h2, h3, h4, h6, h5⟩
        · cases h2
        · cases h2
          rcases h1 with ⟨_, h1⟩ | ⟨h1, _⟩
          · exact .inr ⟨k, rfl, h4, by omega⟩
          · exact absurd h6 h1
      · have hl := pot_len s
        rcases h2 with ⟨_, h2, h3⟩ | ⟨k', h2, _⟩
        · rcases h1 with ⟨_, h1⟩ | ⟨h1, ⟨_, h4⟩ | ⟨_, h4, _⟩⟩
          · exact .inl ⟨rfl, by omega⟩
          · have := h3 h1
            exact .inl ⟨rfl, by omega⟩
          · cases h4
        · cases h2
    rcases h4 with ⟨h4, rfl⟩ | ⟨j, c3, o', c4, h4, ⟨rfl, rfl⟩, rfl, rfl⟩
    · rcases key _ _ _ h4 with ⟨_, h5⟩ | ⟨_, h5, _⟩
      · exact .inl ⟨rfl, by omega⟩
      · cases h5
    · rcases key _ _ _ h4 with ⟨h5, _⟩ | ⟨j', h5, h6, h7⟩
      · cases h5
      · cases h5
        rw [List.drop_drop] at h7
        rw [List.length_drop] at h6
        exact .inr ⟨k + j, by simp, by omega, by omega⟩

theorem below_block {refs : List Rule} {r : Rule} (h : Below L refs n r LineQ) {id} :
    Below L refs n (.lines r false id) (fun s _ c => c ≤ pot s + 14) := by
  refine Below.weaken (Below.mono (below_lines h (J := fun _ s _ c => c ≤ pot s + 13) ?_ ?_ ?_ ?_) (Nat.le_succ n)) ?_
  · intro _ s k _; omega
  · intro _ s k _; omega
  · intro _ s k c _ h1
    have := pot_drop_le s k
    rcases h1 with ⟨_, h1⟩ | ⟨_, h1, _⟩
    · omega
    · cases h1
  · intro _ s k k' c o c' _ h1 h2
    have := pot_drop_le s k
    rcases h1 with ⟨h1, _⟩ | ⟨_, h1, _, h3⟩
    · cases h1
    · cases h1
      omega
  · rintro s o c ⟨c', h1, rfl⟩
    omega

theorem below_document (hL : L.Lawful) (hX : L.Exact) : Below L Boot.refs n Boot.document (fun s _ c => c ≤ 2 * pot s + 30) := by
  refine Below.weaken (Below.mono (below_sequence (.cons (below_block (below_item1 hL)) (.cons (below_block (below_item2 hL hX))
    (.cons below_skipWs .nil)))) (Nat.le_succ n)) ?_
  rintro s o c ⟨c', ⟨h1, _⟩ | ⟨k, c1, o', c2, h1, h2, _, rfl⟩, rfl⟩
  · omega
  · have := pot_drop_le s k
    rcases h2 with ⟨h2, _⟩ | ⟨k, c3, o', c4, h2, h3, _, rfl⟩
    · omega
    · rcases h3 with ⟨⟨h3, _⟩, _⟩ | ⟨k, c5, o', c6, ⟨h3, _⟩, ⟨_, h4⟩, _, rfl⟩
      · omega
      · omega

end
end Verif
