import Verif.Proofs.Rewriting
/-
`historySyntax` reads or fails on every text.
-/
namespace Verif
open Spec Spec.Peg

variable {G : List Peg} {L : Lexer}

/-- The expression reads a part of the text or fails. -/
def Settled (G : List Peg) (e : Peg) (s : Str) : Prop := ∃ x, Matches G e s x ∧ ∀ n, x = some n → n ≤ s.length

theorem settled_word (t s : Str) : Settled G (.word t) s := by
  by_cases h : t <+: s
  · exact ⟨_, word_ok h, by rintro n ⟨⟩; exact h.length_le⟩
  · exact ⟨_, word_no h, by simp⟩

theorem settled_seq {a b : Peg} {s : Str} (h : Settled G a s) (h' : ∀ s', s'.length ≤ s.length → Settled G b s') : Settled G (.seq a b) s := by
  obtain ⟨x, h, hx⟩ := h
  cases x with
  | none => exact ⟨_, .seq_no h, by simp⟩
  | some n =>
    have hn := hx n rfl
    obtain ⟨y, h1, hy⟩ := h' (s.drop n) (by simp)
    refine ⟨_, .seq h h1, ?_⟩
    intro m hm
    obtain ⟨k, rfl, rfl⟩ := Option.map_eq_some_iff.1 hm
    have := hy k rfl
    rw [List.length_drop] at this
    omega

theorem settled_lit {t s : Str} {rs : List Rule} (ht : t ≠ []) (h : ∀ s', s'.length < s.length → Settled G (pegSeq L rs) s') :
    Settled G (pegSeq L (lit t :: rs)) s := by
  by_cases hp : t <+: s
  · obtain ⟨s', rfl⟩ := hp
    have : 0 < t.length := List.length_pos_iff.2 ht
    obtain ⟨x, h1, hx⟩ := h s' (by rw [List.length_append]; omega)
    refine ⟨_, lit_then h1, ?_⟩
    intro m hm
    obtain ⟨k, rfl, rfl⟩ := Option.map_eq_some_iff.1 hm
    have := hx k rfl
    rw [List.length_append]
    omega
  · exact ⟨none, lit_fails hp, by simp⟩

theorem settled_sel {rs : List Rule} {s : Str} (h : ∀ r ∈ rs, Settled G (pegOf L r) s) : Settled G (pegSel L rs) s := by
  induction rs with
  | nil => exact ⟨none, fail_matches, by simp⟩
  | cons r rs ih =>
    rw [pegSel]
    obtain ⟨x, h1, hx⟩ := h r (by simp)
    cases x with
    | some n => exact ⟨_, .alt_first h1, hx⟩
    | none =>
      obtain ⟨y, h2, hy⟩ := ih fun r hr => h r (by simp [hr])
      exact ⟨y, .alt_next h1 h2, hy⟩

theorem settled_empty (s : Str) : Settled G (pegSeq L []) s := by
  rw [pegSeq]
  exact ⟨_, .empty, by rintro n ⟨⟩; simp⟩

theorem settled_cons {r : Rule} {rs : List Rule} {s : Str} (h : Settled G (pegOf L r) s)
    (h' : ∀ s', s'.length ≤ s.length → Settled G (pegSeq L rs) s') : Settled G (pegSeq L (r :: rs)) s := by
  rw [pegSeq]
  exact settled_seq h h'

theorem settled_ref {i : Nat} {r : Rule} (hi : G[i]? = some (pegOf L r)) {s : Str} (h : Settled G (pegOf L r) s) :
    Settled G (pegOf L (refTo i)) s := by
  obtain ⟨x, h, hx⟩ := h
  exact ⟨x, by rw [refTo_peg]; exact .ref hi h, hx⟩

theorem settled_ahead {r : Rule} {s : Str} (h : Settled G (pegOf L r) s) : Settled G (pegOf L (ahead r)) s := by
  obtain ⟨x, h, -⟩ := h
  simp only [ahead, pegOf]
  cases x with
  | none => exact ⟨_, .neg_no (.neg_ok h), by simp⟩
  | some n => exact ⟨_, .neg_ok (.neg_no h), by simp⟩

theorem settled_tag (t s : Str) : Settled G (pegOf L (lit t)) s := by
  rw [lit_peg]
  exact settled_word t s

theorem settled_mark (K : Nat) (s : Str) : Settled G (pegOf L (markRule K)) s := by
  simp only [markRule, pegOf]
  obtain ⟨x, h, hx⟩ := settled_sel (G := G) (L := L) (rs := (List.range K).map fun k => lit (spot k)) (s := s) (by
    intro r hr
    obtain ⟨k, -, rfl⟩ := List.mem_map.1 hr
    exact settled_tag _ _)
  cases x with
  | none => exact ⟨_, .alt_next h .empty, by simp⟩
  | some n => exact ⟨_, .alt_first h, hx⟩

section
variable {N : Nat} {R : List (List Nat × List Nat)} {F : List (List Nat)}

theorem code_ne (a : Nat) : code a ≠ [] := by simp [code]
theorem mark_ne (a : Nat) : spot a ≠ [] := by simp [spot]

/-- By what is left of the text. -/
theorem by_length {P : Str → Prop} (h : ∀ s, (∀ s', s'.length < s.length → P s') → P s) (s : Str) : P s := by
  generalize hl : s.length = l
  induction l using Nat.strongRecOn generalizing s with
  | ind l ih => exact h s fun s' hs => ih s'.length (hl ▸ hs) s' rfl

theorem same_settled (h0 : G[0]? = some (pegOf L (sameRule N))) (s : Str) : Settled G (pegOf L (sameRule N)) s := by
  refine by_length (fun s ih => ?_) s
  simp only [sameRule, pegOf]
  refine settled_sel fun r hr => ?_
  rcases List.mem_append.1 hr with hr | hr
  · obtain ⟨a, -, rfl⟩ := List.mem_map.1 hr
    rw [pegOf]
    exact settled_lit (code_ne a) fun s' hs => settled_cons (settled_ref h0 (ih s' hs)) fun s'' _ =>
      settled_cons (settled_tag _ _) fun _ _ => settled_empty _
  · rw [List.mem_singleton.1 hr]
    exact settled_tag _ _

theorem copy_settled {K : Nat} (h1 : G[1]? = some (pegOf L (copyRule N K))) (s : Str) : Settled G (pegOf L (copyRule N K)) s := by
  refine by_length (fun s ih => ?_) s
  simp only [copyRule, pegOf]
  refine settled_sel fun r hr => ?_
  rcases List.mem_append.1 hr with hr | hr
  · obtain ⟨a, -, rfl⟩ := List.mem_map.1 hr
    rw [pegOf]
    exact settled_lit (code_ne a) fun s' hs => settled_cons (settled_ref h1 (ih s' hs)) fun s'' _ =>
      settled_cons (settled_mark _ _) fun _ _ => settled_cons (settled_tag _ _) fun _ _ => settled_empty _
  · rw [List.mem_singleton.1 hr]
    exact settled_tag _ _

theorem step_settled (h0 : G[0]? = some (pegOf L (sameRule N))) (h2 : G[2]? = some (pegOf L (stepRule N R))) (s : Str) :
    Settled G (pegOf L (stepRule N R)) s := by
  refine by_length (fun s ih => ?_) s
  simp only [stepRule, pegOf]
  refine settled_sel fun r hr => ?_
  rcases List.mem_append.1 hr with hr | hr
  · obtain ⟨a, -, rfl⟩ := List.mem_map.1 hr
    rw [pegOf]
    exact settled_lit (code_ne a) fun s' hs => settled_cons (settled_ref h2 (ih s' hs)) fun s'' _ =>
      settled_cons (settled_tag _ _) fun _ _ => settled_empty _
  · obtain ⟨q, -, rfl⟩ := List.mem_map.1 hr
    rw [pegOf]
    exact settled_cons (settled_tag _ _) fun _ _ => settled_cons (settled_tag _ _) fun _ _ =>
      settled_cons (settled_ref h0 (same_settled h0 _)) fun _ _ => settled_cons (settled_tag _ _) fun _ _ => settled_empty _

theorem skip_settled (h3 : G[3]? = some (pegOf L skipRule)) (s : Str) : Settled G (pegOf L skipRule) s := by
  refine by_length (fun s ih => ?_) s
  simp only [skipRule, pegOf]
  refine settled_sel fun r hr => ?_
  rcases List.mem_append.1 hr with hr | hr
  · obtain ⟨t, ht, rfl⟩ := List.mem_map.1 hr
    rw [pegOf]
    exact settled_lit (by rintro rfl; simp at ht) fun s' hs => settled_cons (settled_ref h3 (ih s' hs)) fun _ _ => settled_empty _
  · rw [List.mem_singleton.1 hr]
    exact settled_tag _ _

theorem found_settled (h4 : G[4]? = some (pegOf L (foundRule N F))) (s : Str) : Settled G (pegOf L (foundRule N F)) s := by
  refine by_length (fun s ih => ?_) s
  simp only [foundRule, pegOf]
  refine settled_sel fun r hr => ?_
  rcases List.mem_append.1 hr with hr | hr
  · obtain ⟨f, -, rfl⟩ := List.mem_map.1 hr
    rw [pegOf]
    exact settled_cons (settled_tag _ _) fun s' _ => settled_cons ⟨_, rest_matches s', by rintro n ⟨⟩; exact Nat.le_refl _⟩ fun _ _ => settled_empty _
  · obtain ⟨a, -, rfl⟩ := List.mem_map.1 hr
    rw [pegOf]
    exact settled_lit (code_ne a) fun s' hs => settled_cons (settled_ref h4 (ih s' hs)) fun _ _ => settled_empty _

theorem skip_shorter (h3 : G[3]? = some (pegOf L skipRule)) {s : Str} {n : Nat} (h : Matches G (pegOf L skipRule) s (some n)) :
    (s.drop n).length < s.length := by
  obtain ⟨b, -, hb⟩ := skip_inv h3 (.ref h3 h)
  have := congrArg List.length hb
  simp only [List.length_append, List.length_cons] at this
  omega

theorem history_settled (h0 : G[0]? = some (pegOf L (sameRule N))) (h1 : G[1]? = some (pegOf L (copyRule N R.length)))
    (h2 : G[2]? = some (pegOf L (stepRule N R))) (h3 : G[3]? = some (pegOf L skipRule)) (h4 : G[4]? = some (pegOf L (foundRule N F)))
    (h5 : G[5]? = some (pegOf L (historyRule R.length))) (s : Str) : Settled G (pegOf L (historyRule R.length)) s := by
  refine by_length (fun s ih => ?_) s
  simp only [historyRule, pegOf]
  refine settled_sel fun r hr => ?_
  simp only [List.mem_cons, List.not_mem_nil, or_false] at hr
  rcases hr with rfl | rfl
  · exact settled_ref h4 (found_settled h4 s)
  · rw [pegOf]
    obtain ⟨x, hx, hxs⟩ := settled_ahead (r := .sequence [refTo 1, markRule R.length, lit ['#']] 0) (G := G) (L := L) (s := s) (by
      rw [pegOf]
      exact settled_cons (settled_ref h1 (copy_settled h1 _)) fun _ _ => settled_cons (settled_mark _ _) fun _ _ =>
        settled_cons (settled_tag _ _) fun _ _ => settled_empty _)
    cases x with
    | none => exact ⟨none, by rw [pegSeq]; exact .seq_no hx, by simp⟩
    | some n =>
      have hn : n = 0 := by
        simp only [ahead, pegOf] at hx
        cases hx
        rfl
      subst hn
      -- the rest is for a shorter text
      have key : Settled G (pegSeq L [refTo 3, ahead (.sequence [refTo 2, lit ['#']] 0), refTo 3, refTo 5]) s := by
        obtain ⟨y, hy, hys⟩ := skip_settled h3 s
        rw [pegSeq, refTo_peg]
        cases y with
        | none => exact ⟨none, .seq_no (.ref h3 hy), by simp⟩
        | some k =>
          have hlt := skip_shorter h3 hy
          have hk := hys k rfl
          obtain ⟨z, hz, hzs⟩ : Settled G (pegSeq L [ahead (.sequence [refTo 2, lit ['#']] 0), refTo 3, refTo 5]) (s.drop k) := by
            refine settled_cons (settled_ahead ?_) fun s' hs' => settled_cons (settled_ref h3 (skip_settled h3 _)) fun s'' hs'' =>
              settled_cons (settled_ref h5 (ih s'' (by omega))) fun _ _ => settled_empty _
            rw [pegOf]
            exact settled_cons (settled_ref h2 (step_settled h0 h2 _)) fun _ _ => settled_cons (settled_tag _ _) fun _ _ => settled_empty _
          refine ⟨_, .seq (.ref h3 hy) hz, ?_⟩
          intro m hm
          obtain ⟨j, rfl, rfl⟩ := Option.map_eq_some_iff.1 hm
          have := hzs j rfl
          rw [List.length_drop] at this
          omega
      obtain ⟨y, hy, hys⟩ := key
      exact ⟨y, by rw [pegSeq]; exact seq_zero hx hy, hys⟩

end

end Verif
