import Verif.Proofs.Peg
/-
Parsing expressions are rules.
-/
namespace Verif
open Spec

theorem mem_charsBelow {c : Char} {n : Nat} (hn : c.toNat < n) : c ∈ charsBelow n := by
  rw [charsBelow, List.mem_filterMap]
  have h : c.toNat.isValidChar := c.valid
  refine ⟨c.toNat, List.mem_range.2 hn, ?_⟩
  rw [dif_pos h]
  congr 1

theorem mem_allChars (c : Char) : c ∈ allChars := by
  unfold allChars
  refine mem_charsBelow ?_
  have h : c.toNat.isValidChar := c.valid
  rcases h with h | h
  · exact Nat.lt_trans h (by decide)
  · exact h.2

theorem ruleOf_flat (e : Peg) : Bare (ruleOf e) := by
  induction e with
  | empty =>
    intro x hx
    cases hx with
    | refl => simp [ruleOf]
    | step hx hc => cases hc with | sequence hm => simp at hm
  | char C =>
    intro x hx
    cases hx with
    | refl => simp [ruleOf]
    | step hx hc =>
      cases hc with
      | select hm =>
        simp only [List.mem_map] at hm
        obtain ⟨c, -, rfl⟩ := hm
        cases hx with
        | refl => simp
        | step _ hc => cases hc
  | token f =>
    intro x hx
    cases hx with
    | refl => simp [ruleOf]
    | step hx hc => cases hc with | sequence hm => simp at hm
  | seq a b iha ihb =>
    intro x hx
    cases hx with
    | refl => simp [ruleOf]
    | step hx hc =>
      cases hc with
      | sequence hm =>
        simp only [List.mem_cons, List.not_mem_nil, or_false] at hm
        rcases hm with rfl | rfl
        · exact iha x hx
        · exact ihb x hx
  | alt a b iha ihb =>
    intro x hx
    cases hx with
    | refl => simp [ruleOf]
    | step hx hc =>
      cases hc with
      | select hm =>
        simp only [List.mem_cons, List.not_mem_nil, or_false] at hm
        rcases hm with rfl | rfl
        · exact iha x hx
        · exact ihb x hx
  | star a ih =>
    intro x hx
    cases hx with
    | refl => simp [ruleOf]
    | step hx hc => cases hc; exact ih x hx
  | neg a ih =>
    intro x hx
    cases hx with
    | refl => simp [ruleOf]
    | step hx hc => cases hc; exact ih x hx
  | ref k =>
    intro x hx
    cases hx with
    | refl => simp [ruleOf]
    | step hx hc => cases hc

section
variable {G' : List Peg} {L : Lexer}

theorem class_no {l : List Char} {c : Char} {s : Str} (h : c ∉ l) :
    Peg.Matches G' (pegSel L (l.map fun c => .tag [c] false false none 0)) (c :: s) none := by
  induction l with
  | nil => exact fail_matches
  | cons d l ih =>
    simp only [List.mem_cons, not_or] at h
    exact .alt_next (word_no (by simp; exact fun e => h.1 e.symm)) (ih h.2)

theorem class_end {l : List Char} : Peg.Matches G' (pegSel L (l.map fun c => .tag [c] false false none 0)) [] none := by
  induction l with
  | nil => exact fail_matches
  | cons d l ih => exact .alt_next (word_no (by simp)) ih

theorem class_ok {l : List Char} {c : Char} {s : Str} (h : c ∈ l) :
    Peg.Matches G' (pegSel L (l.map fun c => .tag [c] false false none 0)) (c :: s) (some 1) := by
  induction l with
  | nil => cases h
  | cons d l ih =>
    by_cases hd : d = c
    · exact .alt_first (word_ok (t := [d]) (by simp [hd]))
    · exact .alt_next (word_no (by simp [hd])) (ih (by simpa [Ne.symm hd] using h))

end

theorem to_rule {L : Lexer} {G : List Peg} (hG : ∀ e ∈ G, e.Pure) {e : Peg} {s : Str} {x : Option Nat} (h : Peg.Matches G e s x)
    (he : e.Pure) : Peg.Matches (G.map fun e => pegOf L (ruleOf e)) (pegOf L (ruleOf e)) s x := by
  induction h with
  | empty => exact .empty
  | char_ok h => exact class_ok (by simp [mem_allChars, h])
  | char_no h => exact class_no (by simp [mem_allChars, h])
  | char_end => exact class_end
  | token => exact he.elim
  | seq_no _ ih => exact .seq_no (ih he.1)
  | @seq a b s n o _ _ ih ih' =>
    have : Peg.Matches (G.map fun e => pegOf L (ruleOf e)) (.seq (pegOf L (ruleOf b)) .empty) (s.drop n) o := by
      have h := ih' he.2
      cases o with
      | none => exact .seq_no h
      | some m => simpa using Peg.Matches.seq h .empty
    exact .seq (ih he.1) this
  | alt_first _ ih => exact .alt_first (ih he.1)
  | @alt_next a b s o _ _ ih ih' =>
    refine .alt_next (ih he.1) ?_
    have h := ih' he.2
    cases o with
    | none => exact .alt_next h fail_matches
    | some m => exact .alt_first h
  | star_stop _ ih => exact .star_stop (ih he)
  | star_more _ _ ih ih' => exact .star_more (ih he) (ih' he)
  | neg_ok _ ih => exact .neg_ok (ih he)
  | neg_no _ ih => exact .neg_no (ih he)
  | ref hk _ ih =>
    refine .ref (by rw [List.getElem?_map, hk]; rfl) (ih (hG _ (List.mem_of_getElem? hk)))

/-- The expressions that do something with their parts, with the parsing expressions of their rules. -/
inductive PureView (L : Lexer) : Peg → Peg → Prop
  | seq {a b} : PureView L (.seq a b) (.seq (pegOf L (ruleOf a)) (.seq (pegOf L (ruleOf b)) .empty))
  | alt {a b} : PureView L (.alt a b) (.alt (pegOf L (ruleOf a)) (.alt (pegOf L (ruleOf b)) .fail))
  | star {a} : PureView L (.star a) (.star (pegOf L (ruleOf a)))
  | neg {a} : PureView L (.neg a) (.neg (pegOf L (ruleOf a)))
  | ref {i} : PureView L (.ref i) (.ref i)

theorem of_rule {L : Lexer} {G : List Peg} (hG : ∀ e ∈ G, e.Pure) {e' : Peg} {s : Str} {x : Option Nat}
    (h : Peg.Matches (G.map fun e => pegOf L (ruleOf e)) e' s x) :
    (∀ e : Peg, e.Pure → e' = pegOf L (ruleOf e) → Peg.Matches G e s x) ∧
      (∀ e : Peg, e.Pure → e' = .seq (pegOf L (ruleOf e)) .empty → Peg.Matches G e s x) ∧
      ∀ e : Peg, e.Pure → e' = .alt (pegOf L (ruleOf e)) .fail → Peg.Matches G e s x := by
  -- characters and the empty expression are done by determinism
  have easy : ∀ {e' s x}, Peg.Matches (G.map fun e => pegOf L (ruleOf e)) e' s x → ∀ e : Peg, e.Pure → (∀ s, ∃ x, Peg.Matches G e s x) →
      e' = pegOf L (ruleOf e) → Peg.Matches G e s x := by
    intro e' s x h e he ht heq
    obtain ⟨y, hy⟩ := ht s
    have := to_rule (L := L) hG hy he
    rw [← heq] at this
    rw [h.det this]
    exact hy
  have char_total : ∀ C s, ∃ x, Peg.Matches G (.char C) s x := by
    intro C s
    cases s with
    | nil => exact ⟨_, .char_end⟩
    | cons c s =>
      cases hc : C c with
      | true => exact ⟨_, .char_ok hc⟩
      | false => exact ⟨_, .char_no hc⟩
  have view : ∀ e : Peg, e.Pure → (∀ s, ∃ x, Peg.Matches G e s x) ∨ PureView L e (pegOf L (ruleOf e)) := by
    intro e he
    cases e with
    | empty => exact .inl fun s => ⟨_, .empty⟩
    | char C => exact .inl (char_total C)
    | token => exact he.elim
    | seq => exact .inr .seq
    | alt => exact .inr .alt
    | star => exact .inr .star
    | neg => exact .inr .neg
    | ref => exact .inr .ref
  induction h with
  | empty =>
    refine ⟨fun e he heq => ?_, by simp, by simp⟩
    rcases view e he with hv | hv
    · exact easy .empty e he hv heq
    · rw [← heq] at hv; cases hv
  | char_ok h =>
    refine ⟨fun e he heq => ?_, by simp, by simp⟩
    rcases view e he with hv | hv
    · exact easy (.char_ok h) e he hv heq
    · rw [← heq] at hv; cases hv
  | char_no h =>
    refine ⟨fun e he heq => ?_, by simp, by simp⟩
    rcases view e he with hv | hv
    · exact easy (.char_no h) e he hv heq
    · rw [← heq] at hv; cases hv
  | char_end =>
    refine ⟨fun e he heq => ?_, by simp, by simp⟩
    rcases view e he with hv | hv
    · exact easy .char_end e he hv heq
    · rw [← heq] at hv; cases hv
  | token =>
    refine ⟨fun e he heq => ?_, by simp, by simp⟩
    rcases view e he with hv | hv
    · exact easy .token e he hv heq
    · rw [← heq] at hv; cases hv
  | seq_no h ih =>
    refine ⟨fun e he heq => ?_, fun e he heq => ?_, by simp⟩
    · rcases view e he with hv | hv
      · exact easy (.seq_no h) e he hv heq
      · rw [← heq] at hv
        cases hv with
        | seq => exact .seq_no (ih.1 _ he.1 rfl)
    · cases heq
      exact ih.1 _ he rfl
  | @seq a b s n o h h' ih ih' =>
    refine ⟨fun e he heq => ?_, fun e he heq => ?_, by simp⟩
    · rcases view e he with hv | hv
      · exact easy (.seq h h') e he hv heq
      · rw [← heq] at hv
        cases hv with
        | seq => exact .seq (ih.1 _ he.1 rfl) (ih'.2.1 _ he.2 rfl)
    · cases heq
      cases h'
      simpa using ih.1 _ he rfl
  | alt_first h ih =>
    refine ⟨fun e he heq => ?_, by simp, fun e he heq => ?_⟩
    · rcases view e he with hv | hv
      · exact easy (.alt_first h) e he hv heq
      · rw [← heq] at hv
        cases hv with
        | alt => exact .alt_first (ih.1 _ he.1 rfl)
    · cases heq
      exact ih.1 _ he rfl
  | @alt_next a b s o h h' ih ih' =>
    refine ⟨fun e he heq => ?_, by simp, fun e he heq => ?_⟩
    · rcases view e he with hv | hv
      · exact easy (.alt_next h h') e he hv heq
      · rw [← heq] at hv
        cases hv with
        | alt => exact .alt_next (ih.1 _ he.1 rfl) (ih'.2.2 _ he.2 rfl)
    · cases heq
      rw [h'.det fail_matches]
      exact ih.1 _ he rfl
  | star_stop h ih =>
    refine ⟨fun e he heq => ?_, by simp, by simp⟩
    rcases view e he with hv | hv
    · exact easy (.star_stop h) e he hv heq
    · rw [← heq] at hv
      cases hv with
      | star => exact .star_stop (ih.1 _ he rfl)
  | star_more h h' ih ih' =>
    refine ⟨fun e he heq => ?_, by simp, by simp⟩
    rcases view e he with hv | hv
    · exact easy (.star_more h h') e he hv heq
    · rw [← heq] at hv
      cases hv with
      | @star a => exact .star_more (ih.1 _ he rfl) (ih'.1 (.star a) he rfl)
  | neg_ok h ih =>
    refine ⟨fun e he heq => ?_, by simp, by simp⟩
    rcases view e he with hv | hv
    · exact easy (.neg_ok h) e he hv heq
    · rw [← heq] at hv
      cases hv with
      | neg => exact .neg_ok (ih.1 _ he rfl)
  | neg_no h ih =>
    refine ⟨fun e he heq => ?_, by simp, by simp⟩
    rcases view e he with hv | hv
    · exact easy (.neg_no h) e he hv heq
    · rw [← heq] at hv
      cases hv with
      | neg => exact .neg_no (ih.1 _ he rfl)
  | ref hk h ih =>
    refine ⟨fun e he heq => ?_, by simp, by simp⟩
    rcases view e he with hv | hv
    · exact easy (.ref hk h) e he hv heq
    · rw [← heq] at hv
      cases hv with
      | ref =>
        rw [List.getElem?_map, Option.map_eq_some_iff] at hk
        obtain ⟨r, hr, rfl⟩ := hk
        exact .ref hr (ih.1 _ (hG _ (List.mem_of_getElem? hr)) rfl)

theorem ruleOf_matches {L : Lexer} {G : List Peg} (hG : ∀ e ∈ G, e.Pure) {e : Peg} {s : Str} {x : Option Nat} (he : e.Pure) :
    Peg.Matches (G.map fun e => pegOf L (ruleOf e)) (pegOf L (ruleOf e)) s x ↔ Peg.Matches G e s x :=
  ⟨fun h => (of_rule hG h).1 e he rfl, fun h => to_rule hG h he⟩

end Verif
