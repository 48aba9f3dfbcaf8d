import Verif.Proofs.PegBool
import Verif.Spec.SmallHistory
/-
Grammars in which parts of expressions have been given names.
-/
namespace Verif
open Spec Peg

/-- `e'` is `e`, where for some parts there are references to rules of `G'` that are these parts. -/
inductive CutOut (m : Nat) (G' : List Peg) : Peg → Peg → Prop
  | empty : CutOut m G' .empty .empty
  | char {C} : CutOut m G' (.char C) (.char C)
  | token {f} : CutOut m G' (.token f) (.token f)
  | seq {a b a' b'} (ha : CutOut m G' a a') (hb : CutOut m G' b b') : CutOut m G' (.seq a b) (.seq a' b')
  | alt {a b a' b'} (ha : CutOut m G' a a') (hb : CutOut m G' b b') : CutOut m G' (.alt a b) (.alt a' b')
  | star {a a'} (ha : CutOut m G' a a') : CutOut m G' (.star a) (.star a')
  | neg {a a'} (ha : CutOut m G' a a') : CutOut m G' (.neg a) (.neg a')
  | ref {i} (h : i < m) : CutOut m G' (.ref i) (.ref i)
  | out {b b' k} (h : G'[k]? = some b') (hb : CutOut m G' b b') : CutOut m G' b (.ref k)
  | only {b b'} (hb : CutOut m G' b b') : CutOut m G' b (.alt b' .fail)
  | lone {b b'} (hb : CutOut m G' b b') : CutOut m G' b (.seq b' .empty)

/-- The same without a reference, or a list of one, on top. -/
inductive CutHead (m : Nat) (G' : List Peg) : Peg → Peg → Prop
  | empty : CutHead m G' .empty .empty
  | char {C} : CutHead m G' (.char C) (.char C)
  | token {f} : CutHead m G' (.token f) (.token f)
  | seq {a b a' b'} (ha : CutOut m G' a a') (hb : CutOut m G' b b') : CutHead m G' (.seq a b) (.seq a' b')
  | alt {a b a' b'} (ha : CutOut m G' a a') (hb : CutOut m G' b b') : CutHead m G' (.alt a b) (.alt a' b')
  | star {a a'} (ha : CutOut m G' a a') : CutHead m G' (.star a) (.star a')
  | neg {a a'} (ha : CutOut m G' a a') : CutHead m G' (.neg a) (.neg a')
  | ref {i} (h : i < m) : CutHead m G' (.ref i) (.ref i)


theorem only_matches {G : List Peg} {e : Peg} {s : Str} {x : Option Nat} (h : Matches G e s x) : Matches G (.alt e .fail) s x := by
  cases x with
  | none => exact .alt_next h fail_matches
  | some n => exact .alt_first h

theorem lone_matches {G : List Peg} {e : Peg} {s : Str} {x : Option Nat} (h : Matches G e s x) : Matches G (.seq e .empty) s x := by
  cases x with
  | none => exact .seq_no h
  | some n => exact .seq (o := some 0) h .empty

theorem cut_head {m : Nat} {G' : List Peg} {e e' : Peg} {s : Str} {x : Option Nat} (h : CutOut m G' e e')
    (hh : ∀ e', CutHead m G' e e' → Matches G' e' s x) : Matches G' e' s x := by
  induction h with
  | empty => exact hh _ .empty
  | char => exact hh _ .char
  | token => exact hh _ .token
  | seq ha hb => exact hh _ (.seq ha hb)
  | alt ha hb => exact hh _ (.alt ha hb)
  | star ha => exact hh _ (.star ha)
  | neg ha => exact hh _ (.neg ha)
  | ref h => exact hh _ (.ref h)
  | out hk _ ih => exact .ref hk (ih hh)
  | only _ ih => exact only_matches (ih hh)
  | lone _ ih => exact lone_matches (ih hh)

section
variable {G G' : List Peg} {m : Nat}

theorem cut_matches (hG : ∀ i < m, ∃ e e', G[i]? = some e ∧ G'[i]? = some e' ∧ CutOut m G' e e') {e : Peg} {s : Str} {x : Option Nat}
    (h : Matches G e s x) : ∀ {e'}, CutOut m G' e e' → Matches G' e' s x := by
  induction h with
  | empty => exact fun hc => cut_head hc fun _ h => by cases h; exact .empty
  | char_ok h => exact fun hc => cut_head hc fun _ h' => by cases h'; exact .char_ok h
  | char_no h => exact fun hc => cut_head hc fun _ h' => by cases h'; exact .char_no h
  | char_end => exact fun hc => cut_head hc fun _ h' => by cases h'; exact .char_end
  | token => exact fun hc => cut_head hc fun _ h' => by cases h'; exact .token
  | seq_no _ ih => exact fun hc => cut_head hc fun _ h' => by cases h' with | seq ha _ => exact .seq_no (ih ha)
  | seq _ _ ih ih' => exact fun hc => cut_head hc fun _ h' => by cases h' with | seq ha hb => exact .seq (ih ha) (ih' hb)
  | alt_first _ ih => exact fun hc => cut_head hc fun _ h' => by cases h' with | alt ha _ => exact .alt_first (ih ha)
  | alt_next _ _ ih ih' => exact fun hc => cut_head hc fun _ h' => by cases h' with | alt ha hb => exact .alt_next (ih ha) (ih' hb)
  | star_stop _ ih => exact fun hc => cut_head hc fun _ h' => by cases h' with | star ha => exact .star_stop (ih ha)
  | star_more _ _ ih ih' => exact fun hc => cut_head hc fun _ h' => by cases h' with | star ha => exact .star_more (ih ha) (ih' (.star ha))
  | neg_ok _ ih => exact fun hc => cut_head hc fun _ h' => by cases h' with | neg ha => exact .neg_ok (ih ha)
  | neg_no _ ih => exact fun hc => cut_head hc fun _ h' => by cases h' with | neg ha => exact .neg_no (ih ha)
  | ref hi _ ih =>
    refine fun hc => cut_head hc fun _ h' => ?_
    cases h' with
    | ref hlt =>
      obtain ⟨e, e', h0, h1, h2⟩ := hG _ hlt
      rw [hi] at h0
      cases h0
      exact .ref h1 (ih h2)

theorem matches_cut (hG : ∀ i < m, ∃ e e', G[i]? = some e ∧ G'[i]? = some e' ∧ CutOut m G' e e') {e' : Peg} {s : Str} {x : Option Nat}
    (h : Matches G' e' s x) : ∀ {e}, CutOut m G' e e' → Matches G e s x := by
  induction h with
  | empty => exact fun hc => by cases hc; exact .empty
  | char_ok h => exact fun hc => by cases hc; exact .char_ok h
  | char_no h => exact fun hc => by cases hc; exact .char_no h
  | char_end => exact fun hc => by cases hc; exact .char_end
  | token => exact fun hc => by cases hc; exact .token
  | seq_no _ ih =>
    exact fun hc => by
      cases hc with
      | seq ha _ => exact .seq_no (ih ha)
      | lone hb => exact ih hb
  | seq _ h' ih ih' =>
    exact fun hc => by
      cases hc with
      | seq ha hb => exact .seq (ih ha) (ih' hb)
      | lone hb => cases h'; exact ih hb
  | alt_first _ ih =>
    exact fun hc => by
      cases hc with
      | alt ha _ => exact .alt_first (ih ha)
      | only hb => exact ih hb
  | alt_next _ h' ih ih' =>
    exact fun hc => by
      cases hc with
      | alt ha hb => exact .alt_next (ih ha) (ih' hb)
      | only hb => cases h'.det fail_matches; exact ih hb
  | star_stop _ ih => exact fun hc => by cases hc with | star ha => exact .star_stop (ih ha)
  | star_more _ _ ih ih' => exact fun hc => by cases hc with | star ha => exact .star_more (ih ha) (ih' (.star ha))
  | neg_ok _ ih => exact fun hc => by cases hc with | neg ha => exact .neg_ok (ih ha)
  | neg_no _ ih => exact fun hc => by cases hc with | neg ha => exact .neg_no (ih ha)
  | @ref i f _ _ hi _ ih =>
    intro e hc
    cases hc with
    | ref hlt =>
      obtain ⟨e, e', h0, h1, h2⟩ := hG i hlt
      rw [hi] at h1
      cases h1
      exact .ref h0 (ih h2)
    | out hk hb =>
      rw [hi] at hk
      cases hk
      exact ih hb

end

/-! ### Alternatives one by one -/

theorem chainFrom_length : ∀ (k : Nat) (as : List Rule), (chainFrom k as).length = as.length + 1
  | _, [] => rfl
  | k, a :: as => by simp [chainFrom, chainFrom_length (k + 1) as]

/-- One by one. -/
inductive CutAll (L : Lexer) (m : Nat) (rules : List Rule) : List Rule → List Rule → Prop
  | nil : CutAll L m rules [] []
  | cons {a a' as as'} (h : CutOut m (rules.map (pegOf L)) (pegOf L a) (pegOf L a')) (h' : CutAll L m rules as as') : CutAll L m rules (a :: as) (a' :: as')

theorem chain_cut {L : Lexer} {m : Nat} {rules : List Rule} : ∀ {pre : List Rule} {as as' post : List Rule},
    rules = pre ++ (chainFrom pre.length as' ++ post) →
    CutAll L m rules as as' →
    CutOut m (rules.map (pegOf L)) (pegSel L as) (.ref pre.length)
  | pre, _, _, post, e, .nil => by
    refine .out (b' := pegOf L (.select [] 0)) (by simp [e, chainFrom]) ?_
    simp only [pegOf, pegSel]
    exact .neg .empty
  | pre, a :: as, a' :: as', post, e, .cons h h' => by
    have ih := chain_cut (pre := pre ++ [.select [a', refTo (pre.length + 1)] 0]) (as := as) (as' := as') (post := post) (rules := rules)
      (by simp [e, chainFrom]) h'
    refine .out (b' := pegOf L (.select [a', refTo (pre.length + 1)] 0)) (by simp [e, chainFrom]) ?_
    simp only [pegOf, pegSel, refTo]
    refine .alt h (.only ?_)
    simpa using ih

theorem chains_length : ∀ (k : Nat) (xs : List (List Rule)), (headsFrom k xs).length = xs.length
  | _, [] => rfl
  | k, as :: rest => by simp [headsFrom, chains_length _ rest]

/-- The first rules of the selects are these selects. -/
theorem chains_cut {L : Lexer} {m : Nat} {rules : List Rule} : ∀ {pre : List Rule} {xs xs' : List (List Rule)} {post : List Rule} {k : Nat},
    k = pre.length → rules = pre ++ (chainsFrom k xs' ++ post) → xs.length = xs'.length →
    (∀ (i : Nat) (as as' : List Rule), xs[i]? = some as → xs'[i]? = some as' → CutAll L m rules as as') →
    ∀ (i : Nat) (as : List Rule), xs[i]? = some as → ∃ h, (headsFrom k xs')[i]? = some h ∧ CutOut m (rules.map (pegOf L)) (pegSel L as) (pegOf L h)
  | _, [], [], _, _, _, _, _, _, i, as, h => by simp at h
  | pre, as :: xs, as' :: xs', post, k, hk, e, hl, hc, i, bs, h => by
    subst hk
    rw [chainsFrom, List.append_assoc] at e
    cases i with
    | zero =>
      cases h
      exact ⟨_, rfl, chain_cut e (hc 0 as as' rfl rfl)⟩
    | succ i =>
      refine chains_cut (pre := pre ++ chainFrom pre.length as') (xs := xs) (xs' := xs') (post := post)
        (by simp [chainFrom_length]) (by simp [e]) (by simpa using hl) (fun i bs bs' h h' => hc (i + 1) bs bs' h h') i bs h

theorem cutAll_map {L : Lexer} {m : Nat} {rules : List Rule} {α : Type} {f g : α → Rule} {xs : List α} {as as' : List Rule}
    (h : ∀ x ∈ xs, CutOut m (rules.map (pegOf L)) (pegOf L (f x)) (pegOf L (g x))) (h' : CutAll L m rules as as') :
    CutAll L m rules (xs.map f ++ as) (xs.map g ++ as') := by
  induction xs with
  | nil => exact h'
  | cons x xs ih => exact .cons (h x (by simp)) (ih fun y hy => h y (by simp [hy]))

/-- An expression is itself. -/
theorem cut_refl {m : Nat} {G' : List Peg} : ∀ {e : Peg}, e.Closed m → CutOut m G' e e
  | .empty, _ => .empty
  | .char _, _ => .char
  | .token _, _ => .token
  | .seq _ _, h => .seq (cut_refl h.1) (cut_refl h.2)
  | .alt _ _, h => .alt (cut_refl h.1) (cut_refl h.2)
  | .star a, h => .star (cut_refl (e := a) h)
  | .neg a, h => .neg (cut_refl (e := a) h)
  | .ref _, h => .ref h

end Verif
