import Verif.Spec.Peg
import Verif.Proofs.Det
import Verif.Proofs.Basics
/-
Rules are parsing expressions.
-/
namespace Verif
open Spec

/-! ### Determinism -/

theorem Spec.Peg.Matches.det {G : List Peg} {e : Peg} {s : Str} {o : Option Nat} (h : Peg.Matches G e s o) :
    ∀ {o'}, Peg.Matches G e s o' → o = o' := by
  induction h with
  | empty => intro o' h'; cases h'; rfl
  | char_ok h =>
    intro o' h'
    cases h' with
    | char_ok => rfl
    | char_no h' => rw [h] at h'; cases h'
  | char_no h =>
    intro o' h'
    cases h' with
    | char_ok h' => rw [h] at h'; cases h'
    | char_no => rfl
  | char_end => intro o' h'; cases h'; rfl
  | token => intro o' h'; cases h'; rfl
  | seq_no _ ih =>
    intro o' h'
    cases h' with
    | seq_no => rfl
    | seq h1 _ => cases ih h1
  | seq _ _ ih ih' =>
    intro o' h'
    cases h' with
    | seq_no h1 => cases ih h1
    | seq h1 h2 => cases ih h1; rw [ih' h2]
  | alt_first _ ih =>
    intro o' h'
    cases h' with
    | alt_first h1 => exact ih h1
    | alt_next h1 _ => cases ih h1
  | alt_next _ _ ih ih' =>
    intro o' h'
    cases h' with
    | alt_first h1 => cases ih h1
    | alt_next _ h2 => exact ih' h2
  | star_stop _ ih =>
    intro o' h'
    cases h' with
    | star_stop => rfl
    | star_more h1 _ => cases ih h1
  | star_more _ _ ih ih' =>
    intro o' h'
    cases h' with
    | star_stop h1 => cases ih h1
    | star_more h1 h2 => cases ih h1; rw [ih' h2]
  | neg_ok _ ih =>
    intro o' h'
    cases h' with
    | neg_ok => rfl
    | neg_no h1 => cases ih h1
  | neg_no _ ih =>
    intro o' h'
    cases h' with
    | neg_ok h1 => cases ih h1
    | neg_no => rfl
  | ref h _ ih =>
    intro o' h'
    cases h' with
    | ref h1 h2 => rw [h] at h1; cases h1; exact ih h2

section
variable {G : List Peg}
open Peg

/-! ### Words and runs of characters -/

theorem token_matches {f : Str → Option Nat} {s : Str} {o : Option Nat} (h : f s = o) : Matches G (.token f) s o := h ▸ .token

theorem fail_matches {s : Str} : Matches G .fail s none := .neg_no .empty

theorem word_ok {t s : Str} (h : t <+: s) : Matches G (.word t) s (some t.length) := by
  obtain ⟨s, rfl⟩ := h
  induction t with
  | nil => exact .empty
  | cons c t ih =>
    have := Matches.seq (b := .word t) (Matches.char_ok (G := G) (C := (· == c)) (c := c) (s := t ++ s) (by simp)) (by simpa using ih)
    simpa [word, Nat.add_comm] using this

theorem word_no {t s : Str} (h : ¬ t <+: s) : Matches G (.word t) s none := by
  induction t generalizing s with
  | nil => exact absurd (List.nil_prefix) h
  | cons c t ih =>
    cases s with
    | nil => exact .seq_no .char_end
    | cons x s =>
      by_cases hx : x = c
      · subst hx
        have : ¬ t <+: s := fun h' => h (by simpa using h')
        exact .seq (o := none) (.char_ok (by simp)) (by simpa using ih this)
      · exact .seq_no (.char_no (by simpa using hx))

theorem run_star {C : Char → Bool} {s : Str} {n : Nat} (h : Longest (fun c => C c = true) s n) :
    Matches G (.star (.char C)) s (some n) := by
  induction n generalizing s with
  | zero =>
    cases s with
    | nil => exact .star_stop .char_end
    | cons c s => exact .star_stop (.char_no (by simpa using h.2.2 c (by simp)))
  | succ n ih =>
    obtain ⟨h1, h2, h3⟩ := h
    cases s with
    | nil => simp at h1
    | cons c s =>
      have : Longest (fun c => C c = true) s n := ⟨by simpa using h1, fun c hc => h2 c (by simp [hc]), by simpa using h3⟩
      have := Matches.star_more (.char_ok (h2 c (by simp))) (ih this)
      simpa [Nat.add_comm] using this

theorem run_plus {C : Char → Bool} {s : Str} {n : Nat} (h : Longest (fun c => C c = true) s n) (hn : n ≠ 0) :
    Matches G (.plus (.char C)) s (some n) := by
  have h' := run_star (G := G) h
  generalize ho : some n = o at h' ⊢
  cases h' with
  | star_stop h' => cases ho; exact absurd rfl hn
  | star_more h1 h2 => exact .seq h1 h2

theorem run_plus_no {C : Char → Bool} {s : Str} (h : Longest (fun c => C c = true) s 0) : Matches G (.plus (.char C)) s none := by
  cases s with
  | nil => exact .seq_no .char_end
  | cons c s => exact .seq_no (.char_no (by simpa using h.2.2 c (by simp)))

end

/-! ### From runs to matches -/

theorem Spec.Bare.child {c r : Rule} (h : Bare r) (hc : Child c r) : Bare c := fun x hx => h x (.step hx hc)

/-- A goal as a parsing expression. -/
def pegG (L : Lexer) : Goal → Peg
  | .rule r => pegOf L r
  | .sel rs => pegSel L rs
  | .seq rs => pegSeq L rs
  | .rep r => .star (pegOf L r)
  | .sepTail r b trail => .tail (.seq (pegOf L b) (.seq (pegOf L r) .empty)) (pegOf L b) trail
  | .lines .. => .fail
  | .line .. => .fail

/-- Neither lines nor tables. -/
def BareG : Goal → Prop
  | .lines .. => False
  | .line .. => False
  | g => ∀ r ∈ g.rules, Bare r

theorem before_map (n : Nat) (ts : List Tok) (o : Outcome) : (before n ts o).map (·.1) = (o.map (·.1)).map (n + ·) := by
  cases o <;> rfl

theorem run_matches {E : Env} (hE : ∀ q ∈ E.refs, Bare q) {g p i o j tr} (h : Run E g p i o j tr) (hg : BareG g) :
    Peg.Matches (E.refs.map (pegOf E.L)) (pegG E.L g) p.src (o.map (·.1)) ∧ j = i := by
  have one : ∀ {r : Rule}, BareG (.rule r) ↔ Bare r := by simp [BareG, Goal.rules]
  have two : ∀ {r : Rule}, BareG (.rep r) ↔ Bare r := by simp [BareG, Goal.rules]
  have three : ∀ {r b : Rule} {trail}, BareG (.sepTail r b trail) ↔ Bare r ∧ Bare b := by simp [BareG, Goal.rules]
  have four : ∀ {r : Rule} {rs}, BareG (.sel (r :: rs)) ↔ Bare r ∧ BareG (.sel rs) := by simp [BareG, Goal.rules]
  have five : ∀ {r : Rule} {rs}, BareG (.seq (r :: rs)) ↔ Bare r ∧ BareG (.seq rs) := by simp [BareG, Goal.rules]
  induction h with
  | @ws_ok opt id p i n h h0 =>
    refine ⟨?_, rfl⟩
    cases opt with
    | true => exact run_star h
    | false => exact run_plus h fun h => by cases h0 h
  | ws_fail h => exact ⟨run_plus_no h, rfl⟩
  | tag_ok h => exact ⟨word_ok h, rfl⟩
  | tag_fail h => exact ⟨word_no h, rfl⟩
  | notTag_ok h => exact ⟨.neg_ok (word_no h), rfl⟩
  | notTag_fail h => exact ⟨.neg_no (word_ok h), rfl⟩
  | @until_ok any opt prop id p i n h h0 =>
    have h : Longest (fun c => decide (c ∉ any) = true) p.src n := by simpa using h
    refine ⟨?_, rfl⟩
    cases opt with
    | true => exact run_star h
    | false => exact run_plus h fun h => by cases h0 h
  | @until_fail any prop id p i h =>
    have h : Longest (fun c => decide (c ∉ any) = true) p.src 0 := by simpa using h
    exact ⟨run_plus_no h, rfl⟩
  | @untilWs_ok any opt prop id p i n h h0 =>
    have h : Longest (fun c => decide (c ∉ any ∧ isWs c = false) = true) p.src n := by simpa using h
    refine ⟨?_, rfl⟩
    cases opt with
    | true => exact run_star h
    | false => exact run_plus h fun h => by cases h0 h
  | @untilWs_fail any prop id p i h =>
    have h : Longest (fun c => decide (c ∉ any ∧ isWs c = false) = true) p.src 0 := by simpa using h
    exact ⟨run_plus_no h, rfl⟩
  | @text_ok empty prop id p i n t h h2 ht =>
    have : ¬ (n = 2 ∧ empty = false) := by rintro ⟨h3, h4⟩; rw [h2 h3] at h4; cases h4
    exact ⟨token_matches (by simp only [h, ht, if_neg this]; rfl), rfl⟩
  | text_none h => exact ⟨token_matches (by simp only [h]; rfl), rfl⟩
  | text_empty h => exact ⟨token_matches (by simp only [h]; rfl), rfl⟩
  | @text_bad empty prop id p i n r e h h2 ht =>
    have : ¬ (n = 2 ∧ empty = false) := by rintro ⟨h3, h4⟩; rw [h2 h3] at h4; cases h4
    exact ⟨token_matches (by simp only [h, ht, if_neg this]; rfl), rfl⟩
  | num_ok h hv => exact ⟨token_matches (by simp only [h, hv]; rfl), rfl⟩
  | num_none h => exact ⟨token_matches (by simp only [h]; rfl), rfl⟩
  | num_bad h hv => exact ⟨token_matches (by simp only [h, hv]; rfl), rfl⟩
  | select_empty => exact ⟨fail_matches, rfl⟩
  | select _ ih =>
    refine ih ?_
    rw [one] at hg
    intro r hr
    exact hg.child (.select hr)
  | sel_nil => exact ⟨fail_matches, rfl⟩
  | sel_here _ ih =>
    obtain ⟨h1, rfl⟩ := ih (one.2 (four.1 hg).1)
    exact ⟨.alt_first h1, rfl⟩
  | sel_next _ _ ih ih' =>
    obtain ⟨h1, rfl⟩ := ih (one.2 (four.1 hg).1)
    obtain ⟨h2, rfl⟩ := ih' (four.1 hg).2
    exact ⟨.alt_next h1 h2, rfl⟩
  | fast_end => exact absurd rfl ((one.1 hg _ .refl).2 _ _ _ _)
  | fast_miss => exact absurd rfl ((one.1 hg _ .refl).2 _ _ _ _)
  | fast_hit => exact absurd rfl ((one.1 hg _ .refl).2 _ _ _ _)
  | fastTail_miss => exact absurd rfl ((one.1 hg _ .refl).2 _ _ _ _)
  | fastTail_hit => exact absurd rfl ((one.1 hg _ .refl).2 _ _ _ _)
  | fastTail_next => exact absurd rfl ((one.1 hg _ .refl).2 _ _ _ _)
  | sequence _ ih =>
    refine ih ?_
    rw [one] at hg
    intro r hr
    exact hg.child (.sequence hr)
  | seq_nil => exact ⟨.empty, rfl⟩
  | seq_fail _ ih =>
    obtain ⟨h1, rfl⟩ := ih (one.2 (five.1 hg).1)
    exact ⟨.seq_no h1, rfl⟩
  | seq_cons _ _ ih ih' =>
    obtain ⟨h1, rfl⟩ := ih (one.2 (five.1 hg).1)
    obtain ⟨h2, rfl⟩ := ih' (five.1 hg).2
    rw [before_map]
    exact ⟨.seq h1 h2, rfl⟩
  | repeat_opt _ ih => exact ih (two.2 ((one.1 hg).child .repeat_))
  | repeat_fail _ ih =>
    obtain ⟨h1, rfl⟩ := ih (one.2 ((one.1 hg).child .repeat_))
    exact ⟨.seq_no h1, rfl⟩
  | repeat_ok _ _ ih ih' =>
    obtain ⟨h1, rfl⟩ := ih (one.2 ((one.1 hg).child .repeat_))
    obtain ⟨h2, rfl⟩ := ih' (two.2 ((one.1 hg).child .repeat_))
    rw [before_map]
    exact ⟨.seq h1 h2, rfl⟩
  | rep_stop _ ih =>
    obtain ⟨h1, rfl⟩ := ih (one.2 (two.1 hg))
    exact ⟨.star_stop h1, rfl⟩
  | rep_more _ _ ih ih' =>
    obtain ⟨h1, rfl⟩ := ih (one.2 (two.1 hg))
    obtain ⟨h2, rfl⟩ := ih' hg
    rw [before_map]
    exact ⟨.star_more h1 h2, rfl⟩
  | sep_none _ ih =>
    obtain ⟨h1, rfl⟩ := ih (one.2 ((one.1 hg).child .item))
    exact ⟨.alt_next (.seq_no h1) (.neg_ok h1), rfl⟩
  | sep_fail _ ih =>
    obtain ⟨h1, rfl⟩ := ih (one.2 ((one.1 hg).child .item))
    exact ⟨.seq_no h1, rfl⟩
  | @sep_first r b opt trail id p i n ts j tr o k tr' _ _ ih ih' =>
    obtain ⟨h1, rfl⟩ := ih (one.2 ((one.1 hg).child .item))
    obtain ⟨h2, rfl⟩ := ih' (three.2 ⟨(one.1 hg).child .item, (one.1 hg).child .sep⟩)
    rw [before_map]
    refine ⟨?_, rfl⟩
    have h3 := Peg.Matches.seq h1 h2
    cases opt with
    | false => exact h3
    | true =>
      cases o with
      | none => exact .alt_next h3 (.neg_no h1)
      | some x => exact .alt_first h3
  | @sep_stop r b trail p i j tr _ ih =>
    obtain ⟨h1, rfl⟩ := ih (one.2 (three.1 hg).2)
    refine ⟨?_, rfl⟩
    refine Peg.Matches.seq (n := 0) (o := some 0) (.star_stop (.seq_no h1)) ?_
    cases trail with
    | true => exact .alt_next h1 .empty
    | false => exact .neg_ok h1
  | @sep_trail r b p i m us j tr k tr' _ _ ih ih' =>
    obtain ⟨h1, rfl⟩ := ih (one.2 (three.1 hg).2)
    obtain ⟨h2, rfl⟩ := ih' (one.2 (three.1 hg).1)
    have h3 : Peg.Matches (E.refs.map (pegOf E.L)) (.alt (pegOf E.L b) .empty) p.src (some m) := .alt_first h1
    have h0 : (some m : Option Nat) = (some m).map (0 + ·) := by simp
    refine ⟨?_, rfl⟩
    show Peg.Matches _ _ _ (some m)
    rw [h0]
    exact .seq (n := 0) (.star_stop (.seq (o := none) h1 (.seq_no h2))) h3
  | @sep_noTrail r b p i m us j tr k tr' _ _ ih ih' =>
    obtain ⟨h1, rfl⟩ := ih (one.2 (three.1 hg).2)
    obtain ⟨h2, rfl⟩ := ih' (one.2 (three.1 hg).1)
    exact ⟨.seq (n := 0) (o := none) (.star_stop (.seq (o := none) h1 (.seq_no h2))) (.neg_no h1), rfl⟩
  | @sep_more r b trail p i m us j tr n ts k tr' o l tr'' _ _ _ ih ih' ih'' =>
    obtain ⟨h1, rfl⟩ := ih (one.2 (three.1 hg).2)
    obtain ⟨h2, rfl⟩ := ih' (one.2 (three.1 hg).1)
    obtain ⟨h3, rfl⟩ := ih'' hg
    refine ⟨?_, rfl⟩
    have h4 := Peg.Matches.seq h1 (.seq h2 .empty)
    rw [before_map]
    generalize o.map (·.1) = o' at h3 ⊢
    cases h3 with
    | seq_no h3 => exact .seq_no (.star_more (o := none) h4 h3)
    | @seq _ _ _ n' o'' h3 h5 =>
      have h6 := Peg.Matches.star_more h4 h3
      have h7 := Peg.Matches.seq h6 (by simpa [adv, List.drop_drop, Nat.add_assoc] using h5)
      have : ∀ o : Option Nat, (o.map (n' + ·)).map (m + n + ·) = o.map (m + n + n' + ·) := by intro o; cases o <;> simp [Nat.add_assoc]
      rw [this]
      exact h7
  | lines => exact absurd rfl ((one.1 hg _ .refl).1 _ _ _)
  | lines_done => exact hg.elim
  | lines_fail => exact hg.elim
  | lines_stop => exact hg.elim
  | lines_more => exact hg.elim
  | line_plain => exact hg.elim
  | line_shallow => exact hg.elim
  | line_deep => exact hg.elim
  | line_body => exact hg.elim
  | line_align => exact hg.elim
  | node_unresolved => exact ⟨fail_matches, rfl⟩
  | node_fail hr _ ih =>
    obtain ⟨h1, rfl⟩ := ih (one.2 (hE _ (List.mem_of_getElem? hr)))
    exact ⟨.ref (by rw [List.getElem?_map, hr]; rfl) h1, rfl⟩
  | node_ok hr _ ih =>
    obtain ⟨h1, rfl⟩ := ih (one.2 (hE _ (List.mem_of_getElem? hr)))
    exact ⟨.ref (by rw [List.getElem?_map, hr]; rfl) h1, rfl⟩
  | optional_none _ ih =>
    obtain ⟨h1, rfl⟩ := ih (one.2 ((one.1 hg).child .optional))
    exact ⟨.alt_next h1 .empty, rfl⟩
  | optional_some _ ih =>
    obtain ⟨h1, rfl⟩ := ih (one.2 ((one.1 hg).child .optional))
    exact ⟨.alt_first h1, rfl⟩
  | not_ok _ ih =>
    obtain ⟨h1, rfl⟩ := ih (one.2 ((one.1 hg).child .not))
    exact ⟨.neg_ok h1, rfl⟩
  | not_fail _ ih =>
    obtain ⟨h1, rfl⟩ := ih (one.2 ((one.1 hg).child .not))
    exact ⟨.neg_no h1, rfl⟩

/-! ### From matches to runs -/

theorem flat_stays {E : Env} (hE : ∀ q ∈ E.refs, Bare q) {r : Rule} (hr : Bare r) {p i o j tr} (h : Run E (.rule r) p i o j tr) :
    j = i := (run_matches hE h (by simpa [BareG, Goal.rules] using hr)).2

/-- What comes after an item, in one loop. -/
theorem star_sepTail {E : Env} (hE : ∀ q ∈ E.refs, Bare q) {r b : Rule} (hr : Bare r) (hb : Bare b) {trail : Bool} {id : DebugId}
    {g p i o j tr} (h : Run E g p i o j tr) :
    g = .rep (.sequence [b, r] id) → ∀ n ts, o = some (n, ts) → ∀ o' tr', Run E (.rule b) (adv p n) i o' i tr' →
    ∃ o'' tr'', Run E (.sepTail r b trail) p i o'' i tr'' ∧
      o''.map (·.1) = match o' with | none => some n | some (m, _) => if trail then some (n + m) else none := by
  induction h with
  | @rep_stop r' p i j tr h ih =>
    intro hg n ts ho o' tr' h'
    cases hg
    cases ho
    have hp : adv p 0 = p := by simp [adv]
    rw [hp] at h'
    cases o' with
    | none => exact ⟨_, _, .sep_stop h', rfl⟩
    | some x =>
      obtain ⟨m, us⟩ := x
      generalize ho : (none : Outcome) = o at h
      cases h with
      | sequence h =>
        cases h with
        | seq_fail h => cases (h.det h').1
        | @seq_cons _ _ _ _ n1 ts1 j1 tr1 o1 _ _ h1 h2 =>
          obtain ⟨e1, rfl, -⟩ := h1.det h'
          cases e1
          cases h2 with
          | seq_fail h2 =>
            have := flat_stays hE hr h2
            subst this
            cases trail with
            | true => exact ⟨_, _, .sep_trail h' h2, by simp⟩
            | false => exact ⟨_, _, .sep_noTrail h' h2, by simp⟩
          | seq_cons h2 h3 => cases h3; cases ho
  | @rep_more r' p i n1 ts1 j1 tr1 o1 k1 tr2 h1 h2 ih1 ih2 =>
    intro hg n ts ho o' tr' h'
    cases hg
    generalize ho1 : some (n1, ts1) = o at h1
    cases h1 with
    | sequence h1 =>
      cases h1 with
      | seq_fail => cases ho1
      | @seq_cons _ _ _ _ m us j2 tr3 o2 _ _ h3 h4 =>
        have := flat_stays hE hb h3
        subst this
        cases h4 with
        | seq_fail h4 => cases ho1
        | @seq_cons _ _ _ _ k vs j3 tr4 o3 _ _ h4 h5 =>
          have := flat_stays hE hr h4
          subst this
          cases h5
          cases ho1
          cases o1 with
          | none => cases ho
          | some x =>
            obtain ⟨n2, ts2⟩ := x
            cases ho
            obtain ⟨o'', tr'', h6, h7⟩ := ih2 rfl n2 ts2 rfl o' tr' (by simpa [adv, List.drop_drop, Nat.add_assoc] using h')
            refine ⟨_, _, .sep_more h3 h4 h6, ?_⟩
            rw [before_map, h7]
            cases o' with
            | none => simp
            | some x => cases trail <;> simp [Nat.add_assoc]
  | _ => intro hg; cases hg

/-- Rules that have no parts. -/
inductive PegLeaf : Rule → Prop
  | whitespace {opt id} : PegLeaf (.whitespace opt id)
  | tag {t nt inv prop id} : PegLeaf (.tag t nt inv prop id)
  | untilAny {any opt prop id} : PegLeaf (.untilAny any opt prop id)
  | untilAnyOrWs {any opt prop id} : PegLeaf (.untilAnyOrWs any opt prop id)
  | text {empty prop id} : PegLeaf (.text empty prop id)
  | number {prop us id} : PegLeaf (.number prop us id)

theorem leaf_run {E : Env} {r : Rule} (h : PegLeaf r) (p : Pos) (i : Nat) : ∃ o tr, Run E (.rule r) p i o i tr := by
  cases h with
  | @whitespace opt id =>
    have h := whitespace_longest p
    by_cases h0 : p.whitespace.length = 0 → opt = true
    · exact ⟨_, _, .ws_ok h h0⟩
    · simp only [Classical.not_imp, Bool.not_eq_true] at h0
      rw [h0.1] at h
      rw [h0.2]
      exact ⟨_, _, .ws_fail h⟩
  | @tag t nt inv prop id =>
    by_cases ht : t <+: p.src
    · cases nt
      · exact ⟨_, _, .tag_ok ht⟩
      · exact ⟨_, _, .notTag_fail ht⟩
    · cases nt
      · exact ⟨_, _, .tag_fail ht⟩
      · exact ⟨_, _, .notTag_ok ht⟩
  | @untilAny any opt prop id =>
    have h := untilAny_longest p any
    by_cases h0 : (p.untilAny any).length = 0 → opt = true
    · exact ⟨_, _, .until_ok h h0⟩
    · simp only [Classical.not_imp, Bool.not_eq_true] at h0
      rw [h0.1] at h
      rw [h0.2]
      exact ⟨_, _, .until_fail h⟩
  | @untilAnyOrWs any opt prop id =>
    have h := untilAnyOrWs_longest p any
    by_cases h0 : (p.untilAnyOrWs any).length = 0 → opt = true
    · exact ⟨_, _, .untilWs_ok h h0⟩
    · simp only [Classical.not_imp, Bool.not_eq_true] at h0
      rw [h0.1] at h
      rw [h0.2]
      exact ⟨_, _, .untilWs_fail h⟩
  | @text empty prop id =>
    cases h : E.L.str p.src with
    | none => exact ⟨_, _, .text_none h⟩
    | some n =>
      by_cases h2 : n = 2 → empty = true
      · cases ht : E.L.parseStr p.src n with
        | ok t => exact ⟨_, _, .text_ok h h2 ht⟩
        | error e => exact ⟨_, _, .text_bad h h2 ht⟩
      · simp only [Classical.not_imp, Bool.not_eq_true] at h2
        rw [h2.1] at h
        rw [h2.2]
        exact ⟨_, _, .text_empty h⟩
  | @number prop us id =>
    cases h : E.L.num us p.src with
    | none => exact ⟨_, _, .num_none h⟩
    | some n =>
      cases hv : E.L.parseNum us p.src n with
      | ok v => exact ⟨_, _, .num_ok h hv⟩
      | error e => exact ⟨_, _, .num_bad h hv⟩

/-- The goals that do something with their parts, with their parsing expressions. -/
inductive View (L : Lexer) : Goal → Peg → Prop
  | sel {r rs} : View L (.sel (r :: rs)) (.alt (pegOf L r) (pegSel L rs))
  | select {r rs id} : View L (.rule (.select (r :: rs) id)) (.alt (pegOf L r) (pegSel L rs))
  | seq {r rs} : View L (.seq (r :: rs)) (.seq (pegOf L r) (pegSeq L rs))
  | sequence {r rs id} : View L (.rule (.sequence (r :: rs) id)) (.seq (pegOf L r) (pegSeq L rs))
  | rep {r} : View L (.rep r) (.star (pegOf L r))
  | repeatOpt {r id} : View L (.rule (.repeat_ r true id)) (.star (pegOf L r))
  | repeatPlus {r id} : View L (.rule (.repeat_ r false id)) (.seq (pegOf L r) (.star (pegOf L r)))
  | sepOpt {r b trail id} : View L (.rule (.separateBy r b true trail id))
      (.alt (pegOf L (.separateBy r b false trail id)) (.neg (pegOf L r)))
  | sep {r b trail id} : View L (.rule (.separateBy r b false trail id)) (.seq (pegOf L r) (pegG L (.sepTail r b trail)))
  | tailOpt {r b} : View L (.sepTail r b true) (.seq (.star (pegSeq L [b, r])) (.alt (pegOf L b) .empty))
  | tailNot {r b} : View L (.sepTail r b false) (.seq (.star (pegSeq L [b, r])) (.neg (pegOf L b)))
  | node {name prop ix id} : View L (.rule (.node name prop (some ix) id)) (.ref ix)
  | optional {r id} : View L (.rule (.optional r id)) (.alt (pegOf L r) .empty)
  | not {r id} : View L (.rule (.not r id)) (.neg (pegOf L r))

theorem view {E : Env} {g : Goal} (hg : BareG g) : (∀ p i, ∃ o tr, Run E g p i o i tr) ∨ View E.L g (pegG E.L g) := by
  cases g with
  | rule r =>
    have hg : Bare r := by simpa [BareG, Goal.rules] using hg
    cases r with
    | whitespace => exact .inl fun p i => leaf_run .whitespace p i
    | tag => exact .inl fun p i => leaf_run .tag p i
    | untilAny => exact .inl fun p i => leaf_run .untilAny p i
    | untilAnyOrWs => exact .inl fun p i => leaf_run .untilAnyOrWs p i
    | text => exact .inl fun p i => leaf_run .text p i
    | number => exact .inl fun p i => leaf_run .number p i
    | select args id =>
      cases args with
      | nil => exact .inl fun p i => ⟨_, _, .select_empty⟩
      | cons => exact .inr .select
    | sequence args id =>
      cases args with
      | nil => exact .inl fun p i => ⟨_, _, .sequence .seq_nil⟩
      | cons => exact .inr .sequence
    | fastSelect => exact absurd rfl ((hg _ .refl).2 _ _ _ _)
    | lines => exact absurd rfl ((hg _ .refl).1 _ _ _)
    | separateBy r b opt trail id =>
      cases opt with
      | true => exact .inr .sepOpt
      | false => exact .inr .sep
    | repeat_ r opt id =>
      cases opt with
      | true => exact .inr .repeatOpt
      | false => exact .inr .repeatPlus
    | node name prop ix id =>
      cases ix with
      | none => exact .inl fun p i => ⟨_, _, .node_unresolved⟩
      | some ix => exact .inr .node
    | optional => exact .inr .optional
    | not => exact .inr .not
  | sel rs =>
    cases rs with
    | nil => exact .inl fun p i => ⟨_, _, .sel_nil⟩
    | cons => exact .inr .sel
  | seq rs =>
    cases rs with
    | nil => exact .inl fun p i => ⟨_, _, .seq_nil⟩
    | cons => exact .inr .seq
  | rep => exact .inr .rep
  | sepTail r b trail =>
    cases trail with
    | true => exact .inr .tailOpt
    | false => exact .inr .tailNot
  | lines => exact hg.elim
  | line => exact hg.elim

theorem star_some {G : List Peg} {a : Peg} {s : Str} {o : Option Nat} (h : Peg.Matches G (.star a) s o) : o ≠ none := by
  generalize he : Peg.star a = e at h
  induction h with
  | star_stop => simp
  | star_more _ _ _ ih =>
    cases he
    have := ih rfl
    simpa using this
  | _ => cases he

/-- Whatever a parsing expression does, the rule does. -/
theorem matches_run {E : Env} (hE : ∀ q ∈ E.refs, Bare q) {e : Peg} {s : Str} {x : Option Nat}
    (h : Peg.Matches (E.refs.map (pegOf E.L)) e s x) : ∀ g, BareG g → pegG E.L g = e → ∀ p i, p.src = s →
    ∃ o tr, Run E g p i o i tr ∧ o.map (·.1) = x := by
  have one : ∀ {r : Rule}, BareG (.rule r) ↔ Bare r := by simp [BareG, Goal.rules]
  have two : ∀ {r : Rule}, BareG (.rep r) ↔ Bare r := by simp [BareG, Goal.rules]
  have three : ∀ {r b : Rule} {trail}, BareG (.sepTail r b trail) ↔ Bare r ∧ Bare b := by simp [BareG, Goal.rules]
  have four : ∀ {r : Rule} {rs}, BareG (.sel (r :: rs)) ↔ Bare r ∧ BareG (.sel rs) := by simp [BareG, Goal.rules]
  have five : ∀ {r : Rule} {rs}, BareG (.seq (r :: rs)) ↔ Bare r ∧ BareG (.seq rs) := by simp [BareG, Goal.rules]
  have six : ∀ {rs id}, BareG (.rule (.select rs id)) → BareG (.sel rs) := fun h r hr => (one.1 h).child (.select hr)
  have seven : ∀ {rs id}, BareG (.rule (.sequence rs id)) → BareG (.seq rs) := fun h r hr => (one.1 h).child (.sequence hr)
  have eight : ∀ {r b id}, Bare r → Bare b → Bare (.sequence [b, r] id) := by
    intro r b id hr hb x hx
    cases hx with
    | refl => simp
    | step hx hc =>
      cases hc with
      | sequence hm =>
        simp only [List.mem_cons, List.not_mem_nil, or_false] at hm
        rcases hm with rfl | rfl
        · exact hb x hx
        · exact hr x hx
  have nine : ∀ {r b opt opt' trail id}, Bare (.separateBy r b opt trail id) → Bare (.separateBy r b opt' trail id) := by
    intro r b opt opt' trail id h x hx
    cases hx with
    | refl => simp
    | step hx hc =>
      cases hc with
      | item => exact h.child .item x hx
      | sep => exact h.child .sep x hx
  have ten : ∀ {r id}, Bare r → Bare (.optional r id) := by
    intro r id h x hx
    cases hx with
    | refl => simp
    | step hx hc => cases hc; exact h x hx
  have eleven : ∀ {r id}, Bare r → Bare (.not r id) := by
    intro r id h x hx
    cases hx with
    | refl => simp
    | step hx hc => cases hc; exact h x hx
  have easy : ∀ {e s x}, Peg.Matches (E.refs.map (pegOf E.L)) e s x → ∀ g, (∀ p i, ∃ o tr, Run E g p i o i tr) → BareG g →
      pegG E.L g = e → ∀ p i, p.src = s → ∃ o tr, Run E g p i o i tr ∧ o.map (·.1) = x := by
    intro e s x h g hl hg he p i hp
    obtain ⟨o, tr, ho⟩ := hl p i
    refine ⟨o, tr, ho, ?_⟩
    subst he hp
    exact (run_matches hE ho hg).1.det h
  -- what is read is read by the rules
  have some_of : ∀ {o : Outcome} {n : Nat}, o.map (·.1) = some n → ∃ ts, o = some (n, ts) := by
    intro o n h
    cases o with
    | none => cases h
    | some x => cases h; exact ⟨_, rfl⟩
  have none_of : ∀ {o : Outcome}, o.map (·.1) = none → o = none := by
    intro o h
    cases o with
    | none => rfl
    | some x => cases h
  induction h with
  | empty =>
    intro g hg he p i hp
    rcases view (E := E) hg with hv | hv
    · exact easy .empty g hv hg he p i hp
    · rw [he] at hv; cases hv
  | char_ok h =>
    intro g hg he p i hp
    rcases view (E := E) hg with hv | hv
    · exact easy (.char_ok h) g hv hg he p i hp
    · rw [he] at hv; cases hv
  | char_no h =>
    intro g hg he p i hp
    rcases view (E := E) hg with hv | hv
    · exact easy (.char_no h) g hv hg he p i hp
    · rw [he] at hv; cases hv
  | char_end =>
    intro g hg he p i hp
    rcases view (E := E) hg with hv | hv
    · exact easy .char_end g hv hg he p i hp
    · rw [he] at hv; cases hv
  | token =>
    intro g hg he p i hp
    rcases view (E := E) hg with hv | hv
    · exact easy .token g hv hg he p i hp
    · rw [he] at hv; cases hv
  | @seq_no a b s h ih =>
    intro g hg he p i hp
    rcases view (E := E) hg with hv | hv
    · exact easy (.seq_no h) g hv hg he p i hp
    · rw [he] at hv
      cases hv with
      | seq =>
        obtain ⟨o, tr, h1, h2⟩ := ih (.rule _) (one.2 (five.1 hg).1) rfl p i hp
        cases none_of h2
        exact ⟨_, _, .seq_fail h1, rfl⟩
      | sequence =>
        obtain ⟨o, tr, h1, h2⟩ := ih (.rule _) (one.2 (five.1 (seven hg)).1) rfl p i hp
        cases none_of h2
        exact ⟨_, _, .sequence (.seq_fail h1), rfl⟩
      | repeatPlus =>
        obtain ⟨o, tr, h1, h2⟩ := ih (.rule _) (one.2 ((one.1 hg).child .repeat_)) rfl p i hp
        cases none_of h2
        exact ⟨_, _, .repeat_fail h1, rfl⟩
      | sep =>
        obtain ⟨o, tr, h1, h2⟩ := ih (.rule _) (one.2 ((one.1 hg).child .item)) rfl p i hp
        cases none_of h2
        exact ⟨_, _, .sep_fail h1, rfl⟩
      | tailOpt =>
        exact absurd rfl (star_some h)
      | tailNot =>
        exact absurd rfl (star_some h)
  | @seq a b s n x h h' ih ih' =>
    intro g hg he p i hp
    rcases view (E := E) hg with hv | hv
    · exact easy (.seq h h') g hv hg he p i hp
    · rw [he] at hv
      cases hv with
      | seq =>
        obtain ⟨o, tr, h1, h2⟩ := ih (.rule _) (one.2 (five.1 hg).1) rfl p i hp
        obtain ⟨ts, rfl⟩ := some_of h2
        obtain ⟨o', tr', h3, rfl⟩ := ih' (.seq _) (five.1 hg).2 rfl (adv p n) i (by simp [adv, hp])
        exact ⟨_, _, .seq_cons h1 h3, before_map ..⟩
      | sequence =>
        obtain ⟨o, tr, h1, h2⟩ := ih (.rule _) (one.2 (five.1 (seven hg)).1) rfl p i hp
        obtain ⟨ts, rfl⟩ := some_of h2
        obtain ⟨o', tr', h3, rfl⟩ := ih' (.seq _) (five.1 (seven hg)).2 rfl (adv p n) i (by simp [adv, hp])
        exact ⟨_, _, .sequence (.seq_cons h1 h3), before_map ..⟩
      | repeatPlus =>
        obtain ⟨o, tr, h1, h2⟩ := ih (.rule _) (one.2 ((one.1 hg).child .repeat_)) rfl p i hp
        obtain ⟨ts, rfl⟩ := some_of h2
        obtain ⟨o', tr', h3, rfl⟩ := ih' (.rep _) (two.2 ((one.1 hg).child .repeat_)) rfl (adv p n) i (by simp [adv, hp])
        exact ⟨_, _, .repeat_ok h1 h3, before_map ..⟩
      | @sep r b trail id =>
        obtain ⟨o, tr, h1, h2⟩ := ih (.rule _) (one.2 ((one.1 hg).child .item)) rfl p i hp
        obtain ⟨ts, rfl⟩ := some_of h2
        obtain ⟨o', tr', h3, rfl⟩ := ih' (.sepTail r b trail) (three.2 ⟨(one.1 hg).child .item, (one.1 hg).child .sep⟩) rfl
          (adv p n) i (by simp [adv, hp])
        exact ⟨_, _, .sep_first h1 h3, before_map ..⟩
      | @tailOpt r b =>
        obtain ⟨hr, hb⟩ := three.1 hg
        obtain ⟨o, tr, h1, h2⟩ := ih (.rep (.sequence [b, r] 0)) (two.2 (eight hr hb)) rfl p i hp
        obtain ⟨ts, rfl⟩ := some_of h2
        obtain ⟨o', tr', h3, rfl⟩ := ih' (.rule (.optional b 0)) (one.2 (ten hb)) rfl (adv p n) i (by simp [adv, hp])
        cases h3 with
        | optional_none h3 =>
          obtain ⟨o'', tr'', h4, h5⟩ := star_sepTail hE hr hb (trail := true) h1 rfl _ _ rfl _ _ h3
          exact ⟨_, _, h4, by simpa using h5⟩
        | optional_some h3 =>
          obtain ⟨o'', tr'', h4, h5⟩ := star_sepTail hE hr hb (trail := true) h1 rfl _ _ rfl _ _ h3
          exact ⟨_, _, h4, by simpa using h5⟩
      | @tailNot r b =>
        obtain ⟨hr, hb⟩ := three.1 hg
        obtain ⟨o, tr, h1, h2⟩ := ih (.rep (.sequence [b, r] 0)) (two.2 (eight hr hb)) rfl p i hp
        obtain ⟨ts, rfl⟩ := some_of h2
        obtain ⟨o', tr', h3, rfl⟩ := ih' (.rule (.not b 0)) (one.2 (eleven hb)) rfl (adv p n) i (by simp [adv, hp])
        cases h3 with
        | not_ok h3 =>
          obtain ⟨o'', tr'', h4, h5⟩ := star_sepTail hE hr hb (trail := false) h1 rfl _ _ rfl _ _ h3
          exact ⟨_, _, h4, by simpa using h5⟩
        | not_fail h3 =>
          obtain ⟨o'', tr'', h4, h5⟩ := star_sepTail hE hr hb (trail := false) h1 rfl _ _ rfl _ _ h3
          exact ⟨_, _, h4, by simpa using h5⟩
  | @alt_first a b s n h ih =>
    intro g hg he p i hp
    rcases view (E := E) hg with hv | hv
    · exact easy (.alt_first h) g hv hg he p i hp
    · rw [he] at hv
      cases hv with
      | sel =>
        obtain ⟨o, tr, h1, h2⟩ := ih (.rule _) (one.2 (four.1 hg).1) rfl p i hp
        obtain ⟨ts, rfl⟩ := some_of h2
        exact ⟨_, _, .sel_here h1, rfl⟩
      | select =>
        obtain ⟨o, tr, h1, h2⟩ := ih (.rule _) (one.2 (four.1 (six hg)).1) rfl p i hp
        obtain ⟨ts, rfl⟩ := some_of h2
        exact ⟨_, _, .select (.sel_here h1), rfl⟩
      | @sepOpt r b trail id =>
        obtain ⟨o, tr, h1, h2⟩ := ih (.rule (.separateBy r b false trail id)) (one.2 (nine (one.1 hg))) rfl p i hp
        obtain ⟨ts, rfl⟩ := some_of h2
        generalize ho : some (n, ts) = o at h1 ⊢
        cases h1 with
        | sep_fail => cases ho
        | sep_first h1 h3 => exact ⟨_, _, .sep_first h1 h3, by rw [← ho]; rfl⟩
      | optional =>
        obtain ⟨o, tr, h1, h2⟩ := ih (.rule _) (one.2 ((one.1 hg).child .optional)) rfl p i hp
        obtain ⟨ts, rfl⟩ := some_of h2
        exact ⟨_, _, .optional_some h1, rfl⟩
  | @alt_next a b s x h h' ih ih' =>
    intro g hg he p i hp
    rcases view (E := E) hg with hv | hv
    · exact easy (.alt_next h h') g hv hg he p i hp
    · rw [he] at hv
      cases hv with
      | sel =>
        obtain ⟨o, tr, h1, h2⟩ := ih (.rule _) (one.2 (four.1 hg).1) rfl p i hp
        cases none_of h2
        obtain ⟨o', tr', h3, rfl⟩ := ih' (.sel _) (four.1 hg).2 rfl p i hp
        exact ⟨_, _, .sel_next h1 h3, rfl⟩
      | select =>
        obtain ⟨o, tr, h1, h2⟩ := ih (.rule _) (one.2 (four.1 (six hg)).1) rfl p i hp
        cases none_of h2
        obtain ⟨o', tr', h3, rfl⟩ := ih' (.sel _) (four.1 (six hg)).2 rfl p i hp
        exact ⟨_, _, .select (.sel_next h1 h3), rfl⟩
      | @sepOpt r b trail id =>
        obtain ⟨o, tr, h1, h2⟩ := ih (.rule (.separateBy r b false trail id)) (one.2 (nine (one.1 hg))) rfl p i hp
        cases none_of h2
        obtain ⟨o', tr', h3, rfl⟩ := ih' (.rule (.not r 0)) (one.2 (eleven ((one.1 hg).child .item))) rfl p i hp
        generalize ho : (none : Outcome) = o at h1
        cases h3 with
        | not_ok h3 => exact ⟨_, _, .sep_none h3, rfl⟩
        | not_fail h3 =>
          cases h1 with
          | sep_fail h1 => cases (h1.det h3).1
          | sep_first h1 h4 => exact ⟨_, _, .sep_first h1 h4, by rw [← ho]⟩
      | optional =>
        obtain ⟨o, tr, h1, h2⟩ := ih (.rule _) (one.2 ((one.1 hg).child .optional)) rfl p i hp
        cases none_of h2
        cases h'
        exact ⟨_, _, .optional_none h1, rfl⟩
  | @star_stop a s h ih =>
    intro g hg he p i hp
    rcases view (E := E) hg with hv | hv
    · exact easy (.star_stop h) g hv hg he p i hp
    · rw [he] at hv
      cases hv with
      | rep =>
        obtain ⟨o, tr, h1, h2⟩ := ih (.rule _) (one.2 (two.1 hg)) rfl p i hp
        cases none_of h2
        exact ⟨_, _, .rep_stop h1, rfl⟩
      | repeatOpt =>
        obtain ⟨o, tr, h1, h2⟩ := ih (.rule _) (one.2 ((one.1 hg).child .repeat_)) rfl p i hp
        cases none_of h2
        exact ⟨_, _, .repeat_opt (.rep_stop h1), rfl⟩
  | @star_more a s n x h h' ih ih' =>
    intro g hg he p i hp
    rcases view (E := E) hg with hv | hv
    · exact easy (.star_more h h') g hv hg he p i hp
    · rw [he] at hv
      cases hv with
      | @rep r =>
        obtain ⟨o, tr, h1, h2⟩ := ih (.rule _) (one.2 (two.1 hg)) rfl p i hp
        obtain ⟨ts, rfl⟩ := some_of h2
        obtain ⟨o', tr', h3, rfl⟩ := ih' (.rep r) hg rfl (adv p n) i (by simp [adv, hp])
        exact ⟨_, _, .rep_more h1 h3, before_map ..⟩
      | @repeatOpt r id =>
        obtain ⟨o, tr, h1, h2⟩ := ih (.rule _) (one.2 ((one.1 hg).child .repeat_)) rfl p i hp
        obtain ⟨ts, rfl⟩ := some_of h2
        obtain ⟨o', tr', h3, rfl⟩ := ih' (.rep r) (two.2 ((one.1 hg).child .repeat_)) rfl (adv p n) i (by simp [adv, hp])
        exact ⟨_, _, .repeat_opt (.rep_more h1 h3), before_map ..⟩
  | @neg_ok a s h ih =>
    intro g hg he p i hp
    rcases view (E := E) hg with hv | hv
    · exact easy (.neg_ok h) g hv hg he p i hp
    · rw [he] at hv
      cases hv with
      | not =>
        obtain ⟨o, tr, h1, h2⟩ := ih (.rule _) (one.2 ((one.1 hg).child .not)) rfl p i hp
        cases none_of h2
        exact ⟨_, _, .not_ok h1, rfl⟩
  | @neg_no a s n h ih =>
    intro g hg he p i hp
    rcases view (E := E) hg with hv | hv
    · exact easy (.neg_no h) g hv hg he p i hp
    · rw [he] at hv
      cases hv with
      | not =>
        obtain ⟨o, tr, h1, h2⟩ := ih (.rule _) (one.2 ((one.1 hg).child .not)) rfl p i hp
        obtain ⟨ts, rfl⟩ := some_of h2
        exact ⟨_, _, .not_fail h1, rfl⟩
  | @ref k e s x hk h ih =>
    intro g hg he p i hp
    rcases view (E := E) hg with hv | hv
    · exact easy (.ref hk h) g hv hg he p i hp
    · rw [he] at hv
      cases hv with
      | node =>
        rw [List.getElem?_map, Option.map_eq_some_iff] at hk
        obtain ⟨r, hr, rfl⟩ := hk
        obtain ⟨o, tr, h1, h2⟩ := ih (.rule r) (one.2 (hE _ (List.mem_of_getElem? hr))) rfl p i hp
        cases o with
        | none => exact ⟨_, _, .node_fail hr h1, h2⟩
        | some y =>
          obtain ⟨n, ts⟩ := y
          exact ⟨_, _, .node_ok hr h1, h2⟩

end Verif
