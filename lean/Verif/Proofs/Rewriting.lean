import Verif.Proofs.PegBool
import Verif.Spec.Rewriting
/-
The texts of `historySyntax`.
-/
namespace Verif
open Spec Spec.Peg

variable {G : List Peg} {L : Lexer}

/-! ### Expressions -/

theorem seq_reads {a b : Peg} {s : Str} {n : Nat} (h : Matches G (.seq a b) s (some n)) :
    ∃ k m, Matches G a s (some k) ∧ Matches G b (s.drop k) (some m) ∧ n = k + m := by
  generalize ho : some n = o at h
  cases h with
  | seq_no h => cases ho
  | @seq _ _ _ k o h h' =>
    cases o with
    | none => cases ho
    | some m => cases ho; exact ⟨k, m, h, h', rfl⟩

theorem word_reads {t s : Str} {n : Nat} (h : Matches G (.word t) s (some n)) : ∃ s', s = t ++ s' ∧ n = t.length := by
  by_cases hp : t <+: s
  · cases h.det (word_ok hp)
    obtain ⟨s', rfl⟩ := hp
    exact ⟨s', rfl, rfl⟩
  · cases h.det (word_no hp)

theorem empty_reads {s : Str} {n : Nat} (h : Matches G .empty s (some n)) : n = 0 := by cases h; rfl

theorem ref_reads {i : Nat} {e : Peg} {s : Str} {o : Option Nat} (he : G[i]? = some e) (h : Matches G (.ref i) s o) : Matches G e s o := by
  cases h with
  | ref h h' => rw [he] at h; cases h; exact h'

theorem sel_reads {rs : List Rule} {s : Str} {n : Nat} (h : Matches G (pegSel L rs) s (some n)) :
    ∃ r ∈ rs, Matches G (pegOf L r) s (some n) := by
  induction rs with
  | nil => cases h.det fail_matches
  | cons r rs ih =>
    rw [pegSel] at h
    cases h with
    | alt_first h => exact ⟨r, by simp, h⟩
    | alt_next _ h =>
      obtain ⟨q, hq, h⟩ := ih h
      exact ⟨q, by simp [hq], h⟩

theorem lit_peg (t : Str) : pegOf L (lit t) = .word t := by simp [lit, pegOf]

theorem refTo_peg (i : Nat) : pegOf L (refTo i) = .ref i := by simp [refTo, pegOf]

/-- A word and what follows. -/
theorem lit_reads {t s : Str} {rs : List Rule} {n : Nat} (h : Matches G (pegSeq L (lit t :: rs)) s (some n)) :
    ∃ s' m, s = t ++ s' ∧ Matches G (pegSeq L rs) s' (some m) ∧ n = t.length + m := by
  rw [pegSeq, lit_peg] at h
  obtain ⟨k, m, h1, h2, rfl⟩ := seq_reads h
  obtain ⟨s', rfl, rfl⟩ := word_reads h1
  rw [List.drop_left] at h2
  exact ⟨s', m, rfl, h2, rfl⟩

theorem refTo_seq {i : Nat} {s : Str} {rs : List Rule} {n : Nat} (h : Matches G (pegSeq L (refTo i :: rs)) s (some n)) :
    ∃ k m, Matches G (.ref i) s (some k) ∧ Matches G (pegSeq L rs) (s.drop k) (some m) ∧ n = k + m := by
  rw [pegSeq, refTo_peg] at h
  exact seq_reads h

theorem ahead_reads {r : Rule} {s : Str} {rs : List Rule} {n : Nat} (h : Matches G (pegSeq L (ahead r :: rs)) s (some n)) :
    (∃ k, Matches G (pegOf L r) s (some k)) ∧ Matches G (pegSeq L rs) s (some n) := by
  rw [pegSeq] at h
  obtain ⟨k, m, h1, h2, rfl⟩ := seq_reads h
  simp only [ahead, pegOf] at h1
  cases h1 with
  | neg_ok h1 =>
    cases h1 with
    | neg_no h1 => exact ⟨⟨_, h1⟩, by simpa using h2⟩

theorem lit_then {t s : Str} {rs : List Rule} {o : Option Nat} (h : Matches G (pegSeq L rs) s o) :
    Matches G (pegSeq L (lit t :: rs)) (t ++ s) (o.map (t.length + ·)) := by
  rw [pegSeq, lit_peg]
  exact .seq (word_ok (List.prefix_append t s)) (by rwa [List.drop_left])

theorem lit_end (t s : Str) : Matches G (pegSeq L [lit t]) (t ++ s) (some (t.length + 0)) := by
  have : Matches G (pegSeq L []) s (some 0) := by rw [pegSeq]; exact .empty
  exact lit_then this

theorem lit_fails {t s : Str} {rs : List Rule} (h : ¬ t <+: s) : Matches G (pegSeq L (lit t :: rs)) s none := by
  rw [pegSeq, lit_peg]
  exact .seq_no (word_no h)

theorem refTo_then {i : Nat} {e : Peg} {t s : Str} {rs : List Rule} {o : Option Nat} (he : G[i]? = some e)
    (h : Matches G e (t ++ s) (some t.length)) (h' : Matches G (pegSeq L rs) s o) :
    Matches G (pegSeq L (refTo i :: rs)) (t ++ s) (o.map (t.length + ·)) := by
  rw [pegSeq, refTo_peg]
  exact .seq (.ref he h) (by rwa [List.drop_left])

theorem ahead_then {r : Rule} {s : Str} {rs : List Rule} {k : Nat} {o : Option Nat} (h : Matches G (pegOf L r) s (some k))
    (h' : Matches G (pegSeq L rs) s o) : Matches G (pegSeq L (ahead r :: rs)) s o := by
  rw [pegSeq]
  exact seq_zero (by simp only [ahead, pegOf]; exact .neg_ok (.neg_no h)) h'

/-- The first that does not fail. -/
theorem sel_first {l : List Rule} {r : Rule} {l' : List Rule} {s : Str} {n : Nat} (hl : ∀ q ∈ l, Matches G (pegOf L q) s none)
    (h : Matches G (pegOf L r) s (some n)) : Matches G (pegSel L (l ++ r :: l')) s (some n) := by
  induction l with
  | nil => rw [List.nil_append, pegSel]; exact .alt_first h
  | cons q l ih =>
    rw [List.cons_append, pegSel]
    exact .alt_next (hl q (by simp)) (ih fun q hq => hl q (by simp [hq]))

theorem sel_none {l : List Rule} {s : Str} (hl : ∀ q ∈ l, Matches G (pegOf L q) s none) : Matches G (pegSel L l) s none := by
  induction l with
  | nil => exact fail_matches
  | cons q l ih => rw [pegSel]; exact .alt_next (hl q (by simp)) (ih fun q hq => hl q (by simp [hq]))

theorem sel_app {l l' : List Rule} {s : Str} {o : Option Nat} (hl : ∀ q ∈ l, Matches G (pegOf L q) s none)
    (h : Matches G (pegSel L l') s o) : Matches G (pegSel L (l ++ l')) s o := by
  induction l with
  | nil => exact h
  | cons q l ih => rw [List.cons_append, pegSel]; exact .alt_next (hl q (by simp)) (ih fun q hq => hl q (by simp [hq]))

/-! ### Codes -/

@[simp] theorem codes_nil : codes [] = [] := rfl
@[simp] theorem codes_cons (a : Nat) (w : List Nat) : codes (a :: w) = code a ++ codes w := rfl
@[simp] theorem codes_append (v w : List Nat) : codes (v ++ w) = codes v ++ codes w := by simp [codes]

theorem unary_prefix {x y : Char} (hxy : x ≠ y) {a b : Nat} {s : Str}
    (h : List.replicate a x ++ [y] <+: List.replicate b x ++ y :: s) : a = b := by
  induction a generalizing b with
  | zero =>
    cases b with
    | zero => rfl
    | succ b => simp [List.replicate_succ, List.cons_prefix_cons, hxy.symm] at h
  | succ a ih =>
    cases b with
    | zero => simp [List.replicate_succ, List.cons_prefix_cons, hxy] at h
    | succ b =>
      simp only [List.replicate_succ, List.cons_append, List.cons_prefix_cons, true_and] at h
      rw [ih h]

theorem code_prefix {a b : Nat} {s : Str} (h : code a <+: code b ++ s) : a = b :=
  unary_prefix (x := 'a') (y := 'b') (by decide) (by simpa [code] using h)

theorem mark_prefix {a b : Nat} {s : Str} (h : spot a <+: spot b ++ s) : a = b :=
  unary_prefix (x := 'c') (y := 'd') (by decide) (by simpa [spot] using h)

theorem code_head (a : Nat) : ∃ c t, code a = c :: t ∧ (c = 'a' ∨ c = 'b') := by
  cases a with
  | zero => exact ⟨_, _, rfl, .inr rfl⟩
  | succ a => exact ⟨_, _, rfl, .inl rfl⟩

theorem mark_head (a : Nat) : ∃ c t, spot a = c :: t ∧ (c = 'c' ∨ c = 'd') := by
  cases a with
  | zero => exact ⟨_, _, rfl, .inr rfl⟩
  | succ a => exact ⟨_, _, rfl, .inl rfl⟩

theorem code_not_mark {a k : Nat} {s : Str} : ¬ code a <+: spot k ++ s := by
  obtain ⟨c, t, h1, h2⟩ := code_head a
  obtain ⟨d, u, h3, h4⟩ := mark_head k
  rw [h1, h3, List.cons_append, List.cons_prefix_cons]
  rintro ⟨rfl, -⟩
  revert h2 h4
  rintro (rfl | rfl) (h | h) <;> revert h <;> decide

theorem mark_not_code {a k : Nat} {s : Str} : ¬ spot k <+: code a ++ s := by
  obtain ⟨c, t, h1, h2⟩ := code_head a
  obtain ⟨d, u, h3, h4⟩ := mark_head k
  rw [h1, h3, List.cons_append, List.cons_prefix_cons]
  rintro ⟨rfl, -⟩
  revert h2 h4
  rintro (rfl | rfl) (h | h) <;> revert h <;> decide

theorem code_not_sep {a : Nat} {s : Str} : ¬ code a <+: '#' :: s := by
  obtain ⟨c, t, h1, h2⟩ := code_head a
  rw [h1, List.cons_prefix_cons]
  rintro ⟨rfl, -⟩
  revert h2
  decide

theorem mark_not_sep {a : Nat} {s : Str} : ¬ spot a <+: '#' :: s := by
  obtain ⟨c, t, h1, h2⟩ := mark_head a
  rw [h1, List.cons_prefix_cons]
  rintro ⟨rfl, -⟩
  revert h2
  decide

/-- What the characters of codes and marks are. -/
def inBlock (c : Char) : Prop := c = 'a' ∨ c = 'b' ∨ c = 'c' ∨ c = 'd'

theorem inBlock_sep {c : Char} (h : inBlock c) : c ≠ '#' := by rintro rfl; revert h; simp [inBlock]

theorem code_inBlock {a : Nat} : ∀ c ∈ code a, inBlock c := by
  intro c hc
  simp only [code, List.mem_append, List.mem_replicate, List.mem_singleton] at hc
  rcases hc with ⟨-, rfl⟩ | rfl <;> simp [inBlock]

theorem mark_inBlock {a : Nat} : ∀ c ∈ spot a, inBlock c := by
  intro c hc
  simp only [spot, List.mem_append, List.mem_replicate, List.mem_singleton] at hc
  rcases hc with ⟨-, rfl⟩ | rfl <;> simp [inBlock]

theorem codes_inBlock {w : List Nat} : ∀ c ∈ codes w, inBlock c := by
  intro c hc
  obtain ⟨a, -, h⟩ := List.mem_flatMap.1 hc
  exact code_inBlock c h

/-- The words in front of the first separator are the same. -/
theorem sep_unique {b b' t t' : Str} (h : ∀ c ∈ b, c ≠ '#') (h' : ∀ c ∈ b', c ≠ '#') (he : b ++ '#' :: t = b' ++ '#' :: t') :
    b = b' ∧ t = t' := by
  induction b generalizing b' with
  | nil =>
    cases b' with
    | nil => simpa using he
    | cons c b' => simp only [List.nil_append, List.cons_append, List.cons.injEq] at he; exact absurd he.1.symm (h' c (by simp))
  | cons c b ih =>
    cases b' with
    | nil => simp only [List.nil_append, List.cons_append, List.cons.injEq] at he; exact absurd he.1 (h c (by simp))
    | cons c' b' =>
      simp only [List.cons_append, List.cons.injEq] at he
      obtain ⟨rfl, he⟩ := he
      obtain ⟨rfl, rfl⟩ := ih (fun c hc => h c (by simp [hc])) (fun c hc => h' c (by simp [hc])) he
      exact ⟨rfl, rfl⟩

/-! ### The word that a text begins with, without its marks -/

/-- `k` times `a` have been read. -/
def lettersOf : Nat → Str → List Nat
  | _, [] => []
  | k, c :: s => if c = '#' then [] else if c = 'a' then lettersOf (k + 1) s else if c = 'b' then k :: lettersOf 0 s else lettersOf k s

theorem lettersOf_code (a : Nat) (s : Str) : lettersOf 0 (code a ++ s) = a :: lettersOf 0 s := by
  have : ∀ k, lettersOf k (code a ++ s) = (k + a) :: lettersOf 0 s := by
    induction a with
    | zero => intro k; simp [code, lettersOf]
    | succ a ih =>
      intro k
      have := ih (k + 1)
      simp only [code, List.replicate_succ, List.cons_append, lettersOf] at this ⊢
      simp only [show ('a' : Char) ≠ '#' by decide, if_false, if_true]
      rw [this, Nat.add_right_comm, Nat.add_assoc]
  simpa using this 0

theorem lettersOf_mark (a : Nat) (s : Str) : lettersOf 0 (spot a ++ s) = lettersOf 0 s := by
  induction a with
  | zero => simp [spot, lettersOf]
  | succ a ih => simpa [spot, List.replicate_succ, lettersOf] using ih

theorem lettersOf_codes (w : List Nat) (s : Str) : lettersOf 0 (codes w ++ s) = w ++ lettersOf 0 s := by
  induction w with
  | nil => rfl
  | cons a w ih => rw [codes_cons, List.append_assoc, lettersOf_code, ih]; rfl

theorem lettersOf_sep (s : Str) : lettersOf 0 ('#' :: s) = [] := by simp [lettersOf]

/-! ### What the rules read -/

section Inversion
variable {N : Nat} {R : List (List Nat × List Nat)} {F : List (List Nat)}

theorem same_inv (h0 : G[0]? = some (pegOf L (sameRule N))) {s : Str} {n : Nat} (h : Matches G (.ref 0) s (some n)) :
    ∃ v t, s = codes v ++ '#' :: (codes v.reverse ++ t) ∧ s.drop n = t := by
  generalize hl : s.length = l
  induction l using Nat.strongRecOn generalizing s n with
  | ind l ih =>
    have h := ref_reads h0 h
    simp only [sameRule, pegOf] at h
    obtain ⟨r, hr, h⟩ := sel_reads h
    simp only [List.mem_append, List.mem_map, List.mem_singleton] at hr
    rcases hr with ⟨a, -, rfl⟩ | rfl
    · rw [pegOf] at h
      obtain ⟨s, m, rfl, hn, rfl⟩ := lit_reads h
      obtain ⟨k, m, h1, h2, rfl⟩ := refTo_seq hn
      obtain ⟨s', m, h3, h4, rfl⟩ := lit_reads h2
      rw [pegSeq] at h4
      cases empty_reads h4
      obtain ⟨v, t, rfl, hd⟩ := ih s.length (by subst hl; simp [code]; omega) h1 rfl
      rw [hd] at h3
      subst h3
      refine ⟨a :: v, s', by simp, ?_⟩
      rw [← List.drop_drop, List.drop_left, Nat.add_zero, ← List.drop_drop, hd, List.drop_left]
    · rw [lit_peg] at h
      obtain ⟨s', rfl, rfl⟩ := word_reads h
      exact ⟨[], s', rfl, rfl⟩

theorem mark_inv {K : Nat} {s : Str} {n : Nat} (h : Matches G (pegOf L (markRule K)) s (some n)) :
    lettersOf 0 (s.drop n) = lettersOf 0 s ∧ ∃ m, s = m ++ s.drop n ∧ ∀ c ∈ m, inBlock c := by
  simp only [markRule, pegOf] at h
  generalize ho : some n = o at h
  cases h with
  | alt_first h =>
    cases ho
    obtain ⟨r, hr, h⟩ := sel_reads h
    obtain ⟨k, -, rfl⟩ := List.mem_map.1 hr
    rw [lit_peg] at h
    obtain ⟨s', rfl, rfl⟩ := word_reads h
    rw [List.drop_left]
    exact ⟨(lettersOf_mark k s').symm, spot k, rfl, mark_inBlock⟩
  | alt_next _ h =>
    cases h
    cases ho
    exact ⟨rfl, [], rfl, by simp⟩

theorem copy_inv {K : Nat} (h1 : G[1]? = some (pegOf L (copyRule N K))) {s : Str} {n : Nat} (h : Matches G (.ref 1) s (some n)) :
    ∃ v m, s = codes v ++ '#' :: (m ++ s.drop n) ∧ (∀ z, lettersOf 0 (m ++ z) = v.reverse ++ lettersOf 0 z) ∧ ∀ c ∈ m, inBlock c := by
  generalize hl : s.length = l
  induction l using Nat.strongRecOn generalizing s n with
  | ind l ih =>
    have h := ref_reads h1 h
    simp only [copyRule, pegOf] at h
    obtain ⟨r, hr, h⟩ := sel_reads h
    simp only [List.mem_append, List.mem_map, List.mem_singleton] at hr
    rcases hr with ⟨a, -, rfl⟩ | rfl
    · rw [pegOf] at h
      obtain ⟨s, m, rfl, hn, rfl⟩ := lit_reads h
      obtain ⟨k, m, h1, h2, rfl⟩ := refTo_seq hn
      rw [pegSeq] at h2
      obtain ⟨k', m, hk, h3, rfl⟩ := seq_reads h2
      obtain ⟨-, mk, h4, h5⟩ := mark_inv hk
      obtain ⟨s', m', h6, h7, rfl⟩ := lit_reads h3
      rw [pegSeq] at h7
      cases empty_reads h7
      obtain ⟨v, m, h8, h9, h10⟩ := ih s.length (by subst hl; simp [code]; omega) h1 rfl
      have hd : List.drop ((code a).length + (k + (k' + ((code a).length + 0)))) (code a ++ s) = s' := by
        rw [← List.drop_drop, List.drop_left, ← List.drop_drop, ← List.drop_drop, h6, Nat.add_zero, List.drop_left]
      rw [h6] at h4
      refine ⟨a :: v, m ++ (mk ++ code a), ?_, ?_, ?_⟩
      · rw [hd]
        conv => lhs; rw [h8, h4]
        simp
      · intro z
        have hmk : lettersOf 0 (mk ++ (code a ++ z)) = a :: lettersOf 0 z := by
          -- the mark is none or one
          simp only [markRule, pegOf] at hk
          generalize ho : some k' = o at hk
          cases hk with
          | alt_first h =>
            cases ho
            obtain ⟨r, hr, h⟩ := sel_reads h
            obtain ⟨j, -, rfl⟩ := List.mem_map.1 hr
            rw [lit_peg] at h
            obtain ⟨s'', he, rfl⟩ := word_reads h
            rw [he, List.drop_left] at h6
            rw [he, h6] at h4
            rw [← List.append_cancel_right h4, lettersOf_mark, lettersOf_code]
          | alt_next _ h =>
            cases h
            cases ho
            rw [List.drop_zero] at h6
            rw [h6] at h4
            have : mk = [] := by
              have := congrArg List.length h4
              simp only [List.length_append] at this
              exact List.eq_nil_of_length_eq_zero (by omega)
            rw [this, List.nil_append, lettersOf_code]
        rw [List.append_assoc, h9, List.append_assoc, hmk]
        simp
      · intro c hc
        simp only [List.mem_append] at hc
        rcases hc with hc | hc | hc
        · exact h10 c hc
        · exact h5 c hc
        · exact code_inBlock c hc
    · rw [lit_peg] at h
      obtain ⟨s', rfl, rfl⟩ := word_reads h
      exact ⟨[], [], rfl, fun _ => rfl, by simp⟩

theorem step_inv (h0 : G[0]? = some (pegOf L (sameRule N))) (h2 : G[2]? = some (pegOf L (stepRule N R))) {s : Str} {n : Nat}
    (h : Matches G (.ref 2) s (some n)) :
    ∃ x y k u v, (x, y) ∈ R ∧
      s = codes u ++ (spot k ++ (codes x ++ (codes v ++ '#' :: (codes (u ++ y ++ v).reverse ++ s.drop n)))) := by
  generalize hl : s.length = l
  induction l using Nat.strongRecOn generalizing s n with
  | ind l ih =>
    have h := ref_reads h2 h
    simp only [stepRule, pegOf] at h
    obtain ⟨r, hr, h⟩ := sel_reads h
    simp only [List.mem_append, List.mem_map] at hr
    rcases hr with ⟨a, -, rfl⟩ | ⟨⟨⟨x, y⟩, k⟩, hq, rfl⟩
    · rw [pegOf] at h
      obtain ⟨s, m, rfl, hn, rfl⟩ := lit_reads h
      obtain ⟨k, m, h1, h2, rfl⟩ := refTo_seq hn
      obtain ⟨s', m, h3, h4, rfl⟩ := lit_reads h2
      rw [pegSeq] at h4
      cases empty_reads h4
      obtain ⟨x, y, j, u, v, hm, hs⟩ := ih s.length (by subst hl; simp [code]; omega) h1 rfl
      refine ⟨x, y, j, a :: u, v, hm, ?_⟩
      rw [← List.drop_drop, List.drop_left, ← List.drop_drop, h3, Nat.add_zero, List.drop_left]
      conv => lhs; rw [hs, h3]
      simp
    · rw [pegOf] at h
      obtain ⟨s1, m1, rfl, hn, rfl⟩ := lit_reads h
      obtain ⟨s, m, rfl, hn', rfl⟩ := lit_reads hn
      obtain ⟨k', m, h1, h2, rfl⟩ := refTo_seq hn'
      obtain ⟨s', m, h3, h4, rfl⟩ := lit_reads h2
      rw [pegSeq] at h4
      cases empty_reads h4
      obtain ⟨v, t, rfl, hd⟩ := same_inv h0 h1
      rw [hd] at h3
      subst h3
      refine ⟨x, y, k, [], v, (List.mem_zipIdx hq).2.2 ▸ List.getElem_mem _, ?_⟩
      rw [← List.drop_drop, List.drop_left, ← List.drop_drop, List.drop_left, ← List.drop_drop, hd, Nat.add_zero, List.drop_left]
      simp

theorem skip_inv (h3 : G[3]? = some (pegOf L skipRule)) {s : Str} {n : Nat} (h : Matches G (.ref 3) s (some n)) :
    ∃ b, (∀ c ∈ b, c ≠ '#') ∧ s = b ++ '#' :: s.drop n := by
  generalize hl : s.length = l
  induction l using Nat.strongRecOn generalizing s n with
  | ind l ih =>
    have h := ref_reads h3 h
    simp only [skipRule, pegOf] at h
    obtain ⟨r, hr, h⟩ := sel_reads h
    simp only [List.mem_append, List.mem_map, List.mem_singleton] at hr
    rcases hr with ⟨t, ht, rfl⟩ | rfl
    · rw [pegOf] at h
      obtain ⟨s, m, rfl, hn, rfl⟩ := lit_reads h
      obtain ⟨k, m, h1, h2, rfl⟩ := refTo_seq hn
      rw [pegSeq] at h2
      cases empty_reads h2
      have ht' : 0 < t.length ∧ ∀ c ∈ t, c ≠ '#' := by
        simp only [List.mem_cons, List.not_mem_nil, or_false] at ht
        rcases ht with rfl | rfl | rfl | rfl <;> simp
      obtain ⟨b, hb, hs⟩ := ih s.length (by subst hl; simp; omega) h1 rfl
      refine ⟨t ++ b, ?_, ?_⟩
      · intro c hc
        rcases List.mem_append.1 hc with hc | hc
        · exact ht'.2 c hc
        · exact hb c hc
      · rw [← List.drop_drop, List.drop_left, Nat.add_zero]
        conv => lhs; rw [hs]
        simp
    · rw [lit_peg] at h
      obtain ⟨s', rfl, rfl⟩ := word_reads h
      exact ⟨[], by simp, rfl⟩

theorem found_inv (h4 : G[4]? = some (pegOf L (foundRule N F))) {s : Str} {n : Nat} (h : Matches G (.ref 4) s (some n)) :
    ∃ u t, ∃ f ∈ F, s = codes u ++ (codes f.reverse ++ t) := by
  generalize hl : s.length = l
  induction l using Nat.strongRecOn generalizing s n with
  | ind l ih =>
    have h := ref_reads h4 h
    simp only [foundRule, pegOf] at h
    obtain ⟨r, hr, h⟩ := sel_reads h
    simp only [List.mem_append, List.mem_map] at hr
    rcases hr with ⟨f, hf, rfl⟩ | ⟨a, -, rfl⟩
    · rw [pegOf] at h
      obtain ⟨s, m, rfl, h, rfl⟩ := lit_reads h
      exact ⟨[], s, f, hf, rfl⟩
    · rw [pegOf] at h
      obtain ⟨s, m, rfl, hn, rfl⟩ := lit_reads h
      obtain ⟨k, m, h1, h2, rfl⟩ := refTo_seq hn
      obtain ⟨u, t, f, hf, rfl⟩ := ih s.length (by subst hl; simp [code]; omega) h1 rfl
      exact ⟨a :: u, t, f, hf, by simp⟩

theorem history_inv (h0 : G[0]? = some (pegOf L (sameRule N))) (h1 : G[1]? = some (pegOf L (copyRule N R.length)))
    (h2 : G[2]? = some (pegOf L (stepRule N R))) (h3 : G[3]? = some (pegOf L skipRule)) (h4 : G[4]? = some (pegOf L (foundRule N F)))
    (h5 : G[5]? = some (pegOf L (historyRule R.length))) {s : Str} {n : Nat} {w : List Nat} (h : Matches G (.ref 5) s (some n))
    (hw : lettersOf 0 s = w.reverse) : ReachesWord R F w := by
  generalize hl : s.length = l
  induction l using Nat.strongRecOn generalizing s n w with
  | ind l ih =>
    have h := ref_reads h5 h
    simp only [historyRule, pegOf] at h
    obtain ⟨r, hr, h⟩ := sel_reads h
    simp only [List.mem_cons, List.not_mem_nil, or_false] at hr
    rcases hr with rfl | rfl
    · rw [refTo_peg] at h
      obtain ⟨u, t, f, hf, rfl⟩ := found_inv h4 h
      rw [lettersOf_codes, lettersOf_codes] at hw
      refine ⟨w, .refl, f, hf, (lettersOf 0 t).reverse, u.reverse, ?_⟩
      have := congrArg List.reverse hw
      simpa using this
    · rw [pegOf] at h
      obtain ⟨⟨k1, ha⟩, h⟩ := ahead_reads h
      obtain ⟨k2, m, hs, hn, rfl⟩ := refTo_seq h
      obtain ⟨⟨k3, hb⟩, hn⟩ := ahead_reads hn
      obtain ⟨k4, m, hs', hn', rfl⟩ := refTo_seq hn
      obtain ⟨k5, m, hh, -, rfl⟩ := refTo_seq hn'
      rw [pegOf] at ha hb
      -- the word and its copy
      obtain ⟨k6, m', hc, hc', rfl⟩ := refTo_seq ha
      rw [pegSeq] at hc'
      obtain ⟨k7, m'', hm, hd, rfl⟩ := seq_reads hc'
      obtain ⟨z, m''', hz, -, rfl⟩ := lit_reads hd
      obtain ⟨v, c, e1, e2, e3⟩ := copy_inv h1 hc
      obtain ⟨e4, -⟩ := mark_inv hm
      obtain ⟨b, hb1, e5⟩ := skip_inv h3 hs
      have e6 := sep_unique hb1 (fun c hc => inBlock_sep (codes_inBlock c hc)) (e5.symm.trans e1)
      have e7 : v = w.reverse := by rw [← hw, e1, lettersOf_codes, lettersOf_sep, List.append_nil]
      have e8 : lettersOf 0 (s.drop k2) = w := by
        rw [e6.2, e2, ← e4, hz, List.singleton_append, lettersOf_sep, e7]
        simp
      -- the step
      obtain ⟨k8, m', hb3, hb', rfl⟩ := refTo_seq hb
      obtain ⟨z', m'', hz', -, rfl⟩ := lit_reads hb'
      obtain ⟨x, y, k, u, v', hxy, e9⟩ := step_inv h0 h2 hb3
      obtain ⟨b', hb2, e10⟩ := skip_inv h3 hs'
      have e11 : codes u ++ (spot k ++ (codes x ++ codes v')) ++ '#' :: (codes (u ++ y ++ v').reverse ++ ((s.drop k2).drop k8)) =
          b' ++ '#' :: (s.drop k2).drop k4 := by
        rw [← e10]
        conv => rhs; rw [e9]
        simp
      have e12 := (sep_unique (by
        intro c hc
        simp only [List.mem_append] at hc
        rcases hc with hc | hc | hc | hc
        · exact inBlock_sep (codes_inBlock c hc)
        · exact inBlock_sep (mark_inBlock c hc)
        · exact inBlock_sep (codes_inBlock c hc)
        · exact inBlock_sep (codes_inBlock c hc)) hb2 e11).2
      have e13 : w = u ++ x ++ v' := by
        rw [← e8, e9, lettersOf_codes, lettersOf_mark, lettersOf_codes, lettersOf_codes, lettersOf_sep]
        simp
      have e14 : lettersOf 0 ((s.drop k2).drop k4) = (u ++ y ++ v').reverse := by
        rw [← e12, lettersOf_codes, hz', List.singleton_append, lettersOf_sep, List.append_nil]
      have hlt : ((s.drop k2).drop k4).length < l := by
        have := congrArg List.length e5
        simp only [List.length_append, List.length_cons] at this
        have h' : ((s.drop k2).drop k4).length ≤ (s.drop k2).length := by rw [List.length_drop (i := k4)]; omega
        omega
      obtain ⟨w', h1, h2⟩ := ih _ hlt hh e14 rfl
      exact ⟨w', .step ⟨x, y, u, v', hxy, e13, rfl⟩ h1, h2⟩

end Inversion

/-! ### Texts that they read -/

theorem first_of {α : Type} {P : α → Prop} {l : List α} (h : ∃ a ∈ l, P a) : ∃ l1 a l2, l = l1 ++ a :: l2 ∧ P a ∧ ∀ b ∈ l1, ¬ P b := by
  classical
  induction l with
  | nil => simp at h
  | cons a l ih =>
    by_cases ha : P a
    · exact ⟨[], a, l, rfl, ha, by simp⟩
    · obtain ⟨b, hb, hP⟩ := h
      have : b ∈ l := by
        rcases List.mem_cons.1 hb with rfl | hb
        · exact absurd hP ha
        · exact hb
      obtain ⟨l1, c, l2, rfl, hc, hl⟩ := ih ⟨b, this, hP⟩
      refine ⟨a :: l1, c, l2, rfl, hc, ?_⟩
      intro d hd
      rcases List.mem_cons.1 hd with rfl | hd
      · exact ha
      · exact hl d hd

theorem letters_none {l : List Nat} {tl : Nat → List Rule} {s : Str} (h : ∀ a, ¬ code a <+: s) :
    ∀ q ∈ l.map (fun b => Rule.sequence (lit (code b) :: tl b) 0), Matches G (pegOf L q) s none := by
  intro q hq
  obtain ⟨b, -, rfl⟩ := List.mem_map.1 hq
  rw [pegOf]
  exact lit_fails (h b)

/-- Alternatives for letters. -/
theorem letters_sel {l : List Nat} {tl : Nat → List Rule} {a : Nat} {s : Str} {o : Option Nat} (ha : a ∈ l)
    (h : Matches G (pegSeq L (tl a)) s o) {rest : List Rule} (hr : o = none → Matches G (pegSel L rest) (code a ++ s) none) :
    Matches G (pegSel L (l.map (fun b => .sequence (lit (code b) :: tl b) 0) ++ rest)) (code a ++ s) (o.map ((code a).length + ·)) := by
  induction l with
  | nil => simp at ha
  | cons b l ih =>
    rw [List.map_cons, List.cons_append, pegSel]
    by_cases hb : b = a
    · subst hb
      have h1 : Matches G (pegOf L (.sequence (lit (code b) :: tl b) 0)) (code b ++ s) (o.map ((code b).length + ·)) := by
        rw [pegOf]
        exact lit_then h
      cases o with
      | some n => exact .alt_first h1
      | none =>
        refine .alt_next h1 (sel_app ?_ (hr rfl))
        intro q hq
        obtain ⟨c, -, rfl⟩ := List.mem_map.1 hq
        by_cases hc : c = b
        · subst hc; exact h1
        · rw [pegOf]; exact lit_fails fun hp => hc (code_prefix hp)
    · refine .alt_next ?_ (ih ?_)
      · rw [pegOf]; exact lit_fails fun hp => hb (code_prefix hp)
      · rcases List.mem_cons.1 ha with rfl | ha
        · exact absurd rfl hb
        · exact ha

theorem matches_cast {e : Peg} {s s' : Str} {o o' : Option Nat} (h : Matches G e s o) (hs : s = s') (ho : o = o') : Matches G e s' o' := by
  subst hs ho
  exact h

section Reading
variable {N : Nat} {R : List (List Nat × List Nat)} {F : List (List Nat)}

theorem same_ok (h0 : G[0]? = some (pegOf L (sameRule N))) {v : List Nat} (hv : ∀ a ∈ v, a < N) (t : Str) :
    Matches G (pegOf L (sameRule N)) (codes v ++ '#' :: codes v.reverse ++ t) (some (codes v ++ '#' :: codes v.reverse).length) := by
  induction v generalizing t with
  | nil =>
    simp only [sameRule, pegOf]
    exact sel_first (letters_none fun a => by simpa using code_not_sep) (by rw [lit_peg]; exact word_ok (by simp))
  | cons a v ih =>
    have h := ih (fun b hb => hv b (by simp [hb])) (code a ++ t)
    simp only [sameRule, pegOf]
    have := letters_sel (L := L) (l := List.range N) (tl := fun b => [refTo 0, lit (code b)]) (rest := [lit ['#']]) (a := a)
      (List.mem_range.2 (hv a (by simp)))
      (refTo_then (rs := [lit (code a)]) h0 h (lit_then (t := code a) (s := t) (rs := []) (by rw [pegSeq]; exact .empty))) (by simp)
    exact matches_cast this (by simp) (by simp; omega)

/-- A mark or nothing. -/
def markText : Option Nat → Str
  | none => []
  | some k => spot k

theorem mark_ok {K : Nat} {o : Option Nat} (ho : ∀ k, o = some k → k < K) {s : Str} (hs : ∀ k, ¬ spot k <+: s) :
    Matches G (pegOf L (markRule K)) (markText o ++ s) (some (markText o).length) := by
  simp only [markRule, pegOf]
  cases o with
  | none =>
    refine .alt_next (sel_none ?_) .empty
    intro q hq
    obtain ⟨k, -, rfl⟩ := List.mem_map.1 hq
    rw [lit_peg]
    exact word_no (hs k)
  | some k =>
    refine .alt_first ?_
    obtain ⟨l1, x, l2, hl, rfl, hn⟩ := first_of (l := List.range K) (P := (· = k)) ⟨k, List.mem_range.2 (ho k rfl), rfl⟩
    rw [hl, List.map_append, List.map_cons]
    refine sel_first ?_ (by rw [lit_peg]; exact word_ok (by simp [markText]))
    intro q hq
    obtain ⟨j, hj, rfl⟩ := List.mem_map.1 hq
    rw [lit_peg]
    exact word_no fun hp => hn j hj (mark_prefix hp)

/-- A word with marks. -/
def marked (l : List (Option Nat × Nat)) : Str := l.flatMap fun q => markText q.1 ++ code q.2

theorem copy_ok {K : Nat} (h1 : G[1]? = some (pegOf L (copyRule N K))) {l : List (Option Nat × Nat)}
    (hl : ∀ q ∈ l, (∀ k, q.1 = some k → k < K) ∧ q.2 < N) (t : Str) :
    Matches G (pegOf L (copyRule N K)) (codes (l.map (·.2)) ++ '#' :: marked l.reverse ++ t)
      (some (codes (l.map (·.2)) ++ '#' :: marked l.reverse).length) := by
  induction l generalizing t with
  | nil =>
    simp only [copyRule, pegOf]
    exact sel_first (letters_none fun a => by simpa using code_not_sep) (by rw [lit_peg]; exact word_ok (by simp))
  | cons q l ih =>
    obtain ⟨o, a⟩ := q
    have h := ih (fun b hb => hl b (by simp [hb])) (markText o ++ (code a ++ t))
    simp only [copyRule, pegOf]
    have := letters_sel (L := L) (l := List.range N) (tl := fun b => [refTo 1, markRule K, lit (code b)]) (rest := [lit ['#']]) (a := a)
      (List.mem_range.2 (hl (o, a) (by simp)).2)
      (refTo_then (rs := [markRule K, lit (code a)]) h1 h (by
        rw [pegSeq]
        exact .seq (mark_ok (hl (o, a) (by simp)).1 fun k => mark_not_code)
          (by rw [List.drop_left]; exact lit_then (t := code a) (s := t) (rs := []) (by rw [pegSeq]; exact .empty)))) (by simp)
    exact matches_cast this (by simp [marked]) (by simp [marked]; omega)

theorem step_ok (h0 : G[0]? = some (pegOf L (sameRule N))) (h2 : G[2]? = some (pegOf L (stepRule N R))) {x y u v : List Nat} {k : Nat}
    (hk : R[k]? = some (x, y)) (hu : ∀ a ∈ u, a < N) (hv : ∀ a ∈ v, a < N) (t : Str) :
    Matches G (pegOf L (stepRule N R))
      (codes u ++ (spot k ++ (codes x ++ (codes v ++ '#' :: codes (u ++ y ++ v).reverse))) ++ t)
      (some (codes u ++ (spot k ++ (codes x ++ (codes v ++ '#' :: codes (u ++ y ++ v).reverse)))).length) := by
  induction u generalizing t with
  | nil =>
    simp only [stepRule, pegOf]
    have hm : ((x, y), k) ∈ R.zipIdx := by rw [List.mem_zipIdx_iff_getElem?]; exact hk
    obtain ⟨l1, p, l2, hl, hp, hn⟩ := first_of (P := fun p : (List Nat × List Nat) × Nat => p.2 = k) ⟨_, hm, rfl⟩
    have hp' : p = ((x, y), k) := by
      have : p ∈ R.zipIdx := by rw [hl]; simp
      rw [List.mem_zipIdx_iff_getElem?, hp, hk] at this
      obtain ⟨p1, p2⟩ := p
      cases hp
      cases this
      rfl
    rw [hl, List.map_append, List.map_cons, ← List.append_assoc]
    refine sel_first ?_ ?_
    · intro q hq
      rcases List.mem_append.1 hq with hq | hq
      · exact letters_none (tl := fun a => [refTo 2, lit (code a)]) (fun a => by
          simpa using code_not_mark) q hq
      · obtain ⟨p', hp', rfl⟩ := List.mem_map.1 hq
        rw [pegOf]
        refine lit_fails fun hpre => hn p' hp' (mark_prefix (s := codes x ++ (codes v ++ '#' :: codes ([] ++ y ++ v).reverse) ++ t) ?_)
        simpa using hpre
    · subst hp'
      rw [pegOf]
      have := lit_then (t := spot k) (lit_then (t := codes x) (refTo_then h0 (same_ok h0 hv (codes y.reverse ++ t))
        (lit_then (t := codes y.reverse) (s := t) (L := L) (rs := []) (by rw [pegSeq]; exact .empty))))
      exact matches_cast this (by simp) (by simp; omega)
  | cons a u ih =>
    have h := ih (fun b hb => hu b (by simp [hb])) (code a ++ t)
    have h' := letters_sel (L := L) (l := List.range N) (tl := fun b => [refTo 2, lit (code b)])
      (rest := R.zipIdx.map fun q => .sequence [lit (spot q.2), lit (codes q.1.1), refTo 0, lit (codes q.1.2.reverse)] 0) (a := a)
      (List.mem_range.2 (hu a (by simp)))
      (refTo_then (rs := [lit (code a)]) h2 h (lit_then (t := code a) (s := t) (rs := []) (by rw [pegSeq]; exact .empty))) (by simp)
    rw [stepRule, pegOf]
    exact matches_cast h' (by simp) (by simp; omega)

theorem skip_ok (h3 : G[3]? = some (pegOf L skipRule)) {b : Str} (hb : ∀ c ∈ b, inBlock c) (t : Str) :
    Matches G (pegOf L skipRule) (b ++ ['#'] ++ t) (some (b ++ ['#']).length) := by
  induction b generalizing t with
  | nil =>
    simp only [skipRule, pegOf]
    refine sel_first ?_ (by rw [lit_peg]; exact word_ok (by simp))
    intro q hq
    simp only [List.map_cons, List.map_nil, List.mem_cons, List.not_mem_nil, or_false] at hq
    rcases hq with rfl | rfl | rfl | rfl <;> rw [pegOf] <;> exact lit_fails (by simp)
  | cons c b ih =>
    have h : Matches G (pegSeq L [lit [c], refTo 3]) ([c] ++ (b ++ ['#'] ++ t)) (some (1 + ((b ++ ['#']).length + 0))) :=
      lit_then (L := L) (refTo_then (L := L) h3 (ih (fun d hd => hb d (by simp [hd])) t) (rs := []) (by rw [pegSeq]; exact .empty))
    have h' : Matches G (pegSel L ([['a'], ['b'], ['c'], ['d']].map (fun t => .sequence [lit t, refTo 3] 0) ++ [lit ['#']]))
        ([c] ++ (b ++ ['#'] ++ t)) (some (1 + ((b ++ ['#']).length + 0))) := by
      obtain ⟨l1, x, l2, hl, rfl, hn⟩ := first_of (l := [['a'], ['b'], ['c'], ['d']]) (P := (· = [c])) (by
        rcases hb c (by simp) with rfl | rfl | rfl | rfl <;> simp)
      rw [hl, List.map_append, List.map_cons, List.append_assoc, List.cons_append]
      refine sel_first ?_ (by rw [pegOf]; exact h)
      intro q hq
      obtain ⟨d, hd, rfl⟩ := List.mem_map.1 hq
      have hd' : d ∈ [['a'], ['b'], ['c'], ['d']] := by rw [hl]; simp [hd]
      rw [pegOf]
      refine lit_fails fun hp => hn d hd ?_
      simp only [List.mem_cons, List.not_mem_nil, or_false] at hd'
      rcases hd' with rfl | rfl | rfl | rfl <;> simpa [List.cons_prefix_cons] using hp
    rw [skipRule, pegOf]
    exact matches_cast h' (by simp) (by simp; omega)

theorem codes_prefix {f w : List Nat} {t : Str} (h : codes f <+: codes w ++ '#' :: t) : f <+: w := by
  induction f generalizing w with
  | nil => simp
  | cons a f ih =>
    cases w with
    | nil => exact absurd (List.IsPrefix.trans (by simp) h) (code_not_sep (a := a) (s := t))
    | cons b w =>
      have : a = b := code_prefix (s := codes w ++ '#' :: t) (List.IsPrefix.trans (List.prefix_append _ (codes f)) (by simpa using h))
      subst this
      rw [codes_cons, codes_cons, List.append_assoc] at h
      rw [List.cons_prefix_cons]
      exact ⟨rfl, ih ((List.prefix_append_right_inj _).1 h)⟩

open Classical in
theorem found_or (h4 : G[4]? = some (pegOf L (foundRule N F))) {w : List Nat} (hw : ∀ a ∈ w, a < N) (t : Str) :
    Matches G (pegOf L (foundRule N F)) (codes w ++ '#' :: t)
      (if ∃ f ∈ F, f.reverse <:+: w then some (codes w ++ '#' :: t).length else none) := by
  -- one of the words comes next
  have hit : ∀ w : List Nat, (∃ f ∈ F, codes f.reverse <+: codes w ++ '#' :: t) → (∃ f ∈ F, f.reverse <:+: w) ∧
      Matches G (pegOf L (foundRule N F)) (codes w ++ '#' :: t) (some (codes w ++ '#' :: t).length) := by
    intro w hf
    obtain ⟨l1, f, l2, hl, hf, hn⟩ := first_of hf
    refine ⟨⟨f, by rw [hl]; simp, (codes_prefix hf).isInfix⟩, ?_⟩
    rw [foundRule, pegOf, hl, List.map_append, List.map_cons, List.append_assoc, List.cons_append]
    refine sel_first ?_ ?_
    · intro q hq
      obtain ⟨g, hg, rfl⟩ := List.mem_map.1 hq
      rw [pegOf]
      exact lit_fails (hn g hg)
    · obtain ⟨s, hs⟩ := hf
      rw [pegOf, ← hs]
      have : Matches G (pegSeq L [restRule]) s (some (s.length + 0)) := by
        rw [pegSeq, pegSeq]
        exact .seq (o := some 0) (rest_matches s) .empty
      exact matches_cast (lit_then this) rfl (by simp)
  have miss : ∀ w : List Nat, (¬ ∃ f ∈ F, codes f.reverse <+: codes w ++ '#' :: t) → ∀ q ∈ F.map (fun f => Rule.sequence [lit (codes f.reverse), restRule] 0),
      Matches G (pegOf L q) (codes w ++ '#' :: t) none := by
    intro w hf q hq
    obtain ⟨g, hg, rfl⟩ := List.mem_map.1 hq
    rw [pegOf]
    exact lit_fails fun h => hf ⟨g, hg, h⟩
  induction w with
  | nil =>
    by_cases hf : ∃ f ∈ F, codes f.reverse <+: codes [] ++ '#' :: t
    · obtain ⟨h1, h2⟩ := hit [] hf
      rw [if_pos h1]
      exact h2
    · rw [if_neg, foundRule, pegOf]
      · exact sel_none fun q hq => (List.mem_append.1 hq).elim (miss [] hf q)
          fun hq => letters_none (tl := fun _ => [refTo 4]) (fun a => by simpa using code_not_sep) q hq
      · rintro ⟨f, hm, h⟩
        exact hf ⟨f, hm, by rw [List.infix_nil.1 h]; simp⟩
  | cons a w ih =>
    by_cases hf : ∃ f ∈ F, codes f.reverse <+: codes (a :: w) ++ '#' :: t
    · obtain ⟨h1, h2⟩ := hit (a :: w) hf
      rw [if_pos h1]
      exact h2
    · have hi : (∃ f ∈ F, f.reverse <:+: a :: w) ↔ ∃ f ∈ F, f.reverse <:+: w := by
        constructor
        · rintro ⟨f, hm, h⟩
          rcases List.infix_cons_iff.1 h with h | h
          · obtain ⟨z, hz⟩ := h
            exact absurd ⟨f, hm, by rw [← hz]; simp⟩ hf
          · exact ⟨f, hm, h⟩
        · rintro ⟨f, hm, h⟩
          exact ⟨f, hm, List.infix_cons_iff.2 (.inr h)⟩
      have h := ih fun b hb => hw b (by simp [hb])
      have h' := letters_sel (L := L) (l := List.range N) (tl := fun _ => [refTo 4]) (a := a) (s := codes w ++ '#' :: t) (rest := [])
        (o := if ∃ f ∈ F, f.reverse <:+: w then some (codes w ++ '#' :: t).length else none)
        (List.mem_range.2 (hw a (by simp))) (by
          rw [pegSeq, refTo_peg, pegSeq]
          by_cases hc : ∃ f ∈ F, f.reverse <:+: w
          · rw [if_pos hc] at h ⊢
            exact .seq (o := some 0) (.ref h4 h) .empty
          · rw [if_neg hc] at h ⊢
            exact .seq_no (.ref h4 h)) fun _ => fail_matches
      rw [List.append_nil] at h'
      rw [foundRule, pegOf]
      refine matches_cast (sel_app (miss _ hf) (by rw [codes_cons, List.append_assoc]; exact h')) rfl ?_
      by_cases hc : ∃ f ∈ F, f.reverse <:+: w
      · rw [if_pos hc, if_pos (hi.2 hc)]; simp
      · rw [if_neg hc, if_neg fun h => hc (hi.1 h)]; rfl

theorem markText_inBlock {o : Option Nat} : ∀ c ∈ markText o, inBlock c := by
  cases o with
  | none => simp [markText]
  | some k => exact mark_inBlock

/-- A word with the mark in front of what is rewritten, as a copy. -/
theorem marked_word (u z : List Nat) (k : Nat) : ∃ l o, l.map (·.2) = u ++ z ∧ codes u ++ (spot k ++ codes z) = marked l ++ markText o ∧
    (∀ q ∈ l, ∀ j, q.1 = some j → j = k) ∧ ∀ j, o = some j → j = k := by
  have hp : ∀ u : List Nat, marked (u.map (none, ·)) = codes u := by
    intro u
    induction u with
    | nil => rfl
    | cons a u ih => simp only [marked, List.map_cons, List.flatMap_cons] at ih ⊢; rw [ih]; rfl
  cases z with
  | nil => exact ⟨u.map (none, ·), some k, by simp [Function.comp_def], by rw [hp]; simp [markText], by simp, by simp⟩
  | cons a z =>
    refine ⟨u.map (none, ·) ++ (some k, a) :: z.map (none, ·), none, by simp [Function.comp_def], ?_, ?_, by simp⟩
    · have : marked (u.map (none, ·) ++ (some k, a) :: z.map (none, ·)) =
          marked (u.map (none, ·)) ++ (spot k ++ code a ++ marked (z.map (none, ·))) := by simp [marked, markText]
      rw [this, hp, hp]
      simp [markText]
    · intro q hq j hj
      simp only [List.mem_append, List.mem_map, List.mem_cons] at hq
      rcases hq with ⟨b, -, rfl⟩ | rfl | ⟨b, -, rfl⟩
      · cases hj
      · cases hj; rfl
      · cases hj

theorem history_ok (h0 : G[0]? = some (pegOf L (sameRule N))) (h1 : G[1]? = some (pegOf L (copyRule N R.length)))
    (h2 : G[2]? = some (pegOf L (stepRule N R))) (h3 : G[3]? = some (pegOf L skipRule)) (h4 : G[4]? = some (pegOf L (foundRule N F)))
    (h5 : G[5]? = some (pegOf L (historyRule R.length))) (hR : ∀ q ∈ R, ∀ a ∈ q.2, a < N) {w w' : List Nat}
    (h : RewritesTo R w w') (hf : ∃ f ∈ F, f <:+: w') (hw : ∀ a ∈ w, a < N) :
    ∃ t, Matches G (pegOf L (historyRule R.length)) (codes w.reverse ++ '#' :: t) (some (codes w.reverse ++ '#' :: t).length) := by
  induction h with
  | @refl w =>
    refine ⟨[], ?_⟩
    rw [historyRule, pegOf, pegSel]
    refine .alt_first ?_
    rw [refTo_peg]
    have := found_or h4 (w := w.reverse) (by simpa using hw) []
    rw [if_pos] at this
    · exact .ref h4 this
    · obtain ⟨f, hf, h⟩ := hf
      exact ⟨f, hf, List.reverse_infix.2 h⟩
  | @step w w2 w3 hs hr ih =>
    obtain ⟨x, y, u, v, hxy, rfl, rfl⟩ := hs
    obtain ⟨t, ih⟩ := ih hf (by
      intro a ha
      simp only [List.mem_append] at ha
      rcases ha with (ha | ha) | ha
      · exact hw a (by simp [ha])
      · exact hR _ hxy a ha
      · exact hw a (by simp [ha]))
    obtain ⟨k, hk⟩ := List.mem_iff_getElem?.1 hxy
    have hkR : k < R.length := (List.getElem?_eq_some_iff.1 hk).1
    have hu : ∀ a ∈ u, a < N := fun a ha => hw a (by simp [ha])
    have hv : ∀ a ∈ v, a < N := fun a ha => hw a (by simp [ha])
    obtain ⟨l, o, hl, hm, hl1, hl2⟩ := marked_word u (x ++ v) k
    refine ⟨codes u ++ (spot k ++ codes (x ++ v)) ++ '#' :: (codes (u ++ y ++ v).reverse ++ '#' :: t), ?_⟩
    rw [historyRule, pegOf]
    have hfo := found_or h4 (w := (u ++ x ++ v).reverse) (fun a ha => hw a (List.mem_reverse.1 ha))
      (codes u ++ (spot k ++ codes (x ++ v)) ++ '#' :: (codes (u ++ y ++ v).reverse ++ '#' :: t))
    rw [pegSel, refTo_peg]
    split at hfo
    · exact .alt_first (.ref h4 hfo)
    · refine .alt_next (.ref h4 hfo) ?_
      rw [pegSel]
      refine .alt_first ?_
      rw [pegOf]
      -- the copy
      have hc := copy_ok (L := L) h1 (l := l.reverse) (by
        intro q hq
        rw [List.mem_reverse] at hq
        refine ⟨fun j hj => hl1 q hq j hj ▸ hkR, hw q.2 ?_⟩
        rw [List.append_assoc, ← hl]
        exact List.mem_map_of_mem hq)
        (markText o ++ '#' :: (codes (u ++ y ++ v).reverse ++ '#' :: t))
      rw [List.reverse_reverse, List.map_reverse, hl] at hc
      refine ahead_then (k := _) (r := .sequence [refTo 1, markRule R.length, lit ['#']] 0) (by
        rw [pegOf]
        refine matches_cast (refTo_then h1 hc (rs := [markRule R.length, lit ['#']]) (o := some ((markText o).length + (1 + 0))) ?_) ?_ rfl
        · rw [pegSeq]
          refine .seq (o := some (1 + 0)) (mark_ok (fun j hj => hl2 j hj ▸ hkR) fun j => mark_not_sep) ?_
          rw [List.drop_left]
          exact lit_end ['#'] _
        · rw [hm]; simp) ?_
      -- past the word
      have hs1 := skip_ok (L := L) h3 (b := codes (u ++ x ++ v).reverse) codes_inBlock
        (codes u ++ (spot k ++ codes (x ++ v)) ++ '#' :: (codes (u ++ y ++ v).reverse ++ '#' :: t))
      have hs2 := skip_ok (L := L) h3 (b := codes u ++ (spot k ++ codes (x ++ v))) (by
        intro c hc
        simp only [List.mem_append] at hc
        rcases hc with hc | hc | hc
        · exact codes_inBlock c hc
        · exact mark_inBlock c hc
        · exact codes_inBlock c hc) (codes (u ++ y ++ v).reverse ++ '#' :: t)
      have hst := step_ok (L := L) h0 h2 hk hu hv ('#' :: t)
      have hlast : Matches G (pegSeq L [refTo 3, refTo 5])
          (codes u ++ (spot k ++ codes (x ++ v)) ++ ['#'] ++ (codes (u ++ y ++ v).reverse ++ '#' :: t))
          (some ((codes u ++ (spot k ++ codes (x ++ v)) ++ ['#']).length + ((codes (u ++ y ++ v).reverse ++ '#' :: t).length + 0))) := by
        refine refTo_then h3 hs2 (o := some _) ?_
        rw [pegSeq, refTo_peg, pegSeq]
        exact .seq (o := some 0) (.ref h5 ih) .empty
      have hahead : Matches G (pegSeq L [ahead (.sequence [refTo 2, lit ['#']] 0), refTo 3, refTo 5])
          (codes u ++ (spot k ++ codes (x ++ v)) ++ ['#'] ++ (codes (u ++ y ++ v).reverse ++ '#' :: t))
          (some ((codes u ++ (spot k ++ codes (x ++ v)) ++ ['#']).length + ((codes (u ++ y ++ v).reverse ++ '#' :: t).length + 0))) := by
        refine ahead_then (k := _) (by
          rw [pegOf]
          refine matches_cast (refTo_then h2 hst (rs := [lit ['#']]) (o := some (1 + 0)) ?_) ?_ rfl
          · exact lit_end ['#'] _
          · simp) hlast
      exact matches_cast (refTo_then h3 hs1 (matches_cast hahead (by simp) rfl)) (by simp) (by simp; omega)

end Reading

end Verif
