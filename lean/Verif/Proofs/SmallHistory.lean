import Verif.Proofs.Cut
import Verif.Proofs.RewritingTotal
/-
The two kinds of syntaxes for histories read the same.
-/
namespace Verif
open Spec Peg

section
variable {L : Lexer} {N : Nat} {R : List (List Nat × List Nat)} {F : List (List Nat)} {q : Rule}

theorem cut_lit {m : Nat} {G' : List Peg} (t : Str) : CutOut m G' (pegOf L (lit t)) (pegOf L (lit t)) := by
  rw [lit_peg]
  exact cut_refl (word_closed m t)

theorem cut_to {m : Nat} {G' : List Peg} {i : Nat} (h : i < m) : CutOut m G' (pegOf L (refTo i)) (pegOf L (refTo i)) := by
  rw [refTo_peg]
  exact .ref h

theorem cut_seq {m : Nat} {rules : List Rule} : ∀ {as as' : List Rule}, CutAll L m rules as as' →
    CutOut m (rules.map (pegOf L)) (pegSeq L as) (pegSeq L as')
  | _, _, .nil => .empty
  | _, _, .cons h h' => .seq h (cut_seq h')

theorem cut_sel {m : Nat} {rules : List Rule} : ∀ {as as' : List Rule}, CutAll L m rules as as' →
    CutOut m (rules.map (pegOf L)) (pegSel L as) (pegSel L as')
  | _, _, .nil => .neg .empty
  | _, _, .cons h h' => .alt h (cut_sel h')

theorem cutAll_refl {m : Nat} {rules : List Rule} {as : List Rule} (h : ∀ a ∈ as, CutOut m (rules.map (pegOf L)) (pegOf L a) (pegOf L a)) :
    CutAll L m rules as as := by
  induction as with
  | nil => exact .nil
  | cons a as ih => exact .cons (h a (by simp)) (ih fun b hb => h b (by simp [hb]))

/-- The alternatives of the rules of `historySyntax`. -/
def historyLists (N : Nat) (R : List (List Nat × List Nat)) (F : List (List Nat)) : List (List Rule) :=
  [(List.range N).map (fun a => .sequence [lit (code a), refTo 0, lit (code a)] 0) ++ [lit ['#']],
    (List.range N).map (fun a => .sequence [lit (code a), refTo 1, markRule R.length, lit (code a)] 0) ++ [lit ['#']],
    (List.range N).map (fun a => .sequence [lit (code a), refTo 2, lit (code a)] 0) ++
      R.zipIdx.map (fun q => .sequence [lit (spot q.2), lit (codes q.1.1), refTo 0, lit (codes q.1.2.reverse)] 0),
    [['a'], ['b'], ['c'], ['d']].map (fun t => .sequence [lit t, refTo 3] 0) ++ [lit ['#']],
    F.map (fun f => .sequence [lit (codes f.reverse), restRule] 0) ++
      (List.range N).map fun a => .sequence [lit (code a), refTo 4] 0]

theorem small_mark (w : List Nat) :
    CutOut 7 ((smallSyntax N R F q w).rules.map (pegOf L)) (pegOf L (markRule R.length)) (pegOf L (.optional (refTo 7) 0)) := by
  simp only [markRule, pegOf]
  refine .alt ?_ .empty
  exact chain_cut (L := L) (rules := (smallSyntax N R F q w).rules) (pre := headsFrom (8 + R.length) (historyAlts N R F) ++ [smallHistory, q])
    (as' := markAlts R.length) (post := chainsFrom (8 + R.length) (historyAlts N R F) ++ [smallStart w])
    (by simp [smallSyntax, smallRules, chains_length, historyAlts]) (cutAll_refl fun a ha => by
      obtain ⟨k, -, rfl⟩ := List.mem_map.1 ha
      exact cut_lit _)

theorem small_lists (w : List Nat) (i : Nat) (as as' : List Rule) (h : (historyLists N R F)[i]? = some as) (h' : (historyAlts N R F)[i]? = some as') :
    CutAll L 7 (smallSyntax N R F q w).rules as as' := by
  have hm := small_mark (L := L) (N := N) (R := R) (F := F) (q := q) w
  have one {a a' : Rule} (h : CutOut 7 ((smallSyntax N R F q w).rules.map (pegOf L)) (pegOf L a) (pegOf L a')) :
      CutAll L 7 (smallSyntax N R F q w).rules [a] [a'] := .cons h .nil
  have hrest : CutOut 7 ((smallSyntax N R F q w).rules.map (pegOf L)) (pegOf L restRule) (pegOf L restRule) := by
    simp only [restRule, pegOf]
    exact .star .char
  match i, h, h' with
  | 0, h, h' =>
    cases h; cases h'
    exact cutAll_map (fun a _ => cut_seq (.cons (cut_lit _) (.cons (cut_to (by omega)) (one (cut_lit _))))) (one (cut_lit _))
  | 1, h, h' =>
    cases h; cases h'
    exact cutAll_map (fun a _ => cut_seq (.cons (cut_lit _) (.cons (cut_to (by omega)) (.cons hm (one (cut_lit _)))))) (one (cut_lit _))
  | 2, h, h' =>
    cases h; cases h'
    refine cutAll_map (fun a _ => cut_seq (.cons (cut_lit _) (.cons (cut_to (by omega)) (one (cut_lit _))))) (cutAll_refl fun a ha => ?_)
    obtain ⟨q, -, rfl⟩ := List.mem_map.1 ha
    exact cut_seq (.cons (cut_lit _) (.cons (cut_lit _) (.cons (cut_to (by omega)) (one (cut_lit _)))))
  | 3, h, h' =>
    cases h; cases h'
    exact cutAll_map (fun a _ => cut_seq (.cons (cut_lit _) (one (cut_to (by omega))))) (one (cut_lit _))
  | 4, h, h' =>
    cases h; cases h'
    refine cutAll_map (fun a _ => cut_seq (.cons (cut_lit _) (one hrest))) (cutAll_refl fun a ha => ?_)
    obtain ⟨q, -, rfl⟩ := List.mem_map.1 ha
    exact cut_seq (.cons (cut_lit _) (one (cut_to (by omega))))
  | i + 5, h, _ => simp [historyLists] at h

theorem small_rules (hq : (pegOf L q).Closed 7) (w : List Nat) (i : Nat) (hi : i < 7) :
    ∃ e e', ((historySyntax N R F q w).rules.map (pegOf L))[i]? = some e ∧ ((smallSyntax N R F q w).rules.map (pegOf L))[i]? = some e' ∧
      CutOut 7 ((smallSyntax N R F q w).rules.map (pegOf L)) e e' := by
  have hm := small_mark (L := L) (N := N) (R := R) (F := F) (q := q) w
  have hl := chains_cut (L := L) (m := 7) (rules := (smallSyntax N R F q w).rules)
    (pre := headsFrom (8 + R.length) (historyAlts N R F) ++ [smallHistory, q] ++ chainFrom 7 (markAlts R.length))
    (xs := historyLists N R F) (xs' := historyAlts N R F) (post := [smallStart w]) (k := 8 + R.length)
    (by simp [chains_length, chainFrom_length, historyAlts, markAlts]; omega) (by simp [smallSyntax, smallRules]) rfl
    (small_lists (L := L) w)
  have hg : ∀ i < 5, ∀ h, (headsFrom (8 + R.length) (historyAlts N R F))[i]? = some h → ((smallSyntax N R F q w).rules.map (pegOf L))[i]? = some (pegOf L h) := by
    intro i hi h hh
    rw [List.getElem?_map]
    simp only [smallSyntax, smallRules, List.append_assoc]
    rw [List.getElem?_append_left (by simpa [chains_length, historyAlts] using hi), hh]
    rfl
  match i, hi with
  | 0, _ => obtain ⟨h, h1, h2⟩ := hl 0 _ rfl; exact ⟨_, _, rfl, hg 0 (by omega) _ h1, h2⟩
  | 1, _ => obtain ⟨h, h1, h2⟩ := hl 1 _ rfl; exact ⟨_, _, rfl, hg 1 (by omega) _ h1, h2⟩
  | 2, _ => obtain ⟨h, h1, h2⟩ := hl 2 _ rfl; exact ⟨_, _, rfl, hg 2 (by omega) _ h1, h2⟩
  | 3, _ => obtain ⟨h, h1, h2⟩ := hl 3 _ rfl; exact ⟨_, _, rfl, hg 3 (by omega) _ h1, h2⟩
  | 4, _ => obtain ⟨h, h1, h2⟩ := hl 4 _ rfl; exact ⟨_, _, rfl, hg 4 (by omega) _ h1, h2⟩
  | 5, _ =>
    refine ⟨pegOf L (historyRule R.length), pegOf L smallHistory, rfl, rfl, ?_⟩
    refine cut_sel (.cons (cut_to (by omega)) (.cons (cut_seq (.cons ?_ (.cons (cut_to (by omega)) (.cons ?_ (.cons (cut_to (by omega))
      (.cons (cut_to (by omega)) .nil)))))) .nil))
    · exact .neg (.neg (cut_seq (.cons (cut_to (by omega)) (.cons hm (.cons (cut_lit _) .nil)))))
    · exact .neg (.neg (cut_seq (.cons (cut_to (by omega)) (.cons (cut_lit _) .nil))))
  | 6, _ => exact ⟨pegOf L q, pegOf L q, rfl, rfl, cut_refl hq⟩

/-- The last rules read the same. -/
theorem small_last (hq : (pegOf L q).Closed 7) (w : List Nat) (s : Str) (x : Option Nat) :
    Last L (smallSyntax N R F q w) s x ↔ Last L (historySyntax N R F q w) s x := by
  have hc : CutOut 7 ((smallSyntax N R F q w).rules.map (pegOf L)) (pegSeq L [ahead (lit (codes w.reverse ++ ['#'])), refTo 5, refTo 6])
      (pegOf L (smallStart w)) :=
    cut_seq (.cons (.neg (.neg (.lone (cut_lit _)))) (.cons (cut_to (by omega)) (.cons (cut_to (by omega)) .nil)))
  constructor
  · rintro ⟨r, hr, h⟩
    rw [show r = smallStart w by simpa [smallSyntax] using hr.symm] at h
    exact ⟨_, rfl, matches_cut (small_rules hq w) h hc⟩
  · rintro ⟨r, hr, h⟩
    cases hr
    exact ⟨smallStart w, by simp [smallSyntax], cut_matches (small_rules hq w) h hc⟩

end
end Verif
