import Verif.Props.TabCost
import Verif.Spec.TreeSize
/-
Indented texts that take linear time: C116.
-/
namespace Verif.Props.Tabs
open Verif Verif.Spec Verif.Props

section
variable {L : Lexer}

/-- A tree is read in four calls for each number. -/
def NodeFour (L : Lexer) (i : Nat) (t : Tree) (l : Nat) (s R : Str) : Prop :=
  ∀ g, Ender l R g → NodeTakes L (s ++ R) i (some (s.length + g)) (4 * t.numbers)

/-- So are children. -/
def KidsFour (L : Lexer) (i : Nat) (cs : List Tree) (l : Nat) (s R : Str) : Prop :=
  ∀ g, Ender l R g → LinesTake L true [] (s ++ R) i (some (s.length + g)) (4 * Tree.numbersList cs)

/-- And the rest of a block. -/
def RowsFour (L : Lexer) (m l : Nat) (cs : List Tree) (s R : Str) : Prop :=
  m + 1 < 2 ^ 32 → m ≤ l → ∀ g, Ender m R g → ∃ G, Ender l (s ++ R) G ∧ ∀ x, ∃ n, G + n = s.length + g ∧
    LinesTake L false (x ++ (s ++ R).take G) ((s ++ R).drop G) m (some n) (4 * Tree.numbersList cs)

theorem node_four {i d v cs l s R} (h : NumberAt L d v (s ++ R)) (hb : KidsFour L i cs l s R) :
    NodeFour L i (.node d v cs) l (d ++ s) R := by
  intro g hR
  rw [List.append_assoc]
  refine NodeTakes.cast (node_takes h (hb g hR)) ?_ ?_
  · simp; omega
  · simp only [Tree.numbers]; omega

theorem nil_four (hL : L.Lawful) (hR : ResumesLines L) {m l R} : RowsFour L m l [] [] R :=
  fun _ hl g hE => ⟨g, hE.mono hl, fun x => ⟨0, by simp, by simpa [Tree.numbersList] using stop_takes hL hR hE x⟩⟩

/-- A line of a block, its indentation `u`, and the rest of the block. -/
theorem row_four {m t l ts u s s' R} {i : Nat} {first : Bool} {item : Str} {G : Str}
    (h : NodeFour L (m + 1) t l s (s' ++ R)) (h' : RowsFour L m l ts s' R) (hl : m ≤ l) (hm : m + 1 < 2 ^ 32)
    {gR} (hE : Ender m R gR)
    (hline : ∀ n c, NodeTakes L (s ++ (s' ++ R)) (m + 1) (some n) c →
      LineTakes L first (u ++ (s ++ (s' ++ R))) i (some (u.length + n)) m c)
    (hcall : L.lineNext first item (G ++ (u ++ (s ++ (s' ++ R)))) = .call G.length) :
    LinesTake L first item (G ++ (u ++ (s ++ (s' ++ R)))) i (some (G.length + (u.length + (s.length + s'.length)) + gR))
      (4 * Tree.numbersList (t :: ts)) := by
  obtain ⟨G', hG', hrest⟩ := h' hm hl gR hE
  obtain ⟨n, hn, hr⟩ := hrest (u ++ s)
  have e1 : (u ++ (s ++ (s' ++ R))).take (u.length + (s.length + G')) = (u ++ s) ++ (s' ++ R).take G' := by
    rw [List.take_length_add_append, List.take_length_add_append, List.append_assoc]
  have e2 : (u ++ (s ++ (s' ++ R))).drop (u.length + (s.length + G')) = (s' ++ R).drop G' := by
    rw [List.drop_length_add_append, List.drop_length_add_append]
  have := lines_take_more (n := u.length + (s.length + G')) (j := m) (o := some n) hcall
    (by rw [List.drop_left]; exact hline _ _ (h G' hG')) (by
      rw [List.drop_length_add_append, e2, List.drop_left, e1]; exact hr)
  refine LinesTake.cast this ?_ ?_
  · dsimp only; omega
  · simp only [Tree.numbersList]; omega

theorem block_four (hL : L.Lawful) {i m t ts l g w w' s s' R} (hg : LineGap g) (hw : ReachesColumn tabs i w)
    (hw' : ∀ c ∈ w', Blank c) (hm : m = i + width tabs w') (hm' : m + 1 < 2 ^ 32)
    (hs : ∃ c cs, s = c :: cs ∧ isWs c = false) (hl : m ≤ l)
    (h : NodeFour L (m + 1) t l s (s' ++ R)) (h' : RowsFour L m l ts s' R) :
    KidsFour L i (t :: ts) m (g ++ (w ++ (w' ++ (s ++ s')))) R := by
  intro gR hE
  subst hm
  have hu : ∀ x ∈ w ++ w', Blank x := fun x hx => by
    rcases List.mem_append.1 hx with hx | hx
    · exact reaches_blank hw x hx
    · exact hw' x hx
  have := row_four (u := w ++ w') (first := true) (item := []) (G := g) (i := i) h h' hl hm' hE
    (by
      intro n c hr
      obtain ⟨c, cs, rfl, hc⟩ := hs
      exact line_takes_first hw hw' hc hm' hr)
    (by
      obtain ⟨c, cs, rfl, hc⟩ := hs
      refine lineNext_call hL (first := true) ?_ (by intro t ht; simp at ht) (by simp)
      rcases hg with rfl | ⟨b, rfl, hb⟩
      · refine ⟨by simp, by simp, .inl rfl, ?_⟩
        simpa using blank_nonBlank (b := cs ++ (s' ++ R)) hu hc
      · simpa using gap_lineStart (b := cs ++ (s' ++ R)) hb hu hc)
  simpa [Nat.add_assoc] using this

theorem cons_four (hR : ResumesLines L) {m l t ts l' g w s s' R} (hg : ∀ c ∈ g, isWs c = true)
    (hw : ReachesColumn tabs m w) (hl : width tabs w < l)
    (hs : ∃ c cs, s = c :: cs ∧ isWs c = false) (hl' : m ≤ l') (h : NodeFour L (m + 1) t l' s (s' ++ R))
    (h' : RowsFour L m l' ts s' R) :
    RowsFour L m l (t :: ts) (g ++ '\n' :: (w ++ (s ++ s'))) R := by
  intro hm hml gR hE
  obtain ⟨c, cs, rfl, hc⟩ := hs
  have hb := reaches_blank hw
  have etext : (g ++ '\n' :: (w ++ (c :: cs ++ s'))) ++ R = g ++ '\n' :: (w ++ c :: (cs ++ (s' ++ R))) := by simp
  have edrop : (g ++ '\n' :: (w ++ c :: (cs ++ (s' ++ R)))).drop (g.length + 1) = w ++ c :: (cs ++ (s' ++ R)) := by
    simp [List.drop_append]
  have etake : (g ++ '\n' :: (w ++ c :: (cs ++ (s' ++ R)))).take (g.length + 1) = g ++ ['\n'] := by
    simp [List.take_append, List.take_of_length_le (Nat.le_succ g.length)]
  refine ⟨g.length + 1, .inr ⟨g, w, c, cs ++ (s' ++ R), etext, hg, hb, hc, hl, rfl⟩, fun x => ?_⟩
  rw [etext, edrop, etake]
  refine ⟨_, ?_, row_four (u := w) (first := false) (item := x ++ (g ++ ['\n'])) (G := []) (i := m)
    h h' hl' hm hE (fun n c hr => line_takes_next hw hc hm hr) (by exact hR _ _ (by simp) (blank_nonBlank hb hc))⟩
  simp; omega

theorem tabTree_four (hL : L.Lawful) (hR : ResumesLines L) {i t l s R} (h : TabTree L tabs true i t l s R) :
    NodeFour L i t l s R :=
  TabTree.rec (motive_1 := fun i t l s R _ => NodeFour L i t l s R)
    (motive_2 := fun i cs l s R _ => KidsFour L i cs l s R)
    (motive_3 := fun m l cs s R _ => RowsFour L m l cs s R)
    (fun h _ ih => node_four h ih) (fun g hg => by simpa [Tree.numbersList] using leaf_takes hL hg)
    (fun hg hw hw' hm hm' h _ ih ih' => block_four hL hg hw hw' hm hm' (tabTree_head h)
      (Nat.le_of_succ_le (tabTree_lim h)) ih ih')
    (nil_four hL hR)
    (fun hg hw hl h _ ih ih' => cons_four hR hg hw (hl rfl) (tabTree_head h)
      (Nat.le_of_succ_le (tabTree_lim h)) ih ih') h

/-- The whole text, with space around the tree. -/
theorem tree_root {s w w' : Str} {c : Char} (hs : s.head? = some c) (hc : isWs c = false) (hw : ∀ x ∈ w, isWs x = true) {m : Nat}
    (h : NodeTakes L (s ++ w') 0 (some (s.length + w'.length)) m) (toks : List Tok) :
    ∃ e, Costs L indentSyntax (w ++ (s ++ w')) toks Indent.default (3 + m) e := by
  obtain ⟨x, j, tr, e, hr, ho, hct⟩ := h w.length 1002
  cases x with
  | none => simp at ho
  | some y =>
    obtain ⟨n, ts⟩ := y
    simp only [Option.map_some, Option.some.injEq] at ho
    subst ho
    have hw1 : Run (iEnv L) (.rule (.whitespace true 1001)) ⟨w ++ (s ++ w'), 0⟩ 0 (some (w.length, [])) 0 [] :=
      .ws_ok ⟨by simp, by simpa using hw, by intro y hy; simp [hs] at hy; subst hy; simp [hc]⟩ (by simp)
    have hw2 : Run (iEnv L) (.rule (.whitespace true 1003)) ⟨[], w.length + (s.length + w'.length)⟩ j (some (0, [])) j [] :=
      .ws_ok ⟨by simp, by simp, by simp⟩ (by simp)
    have ea : adv (⟨w ++ (s ++ w'), 0⟩ : Pos) w.length = ⟨s ++ w', w.length⟩ := by simp [adv]
    have eb : adv (⟨s ++ w', w.length⟩ : Pos) (s.length + w'.length) = ⟨[], w.length + (s.length + w'.length)⟩ := by simp [adv]
    have hrun : Run (iEnv L) (.rule (.sequence [.whitespace true 1001, iRule 1002, .whitespace true 1003] 1004)) ⟨w ++ (s ++ w'), 0⟩ 0 _ _ _ :=
      .sequence (.seq_cons hw1 (by rw [ea]; exact .seq_cons hr (by rw [eb]; exact .seq_cons hw2 .seq_nil)))
    have hcnt : Counts (iEnv L) (.rule (.sequence [.whitespace true 1001, iRule 1002, .whitespace true 1003] 1004))
        ⟨w ++ (s ++ w'), 0⟩ 0 _ _ :=
      .sequence (.seq_cons hw1 (.leaf trivial) (by
        rw [ea]; exact .seq_cons hr hct (by rw [eb]; exact .seq_cons hw2 (.leaf trivial) .seq_nil)))
    rw [show 1 + (1 + (m + (1 + 0))) = 3 + m by omega] at hcnt
    exact ⟨_, (C114_costs rfl hrun _ _).2 hcnt⟩

theorem tabTree_length {tab i t l s R} {b : Bool} (h : TabTree L tab b i t l s R) : t.numbers ≤ s.length :=
  TabTree.rec (motive_1 := fun _ t _ s _ _ => t.numbers ≤ s.length)
    (motive_2 := fun _ cs _ s _ _ => Tree.numbersList cs ≤ s.length)
    (motive_3 := fun _ _ cs s _ _ => Tree.numbersList cs ≤ s.length)
    (fun h _ ih => by
      obtain ⟨⟨c, cs, rfl, -⟩, -⟩ := h
      simp only [Tree.numbers, List.length_append, List.length_cons]; omega)
    (Nat.zero_le _)
    (fun _ _ _ _ _ _ _ ih ih' => by simp only [Tree.numbersList, List.length_append]; omega)
    (Nat.zero_le _)
    (fun _ _ _ _ _ ih ih' => by simp only [Tree.numbersList, List.length_append, List.length_cons]; omega) h

mutual
theorem tree_data_length : ∀ t : Tree, t.data.length = 3 * t.numbers
  | .node d v cs => by
    have := tree_dataList_length cs
    simp only [Tree.data, Tree.numbers, List.length_cons, List.length_append, List.length_nil]
    omega
theorem tree_dataList_length : ∀ ts : List Tree, (Tree.dataList ts).length = 3 * Tree.numbersList ts
  | [] => rfl
  | t :: ts => by
    have := tree_data_length t
    have := tree_dataList_length ts
    simp only [Tree.dataList, Tree.numbersList, List.length_append]
    omega
end

end

theorem tree_cost {L : Lexer} (hL : L.Lawful) (hR : ResumesLines L) {t : Tree} {l : Nat} {s w w' : Str}
    (h : TabTree L tabs true 0 t l s w') (hw : ∀ c ∈ w, isWs c = true) (hw' : ∀ c ∈ w', isWs c = true)
    {toks : List Tok} {m e : Nat} (hc : Costs L indentSyntax (w ++ (s ++ w')) toks Indent.default m e) :
    m = 3 + 4 * t.numbers := by
  obtain ⟨c, cs, rfl, hcw⟩ := tabTree_head h
  obtain ⟨e', h'⟩ := tree_root (c := c) rfl hcw hw (tabTree_four hL hR h w'.length (.inl ⟨hw', rfl⟩)) toks
  exact (C70_cost_unique hc h').1

end Verif.Props.Tabs

namespace Verif.Props
open Verif Verif.Spec Tabs

section
variable {L : Lexer} (hL : L.Lawful) (hs : NoSlash L) (hN : ReadsNumbers L) (hR : ResumesLines L)
include hL hs hN hR

/-- C116: a tree laid out with spaces and tabs, so that no line reaches so far that it would belong to the tree before
it, is read by four calls for each number, and three more. -/
theorem C116_tree : ∃ syn : Syntax, (∀ r, SyntaxReturns L indentRules r ↔ r = .ok syn) ∧
      ∀ t l s w w', TabTree L 4 true 0 t l s w' → (∀ c ∈ w, isWs c = true) → (∀ c ∈ w', isWs c = true) →
        ∀ toks m e, Costs L syn (w ++ (s ++ w')) toks Indent.default m e → m = 3 + 4 * t.numbers :=
  ⟨indentSyntax, indent_syntax hL hs hN, fun _ _ _ _ _ h hw hw' _ _ _ hc => tree_cost hL hR h hw hw' hc⟩

/-- C116: every text that is read takes so many calls if it has no tabs, or if every number ends its line.  The numbers
are a third of the data. -/
theorem C116_linear (hX : L.Exact) (hS : SolidNumbers L) :
    ∃ syn : Syntax, (∀ r, SyntaxReturns L indentRules r ↔ r = .ok syn) ∧
      ∀ text toks', '\t' ∉ text ∨ NumbersEndLines L text → Parses L syn text [] Indent.default (.ok toks') →
        ∃ N, toks'.length = 3 * N ∧ N ≤ text.length ∧
          ∀ toks m e, Costs L syn text toks Indent.default m e → m = 3 + 4 * N := by
  refine ⟨indentSyntax, indent_syntax hL hs hN, fun text toks' ht h => ?_⟩
  obtain ⟨t, l, s, w, w', rfl, hT, hw, hw', hd⟩ : ∃ t l s w w', text = w ++ (s ++ w') ∧ TabTree L 4 true 0 t l s w' ∧
      (∀ c ∈ w, isWs c = true) ∧ (∀ c ∈ w', isWs c = true) ∧ toks'.map (·.data) = t.data := by
    rcases ht with ht | ht
    · obtain ⟨t, s, w, w', e, hT, hw, hw', hd⟩ := indent_exact hL hX hS ht h
      obtain ⟨l, -, hT⟩ := C113_spaces (tab := 4) hT
      exact ⟨t, l, s, w, w', e, hT, hw, hw', hd⟩
    · exact Tabs.tabs_exact hL hX hS true true (fun _ => ⟨rfl, Tabs.stops hL hX hS hR⟩) (fun _ => ht) h
  refine ⟨t.numbers, ?_, ?_, fun toks m e hc => tree_cost hL hR hT hw hw' hc⟩
  · rw [← tree_data_length, ← hd, List.length_map]
  · have := tabTree_length hT; simp; omega

end

/-- Not vacuous: three numbers take fifteen calls. -/
example (m e : Nat) (h : Costs stdLexer indentSyntax c!"1\n  2\n  2" [] Indent.default m e) : m = 15 := by
  have h1 := exDigits_read (c := '1') (bits := 0x3ff0000000000000) (by decide)
  have h2 := exDigits_read (c := '2') (bits := 0x4000000000000000) (by decide)
  have leaf : ∀ R : Str, (∀ c, R.head? = some c → isWs c = true) →
      TabTree stdLexer 4 true 3 (.node ['2'] ⟨0x4000000000000000⟩ []) 3 ['2'] R := fun R hR =>
    .node (cs := []) (s := []) ⟨h2.1, h2.2 R hR⟩ .leaf
  have hT : TabTree stdLexer 4 true 0 (.node ['1'] ⟨0x3ff0000000000000⟩
      [.node ['2'] ⟨0x4000000000000000⟩ [], .node ['2'] ⟨0x4000000000000000⟩ []]) 2 c!"1\n  2\n  2" [] :=
    .node (d := ['1']) (s := c!"\n  2\n  2") ⟨h1.1, h1.2 _ (by intro c hc; simp at hc; subst hc; decide)⟩
      (.block (g := ['\n']) (w := []) (w' := c!"  ") (s := ['2']) (s' := c!"\n  2") (m := 2) (l := 3) (.inr ⟨[], rfl, by simp⟩)
        (reaches_spaces (i := 0)) (by intro c hc; simp at hc; exact .inl hc) (by decide) (by decide)
        (leaf _ (by intro c hc; simp at hc; subst hc; decide))
        (.cons (g := []) (w := c!"  ") (s := ['2']) (s' := []) (by simp) (reaches_spaces (i := 2)) (by decide)
          (leaf _ (by simp)) .nil))
  exact tree_cost stdLexer_lawful std_resumesLines (w := []) (w' := []) hT (by simp) (by simp) h

end Verif.Props
