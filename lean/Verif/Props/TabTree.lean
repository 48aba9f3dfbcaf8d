import Verif.Props.IndentExact
import Verif.Spec.TreeTabs
/-
Texts of trees with tabs are read: C113.
-/
namespace Verif.Props.Tabs
open Verif Verif.Spec Verif.Props

theorem width_take_le {tab : Nat} (w : Str) (k : Nat) : width tab (w.take k) ≤ width tab w := by
  conv => rhs; rw [← List.take_append_drop k w, width_append]
  omega

theorem reaches_blank {tab m w} (h : ReachesColumn tab m w) : ∀ c ∈ w, Blank c := by
  have := h.2.1
  rwa [List.take_length] at this

theorem reaches_width {tab m w} (h : ReachesColumn tab m w) : m ≤ width tab w := by
  have := h.2.2.1
  rwa [List.take_length] at this

theorem carries_of_reaches {tab m w} (h : ReachesColumn tab m w) (s : Str) : Carries tab m (w ++ s) w.length := by
  obtain ⟨-, h2, h3, h4⟩ := h
  rw [List.take_length] at h2 h3
  refine ⟨by simp, by simpa using h2, by simpa using h3, fun j hj => ?_⟩
  rw [List.take_append_of_le_length (Nat.le_of_lt hj)]
  exact h4 j hj

theorem reaches_of_carries {tab m k} {s : Str} (h : Carries tab m s k) : ReachesColumn tab m (s.take k) := by
  obtain ⟨h1, h2, h3, h4⟩ := h
  have hl : (s.take k).length = k := List.length_take_of_le h1
  refine ⟨Nat.le_refl _, ?_, ?_, ?_⟩
  · rw [List.take_length]; exact h2
  · rw [List.take_length]; exact h3
  · intro j hj
    rw [hl] at hj
    rw [List.take_take, Nat.min_eq_left (by omega)]
    exact h4 j hj

theorem blank_ws {w : Str} (h : ∀ c ∈ w, Blank c) : ∀ c ∈ w, isWs c = true ∧ c ≠ '\n' := by
  intro c hc
  rcases h c hc with rfl | rfl <;> decide

theorem not_carries {tab i : Nat} {w : Str} (h : width tab w < i) {c : Char} (hc : isWs c = false) (s : Str) :
    ¬ ∃ k, Carries tab i (w ++ c :: s) k := by
  rintro ⟨k, h1, h2, h3, -⟩
  by_cases hk : k ≤ w.length
  · rw [List.take_append_of_le_length hk] at h3
    have := width_take_le (tab := tab) w k
    omega
  · have : Blank c := h2 c (by
      rw [List.take_append]
      obtain ⟨x, hx⟩ : ∃ x, k - w.length = x + 1 := ⟨k - w.length - 1, by omega⟩
      simp [hx])
    rcases this with rfl | rfl <;> revert hc <;> decide

theorem blank_nonBlank {w : Str} (hw : ∀ c ∈ w, Blank c) {c : Char} {b : Str} (hc : isWs c = false) :
    NonBlankLine (w ++ c :: b) := ⟨w, c, b, rfl, hc, blank_ws hw⟩

/-- What may follow a tree, if lines that reach column `i` belong to it, and how much of it is read along:
nothing but space, or a line further to the left. -/
def Ender (i : Nat) (R : Str) (g : Nat) : Prop :=
  (AllBlank R ∧ g = R.length) ∨
  ∃ a w c b, R = a ++ '\n' :: (w ++ c :: b) ∧ AllBlank a ∧ (∀ x ∈ w, Blank x) ∧ isWs c = false ∧
    width Indent.default.tabSpaces w < i ∧ g = a.length + 1

theorem Ender.mono {i i' : Nat} {R : Str} {g : Nat} (h : Ender i R g) (hi : i ≤ i') : Ender i' R g := by
  rcases h with h | ⟨a, m, c, b, h1, h2, h2', h3, h4, h5⟩
  · exact .inl h
  · exact .inr ⟨a, m, c, b, h1, h2, h2', h3, by omega, h5⟩

theorem Ender.le {i : Nat} {R : Str} {g : Nat} (h : Ender i R g) : g ≤ R.length := by
  rcases h with ⟨-, rfl⟩ | ⟨a, m, x, b, rfl, -, -, -, -, rfl⟩
  · exact Nat.le_refl _
  · simp

theorem gap_lineStart {a w : Str} {c : Char} {b : Str} (ha : AllBlank a) (hw : ∀ x ∈ w, Blank x) (hc : isWs c = false) :
    LineStart (a ++ '\n' :: (w ++ c :: b)) (a.length + 1) := by
  have e : (a ++ '\n' :: (w ++ c :: b)).take (a.length + 1) = a ++ ['\n'] := by
    simp [List.take_append, List.take_of_length_le (Nat.le_succ a.length)]
  refine ⟨by simp, ?_, ?_, ?_⟩
  · intro x hx
    rw [e] at hx
    rcases List.mem_append.1 hx with hx | hx
    · exact ha x hx
    · simp at hx; subst hx; decide
  · right
    rw [e]; simp
  · have : (a ++ '\n' :: (w ++ c :: b)).drop (a.length + 1) = w ++ c :: b := by simp [List.drop_append]
    rw [this]
    exact blank_nonBlank hw hc

section
variable {L : Lexer}

abbrev tabs : Nat := Indent.default.tabSpaces

theorem tabTree_head {i t l s rest} {b : Bool} (h : TabTree L tabs b i t l s rest) :
    ∃ c cs, s = c :: cs ∧ isWs c = false := by
  cases h with
  | node h hc =>
    obtain ⟨⟨c, cs, rfl, hw⟩, -⟩ := h
    exact ⟨c, _, rfl, hw⟩

theorem tabTree_lim {tab i t l s rest} {b : Bool} (h : TabTree L tab b i t l s rest) : i ≤ l := by
  cases h with
  | node h hc =>
    cases hc with
    | leaf => exact Nat.le_refl _
    | block _ _ _ hm => omega

/-- A tree is read, with the space behind it. -/
def NodeGoal (L : Lexer) (i : Nat) (t : Tree) (l : Nat) (s R : Str) : Prop :=
  ∀ g, Ender l R g → ∀ off id, ∃ ts j tr,
    Run (iEnv L) (.rule (iRule id)) ⟨s ++ R, off⟩ i (some (s.length + g, ts)) j tr ∧ ts.map (·.data) = t.data

/-- The children are read. -/
def KidsGoal (L : Lexer) (i : Nat) (cs : List Tree) (l : Nat) (s R : Str) : Prop :=
  ∀ g, Ender l R g → ∀ off, ∃ ts j tr,
    Run (iEnv L) (iGoal true []) ⟨s ++ R, off⟩ i (some (s.length + g, ts)) j tr ∧
    ts.map (·.data) = Tree.dataList cs

/-- The rest of a block is read behind a line. -/
def RowsGoal (L : Lexer) (m l : Nat) (cs : List Tree) (s R : Str) : Prop :=
  m + 1 < 2 ^ 32 → m ≤ l → ∀ g, Ender m R g → ∃ G, Ender l (s ++ R) G ∧
    (∀ off x, ∃ n ts j tr, G + n = s.length + g ∧
      Run (iEnv L) (iGoal false (x ++ (s ++ R).take G)) ⟨(s ++ R).drop G, off⟩ m (some (n, ts)) j tr ∧
      ts.map (·.data) = Tree.dataList cs)

theorem node_goal {i d v cs l s R} (h : NumberAt L d v (s ++ R)) (hb : KidsGoal L i cs l s R) :
    NodeGoal L i (.node d v cs) l (d ++ s) R := by
  intro g hR off id
  obtain ⟨ts, j, tr, hr, hd⟩ := hb g hR (off + d.length)
  obtain ⟨-, h1, h2⟩ := h
  have e : adv ⟨d ++ (s ++ R), off⟩ d.length = ⟨s ++ R, off + d.length⟩ := by simp [adv]
  have hseq : Run (iEnv L) (.rule indentNode) ⟨d ++ (s ++ R), off⟩ i
      (before d.length [⟨⟨off, d.length⟩, .f64 c!"num" v⟩] (before (s.length + g) ts (some (0, [])))) j ([] ++ (tr ++ [])) :=
    .sequence (.seq_cons (.num_ok h1 h2) (.seq_cons (by rw [e]; exact .lines hr) .seq_nil))
  simp only [before] at hseq
  have := Run.node_ok (E := iEnv L) (name := c!"node") (prop := some c!"node") (ix := 0) (id := id) rfl hseq
  rw [show d.length + (s.length + g + 0) = (d ++ s).length + g by simp; omega] at this
  rw [List.append_assoc]
  exact ⟨_, j, _, this, by simp [wrapped, Tree.data, hd]⟩

theorem leaf_goal (hL : L.Lawful) {i R} : KidsGoal L i [] i [] R := by
  intro g hR off
  refine ⟨[], i, ?_⟩
  rcases hR with ⟨h, rfl⟩ | ⟨a, w, c, b, rfl, ha, hw, hc, hm, rfl⟩
  · exact ⟨[], by simpa using Run.lines_done (lineNext_done hL h), rfl⟩
  · refine ⟨[], ?_, rfl⟩
    have h1 := lineNext_call hL (first := true) (item := []) (gap_lineStart (b := b) ha hw hc)
      (by intro t ht; simp at ht) (by simp)
    have e : adv ⟨a ++ '\n' :: (w ++ c :: b), off⟩ (a.length + 1) =
        ⟨w ++ c :: b, off + (a.length + 1)⟩ := by simp [adv, List.drop_append]
    simpa using Run.lines_stop (E := iEnv L) (r := iRule 2002) (ind := true) (id := 2003) (i := i) (tr := [])
      (p := ⟨a ++ '\n' :: (w ++ c :: b), off⟩) h1
      (by rw [e]; exact .line_shallow (not_carries hm hc b))

theorem nil_goal (hL : L.Lawful) (hR : ResumesLines L) {m l R} : RowsGoal L m l [] [] R := by
  intro hm hl g hE
  refine ⟨g, hE.mono hl, fun off x => ?_⟩
  refine ⟨0, [], m, [], by simp, ?_, rfl⟩
  rcases hE with ⟨h, rfl⟩ | ⟨a, w, c, b, rfl, ha, hw, hc, hm', rfl⟩
  · have : AllBlank ([] : Str) := fun c hc => by simp at hc
    simpa using Run.lines_done (E := iEnv L) (r := iRule 2002) (ind := true) (id := 2003) (first := false)
      (item := x ++ R) (p := ⟨[], off⟩) (i := m) (lineNext_done hL this)
  · have e : ([] ++ (a ++ '\n' :: (w ++ c :: b))).take (a.length + 1) = a ++ ['\n'] := by
      simp [List.take_append, List.take_of_length_le (Nat.le_succ a.length)]
    have e' : ([] ++ (a ++ '\n' :: (w ++ c :: b))).drop (a.length + 1) = w ++ c :: b := by simp [List.drop_append]
    rw [e, e']
    exact .lines_stop (k := 0) (hR _ _ (by simp) (blank_nonBlank hw hc))
      (.line_shallow (not_carries hm' hc b))

/-- A line of a block, its indentation `u`, and the rest of the block. -/
theorem row_goal {m t l ts u s s' R} {i : Nat} {first : Bool} {item : Str} {G : Str} {off : Nat}
    (h : NodeGoal L (m + 1) t l s (s' ++ R)) (h' : RowsGoal L m l ts s' R) (hl : m ≤ l) (hm : m + 1 < 2 ^ 32)
    {gR} (hE : Ender m R gR)
    (hline : ∀ n us j tr, Run (iEnv L) (.rule (iRule 2002)) ⟨s ++ (s' ++ R), off + G.length + u.length⟩ (m + 1) (some (n, us)) j tr →
      Run (iEnv L) (.line (iRule 2002) true first) ⟨u ++ (s ++ (s' ++ R)), off + G.length⟩ i (some (u.length + n, us)) m tr)
    (hcall : L.lineNext first item (G ++ (u ++ (s ++ (s' ++ R)))) = .call G.length) :
    ∃ ts' j tr, Run (iEnv L) (iGoal first item) ⟨G ++ (u ++ (s ++ (s' ++ R))), off⟩ i
      (some (G.length + (u.length + (s.length + s'.length)) + gR, ts')) j tr ∧
      ts'.map (·.data) = Tree.dataList (t :: ts) := by
  obtain ⟨G', hG', hrest⟩ := h' hm hl gR hE
  have hle := hG'.le
  have eitem : (u ++ (s ++ (s' ++ R))).take (u.length + (s.length + G')) = (u ++ s) ++ (s' ++ R).take G' := by
    rw [← List.append_assoc, List.take_append, List.take_of_length_le (by simp)]
    congr 2
    simp; omega
  have eafter : (u ++ (s ++ (s' ++ R))).drop (u.length + (s.length + G')) = (s' ++ R).drop G' := by
    rw [← List.append_assoc, List.drop_append, List.drop_of_length_le (by simp), List.nil_append]
    congr 1
    simp; omega
  have edrop : (G ++ (u ++ (s ++ (s' ++ R)))).drop G.length = u ++ (s ++ (s' ++ R)) := by simp
  obtain ⟨us, j, tr, hr, hd⟩ := h G' hG' (off + G.length + u.length) 2002
  obtain ⟨n, us', j', tr', hn, hr', hd'⟩ := hrest (off + (G.length + (u.length + (s.length + G')))) (u ++ s)
  refine ⟨us ++ us', j', tr ++ tr', ?_, by simp [Tree.dataList, hd, hd']⟩
  have eadv : adv ⟨G ++ (u ++ (s ++ (s' ++ R))), off⟩ G.length = ⟨u ++ (s ++ (s' ++ R)), off + G.length⟩ := by simp [adv]
  have := Run.lines_more (E := iEnv L) (id := 2003) (o := some (n, us')) (tr' := tr') (l := j')
    (p := ⟨G ++ (u ++ (s ++ (s' ++ R))), off⟩) hcall (by rw [eadv]; exact hline _ _ _ _ hr) (by
      have ed : (G ++ (u ++ (s ++ (s' ++ R)))).drop (G.length + (u.length + (s.length + G'))) = (s' ++ R).drop G' := by
        rw [← List.drop_drop, edrop, eafter]
      simp only [adv, edrop, eitem, ed]
      exact hr')
  simp only [before] at this
  rw [show G.length + (u.length + (s.length + s'.length)) + gR =
    G.length + (u.length + (s.length + G')) + n by omega]
  exact this

theorem line_first {i w w' : _} {c : Char} {cs : Str} {off : Nat} (hw : ReachesColumn tabs i w) (hw' : ∀ x ∈ w', Blank x)
    (hc : isWs c = false) (hm : i + width tabs w' + 1 < 2 ^ 32) {n us j tr}
    (hr : Run (iEnv L) (.rule (iRule 2002)) ⟨c :: cs, off + (w ++ w').length⟩ (i + width tabs w' + 1) (some (n, us)) j tr) :
    Run (iEnv L) (.line (iRule 2002) true true) ⟨(w ++ w') ++ c :: cs, off⟩ i (some ((w ++ w').length + n, us))
      (i + width tabs w') tr := by
  have e1 : ((w ++ w') ++ c :: cs).drop w.length = w' ++ c :: cs := by simp
  have e2 : (w' ++ c :: cs).take w'.length = w' := by simp
  have := Run.line_align (E := iEnv L) (r := iRule 2002) (p := ⟨(w ++ w') ++ c :: cs, off⟩)
    (i := i) (k := w.length) (m := w'.length) (o := some (n, us)) (j := j) (tr := tr) rfl
    (by rw [List.append_assoc]; exact carries_of_reaches hw _) (by
      rw [e1]
      refine ⟨by simp, by rw [e2]; exact hw', ?_⟩
      intro y hy
      simp at hy
      subst hy
      rintro (rfl | rfl) <;> revert hc <;> decide)
    (by rw [e1, e2]; exact hm) (by
      rw [e1, e2]
      have : adv ⟨(w ++ w') ++ c :: cs, off⟩ (w.length + w'.length) = ⟨c :: cs, off + (w ++ w').length⟩ := by
        rw [← List.length_append]
        simp only [adv, List.drop_left]
      rw [this]
      exact hr)
  rw [e1, e2] at this
  rw [List.length_append]
  exact this

theorem line_next {m w : _} {c : Char} {cs : Str} {off : Nat} (hw : ReachesColumn tabs m w)
    (hc : isWs c = false) (hm : m + 1 < 2 ^ 32) {n us j tr}
    (hr : Run (iEnv L) (.rule (iRule 2002)) ⟨c :: cs, off + w.length⟩ (m + 1) (some (n, us)) j tr) :
    Run (iEnv L) (.line (iRule 2002) true false) ⟨w ++ c :: cs, off⟩ m (some (w.length + n, us)) m tr := by
  refine Run.line_body (E := iEnv L) (o := some (n, us)) (by simp) (carries_of_reaches hw _) ?_ hm (j := j) ?_
  · simp only [List.drop_left]
    intro hx; simp at hx; subst hx; revert hc; decide
  · simpa [adv] using hr

theorem block_goal (hL : L.Lawful) {i m t ts l g w w' s s' R} (hg : LineGap g) (hw : ReachesColumn tabs i w)
    (hw' : ∀ c ∈ w', Blank c) (hm : m = i + width tabs w') (hm' : m + 1 < 2 ^ 32)
    (hs : ∃ c cs, s = c :: cs ∧ isWs c = false) (hl : m ≤ l)
    (h : NodeGoal L (m + 1) t l s (s' ++ R)) (h' : RowsGoal L m l ts s' R) :
    KidsGoal L i (t :: ts) m (g ++ (w ++ (w' ++ (s ++ s')))) R := by
  intro gR hE off
  subst hm
  have hu : ∀ x ∈ w ++ w', Blank x := fun x hx => by
    rcases List.mem_append.1 hx with hx | hx
    · exact reaches_blank hw x hx
    · exact hw' x hx
  have := row_goal (u := w ++ w') (first := true) (item := []) (G := g) (off := off) (i := i) h h' hl hm' hE
    (by
      intro n us j tr hr
      obtain ⟨c, cs, rfl, hc⟩ := hs
      exact line_first hw hw' hc hm' hr)
    (by
      obtain ⟨c, cs, rfl, hc⟩ := hs
      refine lineNext_call hL (first := true) ?_ (by intro t ht; simp at ht) (by simp)
      rcases hg with rfl | ⟨b, rfl, hb⟩
      · refine ⟨by simp, by simp, .inl rfl, ?_⟩
        simpa using blank_nonBlank (b := cs ++ (s' ++ R)) hu hc
      · simpa using gap_lineStart (b := cs ++ (s' ++ R)) hb hu hc)
  simpa [Nat.add_assoc] using this

theorem cons_goal (hR : ResumesLines L) {m l t ts l' g w s s' R} (hg : ∀ c ∈ g, isWs c = true)
    (hw : ReachesColumn tabs m w) (hl : width tabs w < l)
    (hs : ∃ c cs, s = c :: cs ∧ isWs c = false) (hl' : m ≤ l') (h : NodeGoal L (m + 1) t l' s (s' ++ R))
    (h' : RowsGoal L m l' ts s' R) :
    RowsGoal L m l (t :: ts) (g ++ '\n' :: (w ++ (s ++ s'))) R := by
  intro hm hml gR hE
  obtain ⟨c, cs, rfl, hc⟩ := hs
  have hb := reaches_blank hw
  have etext : (g ++ '\n' :: (w ++ (c :: cs ++ s'))) ++ R = g ++ '\n' :: (w ++ c :: (cs ++ (s' ++ R))) := by simp
  have edrop : (g ++ '\n' :: (w ++ c :: (cs ++ (s' ++ R)))).drop (g.length + 1) = w ++ c :: (cs ++ (s' ++ R)) := by
    simp [List.drop_append]
  have etake : (g ++ '\n' :: (w ++ c :: (cs ++ (s' ++ R)))).take (g.length + 1) = g ++ ['\n'] := by
    simp [List.take_append, List.take_of_length_le (Nat.le_succ g.length)]
  refine ⟨g.length + 1, .inr ⟨g, w, c, cs ++ (s' ++ R), etext, hg, hb, hc, hl, rfl⟩, fun off x => ?_⟩
  rw [etext, edrop, etake]
  obtain ⟨us, j, tr, hr, hd⟩ := row_goal (u := w) (first := false) (item := x ++ (g ++ ['\n'])) (G := []) (off := off) (i := m)
    h h' hl' hm hE (fun n us j tr hr => line_next hw hc hm hr)
    (by exact hR _ _ (by simp) (blank_nonBlank hb hc))
  refine ⟨_, us, j, tr, ?_, hr, hd⟩
  simp; omega

theorem tabTree_goal (hL : L.Lawful) (hR : ResumesLines L) {i t l s R} (h : TabTree L tabs true i t l s R) :
    NodeGoal L i t l s R :=
  TabTree.rec (motive_1 := fun i t l s R _ => NodeGoal L i t l s R)
    (motive_2 := fun i cs l s R _ => KidsGoal L i cs l s R)
    (motive_3 := fun m l cs s R _ => RowsGoal L m l cs s R)
    (fun h _ ih => node_goal h ih) (leaf_goal hL)
    (fun hg hw hw' hm hm' h _ ih ih' => block_goal hL hg hw hw' hm hm' (tabTree_head h)
      (Nat.le_of_succ_le (tabTree_lim h)) ih ih')
    (nil_goal hL hR)
    (fun hg hw hl h _ ih ih' => cons_goal hR hg hw (hl rfl) (tabTree_head h)
      (Nat.le_of_succ_le (tabTree_lim h)) ih ih') h

end

theorem tabs_read {L : Lexer} (hL : L.Lawful) (hR : ResumesLines L) {t : Tree} {l : Nat} {s w w' : Str}
    (h : TabTree L tabs true 0 t l s w') (hw : ∀ c ∈ w, isWs c = true) (hw' : ∀ c ∈ w', isWs c = true) :
    ∃ toks, Parses L indentSyntax (w ++ (s ++ w')) [] Indent.default (.ok toks) ∧ toks.map (·.data) = t.data := by
  obtain ⟨ts, j, tr, hr, hd⟩ := tabTree_goal hL hR h w'.length (.inl ⟨hw', rfl⟩) w.length 1002
  obtain ⟨c, cs, rfl, hc⟩ := tabTree_head h
  refine ⟨ts, parses_ok_run.2 ⟨_, w.length + ((c :: cs).length + w'.length + (0 + 0)), [] ++ (ts ++ ([] ++ [])), j,
    [] ++ (tr ++ ([] ++ [])), rfl, .sequence (.seq_cons (j := 0) (o := some ((c :: cs).length + w'.length + (0 + 0), ts ++ ([] ++ [])))
      (.ws_ok ?_ (fun _ => rfl)) (.seq_cons (j := j) (o := some (0 + 0, [] ++ [])) ?_ (.seq_cons (o := some (0, []))
        (.ws_ok ?_ (fun _ => rfl)) .seq_nil))), by simp; omega, by simp⟩, hd⟩
  · refine ⟨by simp, by simpa using hw, fun y hy => ?_⟩
    simp at hy; subst hy; simp [hc]
  · have : adv ⟨w ++ (c :: cs ++ w'), 0⟩ w.length = ⟨c :: cs ++ w', w.length⟩ := by simp [adv]
    rw [this]; exact hr
  · have : adv (adv ⟨w ++ (c :: cs ++ w'), 0⟩ w.length) ((c :: cs).length + w'.length) =
        ⟨[], w.length + ((c :: cs).length + w'.length)⟩ := by simp [adv]; omega
    rw [this]
    simp [Longest]

end Verif.Props.Tabs
