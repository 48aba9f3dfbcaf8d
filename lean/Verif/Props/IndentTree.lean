import Verif.Props.Hello
import Verif.Props.Lines
import Verif.Spec.Tree
/-
The program examples/indent.rs: C68.
-/
namespace Verif.Props
open Verif Verif.Spec

/-- The rules of examples/indent.rs, as `syntax` returns them. -/
def indentNode : Rule := .sequence [.number (some c!"num") false 2001,
  .lines (.node c!"node" (some c!"node") (some 0) 2002) true 2003] 2004

def indentSyntax : Syntax := ⟨[indentNode, .sequence [.whitespace true 1001,
  .node c!"node" (some c!"node") (some 0) 1002, .whitespace true 1003] 1004], [c!"node", c!"document"]⟩

theorem indent_syntax {L : Lexer} (hL : L.Lawful) (hs : NoSlash L) (hN : ReadsNumbers L) (r : Except RErr Syntax) :
    SyntaxReturns L indentRules r ↔ r = .ok indentSyntax :=
  syntax_of_doc hL hs hN (ss := []) (ns := indentNodes) (by decide +kernel) (by decide +kernel) rfl (k := 20) rfl r

theorem std_resumesLines : ResumesLines stdLexer := by
  rintro item rest hi ⟨a, c, b, rfl, hc, ha⟩
  have hw : (a ++ c :: b).takeWhile isWs = a := by
    rw [List.takeWhile_append_of_pos (fun x hx => (ha x hx).1)]
    simp [hc]
  have h0 : Std.afterLastNl a = 0 := by
    clear hw
    induction a with
    | nil => rfl
    | cons x a ih =>
      have := ih fun y hy => ha y (by simp [hy])
      simp only [Std.afterLastNl, this, if_pos]
      simp [(ha x (by simp)).2]
  have ht : Std.trailingNl item = true := by
    obtain ⟨x, rfl⟩ : ∃ x, item = x ++ ['\n'] := by
      have := List.getLast?_eq_some_iff.1 hi
      exact this
    have hn : isWs '\n' = true := by decide
    simp [Std.trailingNl, List.takeWhile, hn]
  simp [stdLexer, Std.lineNext, hw, h0, ht]

/-- What may follow a tree whose children are in column `i` or further right, and how much of it is read
along: nothing but space, or a line further to the left. -/
def Ender (i : Nat) (R : Str) (g : Nat) : Prop :=
  (AllBlank R ∧ g = R.length) ∨
  ∃ a m c b, R = a ++ '\n' :: (List.replicate m ' ' ++ c :: b) ∧ AllBlank a ∧ isWs c = false ∧ m < i ∧
    g = a.length + 1

theorem Ender.mono {i i' : Nat} {R : Str} {g : Nat} (h : Ender i R g) (hi : i ≤ i') : Ender i' R g := by
  rcases h with h | ⟨a, m, c, b, h1, h2, h3, h4, h5⟩
  · exact .inl h
  · exact .inr ⟨a, m, c, b, h1, h2, h3, by omega, h5⟩

theorem Ender.head {i : Nat} {R : Str} {g : Nat} (h : Ender i R g) : ∀ c, R.head? = some c → isWs c = true := by
  intro c hc
  rcases h with ⟨h, -⟩ | ⟨a, m, x, b, rfl, h2, -, -, -⟩
  · exact h c (List.mem_of_head? hc)
  · cases a with
    | nil => simp at hc; subst hc; decide
    | cons y a => simp at hc; subst hc; exact h2 y (by simp)

theorem Ender.le {i : Nat} {R : Str} {g : Nat} (h : Ender i R g) : g ≤ R.length := by
  rcases h with ⟨-, rfl⟩ | ⟨a, m, x, b, rfl, -, -, -, rfl⟩
  · exact Nat.le_refl _
  · simp

theorem spaces_nonBlank {m : Nat} {c : Char} {b : Str} (hc : isWs c = false) :
    NonBlankLine (List.replicate m ' ' ++ c :: b) :=
  ⟨List.replicate m ' ', c, b, rfl, hc, fun x hx => by
    rw [(List.mem_replicate.1 hx).2]; decide⟩

theorem gap_lineStart {a : Str} {m : Nat} {c : Char} {b : Str} (ha : AllBlank a) (hc : isWs c = false) :
    LineStart (a ++ '\n' :: (List.replicate m ' ' ++ c :: b)) (a.length + 1) := by
  have e : (a ++ '\n' :: (List.replicate m ' ' ++ c :: b)).take (a.length + 1) = a ++ ['\n'] := by
    simp [List.take_append, List.take_of_length_le (Nat.le_succ a.length)]
  refine ⟨by simp, ?_, ?_, ?_⟩
  · intro x hx
    rw [e] at hx
    rcases List.mem_append.1 hx with hx | hx
    · exact ha x hx
    · simp at hx; subst hx; decide
  · right
    rw [e]; simp
  · have : (a ++ '\n' :: (List.replicate m ' ' ++ c :: b)).drop (a.length + 1) = List.replicate m ' ' ++ c :: b := by
      simp [List.drop_append]
    rw [this]
    exact spaces_nonBlank hc

/-- A line with `m` spaces reaches the columns up to `m`... -/
theorem carries_spaces {tab i m : Nat} (h : i ≤ m) (s : Str) : Carries tab i (List.replicate m ' ' ++ s) i := by
  have e : ∀ j, j ≤ m → (List.replicate m ' ' ++ s).take j = List.replicate j ' ' := by
    intro j hj
    rw [List.take_append_of_le_length (by simpa using hj), List.take_replicate, Nat.min_eq_left hj]
  refine ⟨by simp; omega, ?_, ?_, ?_⟩
  · rw [e i h]
    intro c hc
    exact .inl (List.mem_replicate.1 hc).2
  · rw [e i h, width_spaces]
    exact Nat.le_refl _
  · intro j hj
    rw [e j (by omega), width_spaces]
    exact hj

/-- ...and no others. -/
theorem not_carries_spaces {tab i m : Nat} (h : m < i) {c : Char} (hc : isWs c = false) (s : Str) :
    ¬ ∃ k, Carries tab i (List.replicate m ' ' ++ c :: s) k := by
  rintro ⟨k, h1, h2, h3, -⟩
  by_cases hk : k ≤ m
  · rw [List.take_append_of_le_length (by simpa using hk), List.take_replicate, Nat.min_eq_left hk,
      width_spaces] at h3
    omega
  · have : Blank c := h2 c (by
      rw [List.take_append]
      obtain ⟨x, hx⟩ : ∃ x, k - m = x + 1 := ⟨k - m - 1, by omega⟩
      simp [hx])
    rcases this with rfl | rfl <;> revert hc <;> decide

section
variable {L : Lexer}

theorem treeText_head {i : Nat} {t : Tree} {s rest : Str} (h : TreeText L i t s rest) :
    ∃ c cs, s = c :: cs ∧ isWs c = false := by
  cases h with
  | node h hc =>
    obtain ⟨⟨c, cs, rfl, hw⟩, -⟩ := h
    exact ⟨c, _, rfl, hw⟩

abbrev iEnv (L : Lexer) : Env := envOf L indentSyntax.rules Indent.default

abbrev iRule (id : DebugId) : Rule := .node c!"node" (some c!"node") (some 0) id

abbrev iGoal (first : Bool) (item : Str) : Goal := .lines (iRule 2002) true 2003 first item

/-- A tree is read, with the space behind it. -/
def NodeGoal (L : Lexer) (i : Nat) (t : Tree) (s R : Str) : Prop :=
  ∀ g, Ender i R g → ∀ off id, ∃ ts j tr,
    Run (iEnv L) (.rule (iRule id)) ⟨s ++ R, off⟩ i (some (s.length + g, ts)) j tr ∧ ts.map (·.data) = t.data

/-- The children are read. -/
def KidsGoal (L : Lexer) (i : Nat) (cs : List Tree) (s R : Str) : Prop :=
  ∀ g, Ender i R g → ∀ off, ∃ ts j tr,
    Run (iEnv L) (iGoal true []) ⟨s ++ R, off⟩ i (some (s.length + g, ts)) j tr ∧
    ts.map (·.data) = Tree.dataList cs

/-- A block is read from its first line on, and the rest of a block behind a line. -/
def RowsGoal (L : Lexer) (m : Nat) (cs : List Tree) (s R : Str) : Prop :=
  m + 1 < 2 ^ 32 → ∀ g, Ender m R g → ∃ G, Ender (m + 1) (s ++ R) G ∧
    (∀ off x, ∃ n ts j tr, G + n = s.length + g ∧
      Run (iEnv L) (iGoal false (x ++ (s ++ R).take G)) ⟨(s ++ R).drop G, off⟩ m (some (n, ts)) j tr ∧
      ts.map (·.data) = Tree.dataList cs) ∧
    (cs ≠ [] → ∀ i off, i ≤ m → ∃ ts j tr,
      Run (iEnv L) (iGoal true []) ⟨s ++ R, off⟩ i (some (s.length + g, ts)) j tr ∧
      ts.map (·.data) = Tree.dataList cs)

theorem node_goal {i d v cs s R} (h : NumberAt L d v (s ++ R)) (hb : KidsGoal L i cs s R) :
    NodeGoal L i (.node d v cs) (d ++ s) R := by
  intro g hR off id
  obtain ⟨ts, j, tr, hr, hd⟩ := hb g hR (off + d.length)
  obtain ⟨-, h1, h2⟩ := h
  have e : adv ⟨d ++ (s ++ R), off⟩ d.length = ⟨s ++ R, off + d.length⟩ := by simp [adv]
  have hseq : Run (iEnv L) (.rule indentNode) ⟨d ++ (s ++ R), off⟩ i
      (before d.length [⟨⟨off, d.length⟩, .f64 c!"num" v⟩] (before (s.length + g) ts (some (0, [])))) j ([] ++ (tr ++ [])) :=
    .sequence (.seq_cons (.num_ok h1 h2) (.seq_cons (by rw [e]; exact .lines hr) .seq_nil))
  simp only [before] at hseq
  have := Run.node_ok (E := iEnv L) (name := c!"node") (prop := some c!"node") (ix := 0) (id := id) rfl hseq
  rw [show d.length + (s.length + g + 0) = (d ++ s).length + g by simp; omega] at this
  rw [List.append_assoc]
  exact ⟨_, j, _, this, by simp [wrapped, Tree.data, hd]⟩

theorem leaf_goal (hL : L.Lawful) {i R} : KidsGoal L i [] [] R := by
  intro g hR off
  refine ⟨[], i, ?_⟩
  rcases hR with ⟨h, rfl⟩ | ⟨a, m, c, b, rfl, ha, hc, hm, rfl⟩
  · exact ⟨[], by simpa using Run.lines_done (lineNext_done hL h), rfl⟩
  · refine ⟨[], ?_, rfl⟩
    have h1 := lineNext_call hL (first := true) (item := []) (gap_lineStart (m := m) (b := b) ha hc)
      (by intro t ht; simp at ht) (by simp)
    have e : adv ⟨a ++ '\n' :: (List.replicate m ' ' ++ c :: b), off⟩ (a.length + 1) =
        ⟨List.replicate m ' ' ++ c :: b, off + (a.length + 1)⟩ := by simp [adv, List.drop_append]
    simpa using Run.lines_stop (E := iEnv L) (r := iRule 2002) (ind := true) (id := 2003) (i := i) (tr := [])
      (p := ⟨a ++ '\n' :: (List.replicate m ' ' ++ c :: b), off⟩) h1
      (by rw [e]; exact .line_shallow (not_carries_spaces hm hc b))

theorem under_goal {i m t ts s R} (hm : i ≤ m) (hm' : m + 1 < 2 ^ 32) (h : RowsGoal L m (t :: ts) s R) :
    KidsGoal L i (t :: ts) s R := by
  intro g hR off
  obtain ⟨G, -, -, h⟩ := h hm' g (hR.mono hm)
  exact h (by simp) i off hm

theorem nil_goal (hL : L.Lawful) (hR : ResumesLines L) {m R} : RowsGoal L m [] [] R := by
  intro hm g hE
  refine ⟨g, hE.mono (by omega), fun off x => ?_, by simp⟩
  refine ⟨0, [], m, [], by simp, ?_, rfl⟩
  rcases hE with ⟨h, rfl⟩ | ⟨a, m', c, b, rfl, ha, hc, hm', rfl⟩
  · have : AllBlank ([] : Str) := fun c hc => by simp at hc
    simpa using Run.lines_done (E := iEnv L) (r := iRule 2002) (ind := true) (id := 2003) (first := false)
      (item := x ++ R) (p := ⟨[], off⟩) (i := m) (lineNext_done hL this)
  · have e : ([] ++ (a ++ '\n' :: (List.replicate m' ' ' ++ c :: b))).take (a.length + 1) = a ++ ['\n'] := by
      simp [List.take_append, List.take_of_length_le (Nat.le_succ a.length)]
    have e' : ([] ++ (a ++ '\n' :: (List.replicate m' ' ' ++ c :: b))).drop (a.length + 1) =
        List.replicate m' ' ' ++ c :: b := by simp [List.drop_append]
    rw [e, e']
    exact .lines_stop (k := 0) (hR _ _ (by simp) (spaces_nonBlank hc))
      (.line_shallow (by simpa [adv] using not_carries_spaces hm' hc b))

/-- The first tree of a block, `G` behind the start, and the rest of the block. -/
theorem first_goal {m t ts s s' R} {G : Str} (hs : ∃ c cs, s = c :: cs ∧ isWs c = false)
    (h : NodeGoal L (m + 1) t s (s' ++ R)) (h' : RowsGoal L m ts s' R) (hm : m + 1 < 2 ^ 32) {gR} (hE : Ender m R gR)
    {i off} (hi : i ≤ m)
    (hcall : L.lineNext true [] (G ++ (List.replicate m ' ' ++ (s ++ (s' ++ R)))) = .call G.length) :
    ∃ ts' j tr, Run (iEnv L) (iGoal true []) ⟨G ++ (List.replicate m ' ' ++ (s ++ (s' ++ R))), off⟩ i
      (some (G.length + (m + (s.length + s'.length)) + gR, ts')) j tr ∧ ts'.map (·.data) = Tree.dataList (t :: ts) := by
  obtain ⟨G', hG', hrest, -⟩ := h' hm gR hE
  obtain ⟨c, cs, rfl, hc⟩ := hs
  simp only [List.cons_append] at hcall ⊢
  have hle := hG'.le
  have eitem : (List.replicate m ' ' ++ c :: (cs ++ (s' ++ R))).take (m + ((c :: cs).length + G')) =
      (List.replicate m ' ' ++ c :: cs) ++ (s' ++ R).take G' := by
    rw [← List.cons_append, ← List.append_assoc, List.take_append]
    rw [List.take_of_length_le (by simp)]
    congr 2
    simp; omega
  have eafter : (List.replicate m ' ' ++ c :: (cs ++ (s' ++ R))).drop (m + ((c :: cs).length + G')) =
      (s' ++ R).drop G' := by
    rw [← List.cons_append, ← List.append_assoc, List.drop_append, List.drop_of_length_le (by simp), List.nil_append]
    congr 1
    simp; omega
  have edrop : (G ++ (List.replicate m ' ' ++ c :: (cs ++ (s' ++ R)))).drop G.length =
      List.replicate m ' ' ++ c :: (cs ++ (s' ++ R)) := by simp
  obtain ⟨us, j, tr, hr, hd⟩ := h G' hG' (off + G.length + m) 2002
  obtain ⟨n, us', j', tr', hn, hr', hd'⟩ := hrest (off + (G.length + (m + ((c :: cs).length + G'))))
    (List.replicate m ' ' ++ c :: cs)
  refine ⟨us ++ us', j', tr ++ tr', ?_, by simp [Tree.dataList, hd, hd']⟩
  have eadv : adv ⟨G ++ (List.replicate m ' ' ++ c :: (cs ++ (s' ++ R))), off⟩ G.length =
      ⟨List.replicate m ' ' ++ c :: (cs ++ (s' ++ R)), off + G.length⟩ := by simp [adv]
  have ei : (List.replicate m ' ' ++ c :: (cs ++ (s' ++ R))).drop i =
      List.replicate (m - i) ' ' ++ c :: (cs ++ (s' ++ R)) := by
    rw [List.drop_append_of_le_length (by simpa using hi), List.drop_replicate]
  have hline : Run (iEnv L) (.line (iRule 2002) true true)
      (adv ⟨G ++ (List.replicate m ' ' ++ c :: (cs ++ (s' ++ R))), off⟩ G.length) i
      (before m [] (some ((c :: cs).length + G', us))) m tr := by
    rw [eadv]
    have hw : i + width (iEnv L).tab ((List.replicate (m - i) ' ' ++ c :: (cs ++ (s' ++ R))).take (m - i)) = m := by
      rw [List.take_append_of_le_length (by simp)]
      simp [width_spaces]
      omega
    have := Run.line_align (E := iEnv L) (r := iRule 2002) (p := ⟨List.replicate m ' ' ++ c :: (cs ++ (s' ++ R)), off + G.length⟩)
      (i := i) (k := i) (m := m - i) (o := some ((c :: cs).length + G', us)) (j := j) (tr := tr) rfl
      (carries_spaces hi _) (by
        rw [ei]
        refine ⟨by simp, ?_, ?_⟩
        · intro y hy
          rw [List.take_append_of_le_length (by simp)] at hy
          exact .inl (List.mem_replicate.1 (List.mem_of_mem_take hy)).2
        · intro y hy
          simp at hy
          subst hy
          rintro (rfl | rfl) <;> revert hc <;> decide)
      (by rw [ei, hw]; exact hm) (by
        rw [ei, hw]
        have : adv ⟨List.replicate m ' ' ++ c :: (cs ++ (s' ++ R)), off + G.length⟩ (i + (m - i)) =
            ⟨c :: (cs ++ (s' ++ R)), off + G.length + m⟩ := by
          rw [show i + (m - i) = m by omega]
          simp [adv]
        rw [this]
        exact hr)
    rw [ei, hw, show i + (m - i) = m by omega] at this
    exact this
  have := Run.lines_more (E := iEnv L) (id := 2003) (o := some (n, us')) (tr' := tr') (l := j')
    (p := ⟨G ++ (List.replicate m ' ' ++ c :: (cs ++ (s' ++ R))), off⟩) hcall hline (by
      have ed : (G ++ (List.replicate m ' ' ++ c :: (cs ++ (s' ++ R)))).drop
          (G.length + (m + ((c :: cs).length + G'))) = (s' ++ R).drop G' := by
        rw [← List.drop_drop, edrop, eafter]
      simp only [adv, edrop, eitem, ed]
      exact hr')
  simp only [before] at this
  rw [show G.length + (m + ((c :: cs).length + s'.length)) + gR =
    G.length + (m + ((c :: cs).length + G')) + n by omega]
  exact this

theorem beside_goal (hL : L.Lawful) {i m t ts s s' R} (hi : i ≤ m) (hm : m + 1 < 2 ^ 32)
    (hs : ∃ c cs, s = c :: cs ∧ isWs c = false) (h : NodeGoal L (m + 1) t s (s' ++ R)) (h' : RowsGoal L m ts s' R) :
    KidsGoal L i (t :: ts) (List.replicate m ' ' ++ (s ++ s')) R := by
  intro g hE off
  have := first_goal (G := []) (off := off) hs h h' hm (hE.mono hi) hi (by
    obtain ⟨c, cs, rfl, hc⟩ := hs
    refine lineNext_call hL (first := true) ⟨by simp, by simp, .inl rfl, ?_⟩ (by intro t ht; simp at ht) (by simp)
    simpa using spaces_nonBlank (m := m) (b := cs ++ (s' ++ R)) hc)
  simpa [Nat.add_assoc] using this

theorem cons_goal (hL : L.Lawful) (hR : ResumesLines L) {m t ts g s s' R} (hg : ∀ c ∈ g, isWs c = true)
    (hs : ∃ c cs, s = c :: cs ∧ isWs c = false) (h : NodeGoal L (m + 1) t s (s' ++ R)) (h' : RowsGoal L m ts s' R) :
    RowsGoal L m (t :: ts) (g ++ '\n' :: (List.replicate m ' ' ++ (s ++ s'))) R := by
  intro hm gR hE
  have hfirst := fun i off hi => first_goal (G := g ++ ['\n']) (off := off) (i := i) hs h h' hm hE hi
  obtain ⟨G', hG', hrest, -⟩ := h' hm gR hE
  obtain ⟨c, cs, rfl, hc⟩ := hs
  have etext : (g ++ '\n' :: (List.replicate m ' ' ++ (c :: cs ++ s'))) ++ R =
      g ++ '\n' :: (List.replicate m ' ' ++ c :: (cs ++ (s' ++ R))) := by simp
  have edrop : (g ++ '\n' :: (List.replicate m ' ' ++ c :: (cs ++ (s' ++ R)))).drop (g.length + 1) =
      List.replicate m ' ' ++ c :: (cs ++ (s' ++ R)) := by simp [List.drop_append]
  have etake : (g ++ '\n' :: (List.replicate m ' ' ++ c :: (cs ++ (s' ++ R)))).take (g.length + 1) = g ++ ['\n'] := by
    simp [List.take_append, List.take_of_length_le (Nat.le_succ g.length)]
  have hle := hG'.le
  -- what remains behind the item
  have eitem : (List.replicate m ' ' ++ c :: (cs ++ (s' ++ R))).take (m + ((c :: cs).length + G')) =
      (List.replicate m ' ' ++ c :: cs) ++ (s' ++ R).take G' := by
    rw [← List.cons_append, ← List.append_assoc, List.take_append]
    rw [List.take_of_length_le (by simp)]
    congr 2
    simp; omega
  have eafter : (List.replicate m ' ' ++ c :: (cs ++ (s' ++ R))).drop (m + ((c :: cs).length + G')) =
      (s' ++ R).drop G' := by
    rw [← List.cons_append, ← List.append_assoc, List.drop_append, List.drop_of_length_le (by simp), List.nil_append]
    congr 1
    simp; omega
  have ehead : (List.replicate m ' ' ++ c :: (cs ++ (s' ++ R))).drop m = c :: (cs ++ (s' ++ R)) := by simp
  refine ⟨g.length + 1, .inr ⟨g, m, c, cs ++ (s' ++ R), etext, hg, hc, by omega, rfl⟩, fun off x => ?_,
    fun _ i off hi => ?_⟩
  · rw [etext, edrop, etake]
    obtain ⟨us, j, tr, hr, hd⟩ := h G' hG' (off + m) 2002
    obtain ⟨n, us', j', tr', hn, hr', hd'⟩ := hrest (off + (m + ((c :: cs).length + G'))) (List.replicate m ' ' ++ c :: cs)
    refine ⟨m + ((c :: cs).length + G') + n, us ++ us', j', tr ++ tr', ?_, ?_, by simp [Tree.dataList, hd, hd']⟩
    · simp at hn ⊢; omega
    · have hline : Run (iEnv L) (.line (iRule 2002) true false)
          (adv ⟨List.replicate m ' ' ++ c :: (cs ++ (s' ++ R)), off⟩ 0) m
          (before m [] (some ((c :: cs).length + G', us))) m tr := by
        refine .line_body (by simp) (by simpa [adv] using carries_spaces (Nat.le_refl m) _) ?_ hm ?_ (j := j)
        · simp only [adv, List.drop_zero, ehead]
          intro hx; simp at hx; subst hx; revert hc; decide
        · simp only [adv, List.drop_zero, ehead]
          simpa using hr
      have := Run.lines_more (E := iEnv L) (id := 2003) (o := some (n, us')) (tr' := tr') (l := j')
        (hR (x ++ (g ++ ['\n'])) _ (by simp) (spaces_nonBlank hc)) hline (by
          simp only [adv, List.drop_zero, Nat.zero_add, eitem, eafter]
          exact hr')
      simpa [before] using this
  · have h1 := lineNext_call hL (first := true) (item := []) (gap_lineStart (m := m) (b := cs ++ (s' ++ R)) hg hc)
      (by intro t ht; simp at ht) (by simp)
    obtain ⟨us, j, tr, hr, hd⟩ := hfirst i off hi (by simpa using h1)
    refine ⟨us, j, tr, ?_, hd⟩
    have e1 : g ++ ['\n'] ++ (List.replicate m ' ' ++ (c :: cs ++ (s' ++ R))) =
      g ++ '\n' :: (List.replicate m ' ' ++ (c :: cs ++ s')) ++ R := by simp
    have e2 : (g ++ ['\n']).length + (m + ((c :: cs).length + s'.length)) + gR =
      (g ++ '\n' :: (List.replicate m ' ' ++ (c :: cs ++ s'))).length + gR := by simp; omega
    rw [← e1, ← e2]
    exact hr

theorem treeText_goal (hL : L.Lawful) (hR : ResumesLines L) {i t s R} (h : TreeText L i t s R) : NodeGoal L i t s R :=
  TreeText.rec (motive_1 := fun i t s R _ => NodeGoal L i t s R) (motive_2 := fun i cs s R _ => KidsGoal L i cs s R)
    (motive_3 := fun m cs s R _ => RowsGoal L m cs s R)
    (fun h _ ih => node_goal h ih) (leaf_goal hL) (fun hm hm' _ ih => under_goal hm hm' ih)
    (fun hm hm' h _ ih ih' => beside_goal hL hm hm' (treeText_head h) ih ih')
    (nil_goal hL hR) (fun hg h _ ih ih' => cons_goal hL hR hg (treeText_head h) ih ih') h

/-- A tree laid out line by line. -/
theorem laid_treeText {i t s} (h : Laid L i t s) :
    ∀ R, (∀ c, R.head? = some c → isWs c = true) → TreeText L i t s R :=
  Laid.rec (motive_1 := fun i t s _ => ∀ R, (∀ c, R.head? = some c → isWs c = true) → TreeText L i t s R)
    (motive_2 := fun i cs s _ => ∀ R, (∀ c, R.head? = some c → isWs c = true) →
      (∀ c, (s ++ R).head? = some c → isWs c = true) ∧ KidsText L i cs s R)
    (motive_3 := fun m cs s _ => ∀ R, (∀ c, R.head? = some c → isWs c = true) →
      (∀ c, (s ++ R).head? = some c → isWs c = true) ∧ RowsText L m cs s R)
    (fun h _ ih R hR => .node ⟨h.1, h.2 _ (ih R hR).1⟩ (ih R hR).2) (fun R hR => ⟨hR, .leaf⟩)
    (fun hm hm' _ ih R hR => ⟨(ih R hR).1, .under hm hm' (ih R hR).2⟩) (fun R hR => ⟨hR, .nil⟩)
    (fun {m t ts g s s'} hg _ _ ih ih' R hR => by
      refine ⟨?_, .cons hg (ih _ (ih' R hR).1) (ih' R hR).2⟩
      intro c hc
      cases g with
      | nil => simp at hc; subst hc; decide
      | cons y g => simp at hc; subst hc; exact hg y (by simp)) h

end

theorem indent_reads {L : Lexer} (hL : L.Lawful) (hR : ResumesLines L) {t : Tree} {s w w' : Str}
    (h : TreeText L 0 t s w') (hw : ∀ c ∈ w, isWs c = true) (hw' : ∀ c ∈ w', isWs c = true) :
    ∃ toks, Parses L indentSyntax (w ++ (s ++ w')) [] Indent.default (.ok toks) ∧ toks.map (·.data) = t.data := by
  obtain ⟨ts, j, tr, hr, hd⟩ := treeText_goal hL hR h w'.length (.inl ⟨hw', rfl⟩) w.length 1002
  obtain ⟨c, cs, rfl, hc⟩ := treeText_head h
  refine ⟨ts, parses_ok_run.2 ⟨_, w.length + ((c :: cs).length + w'.length + (0 + 0)), [] ++ (ts ++ ([] ++ [])), j,
    [] ++ (tr ++ ([] ++ [])), rfl, .sequence (.seq_cons (j := 0) (o := some ((c :: cs).length + w'.length + (0 + 0), ts ++ ([] ++ [])))
      (.ws_ok ?_ (fun _ => rfl)) (.seq_cons (j := j) (o := some (0 + 0, [] ++ [])) ?_ (.seq_cons (o := some (0, []))
        (.ws_ok ?_ (fun _ => rfl)) .seq_nil))), by simp; omega, by simp⟩, hd⟩
  · refine ⟨by simp, by simpa using hw, fun y hy => ?_⟩
    simp at hy; subst hy; simp [hc]
  · have : adv ⟨w ++ (c :: cs ++ w'), 0⟩ w.length = ⟨c :: cs ++ w', w.length⟩ := by simp [adv]
    rw [this]; exact hr
  · have : adv (adv ⟨w ++ (c :: cs ++ w'), 0⟩ w.length) ((c :: cs).length + w'.length) =
        ⟨[], w.length + ((c :: cs).length + w'.length)⟩ := by simp [adv]; omega
    rw [this]
    simp [Longest]

/-- C68: the rules of examples/indent.rs read every tree from its text, with any space around it. -/
theorem C68_indent_rules {L : Lexer} (hL : L.Lawful) (hs : NoSlash L) (hN : ReadsNumbers L) (hR : ResumesLines L) :
    ∃ syn : Syntax, (∀ r, SyntaxReturns L indentRules r ↔ r = .ok syn) ∧
      ∀ t s w w', Laid L 0 t s → (∀ c ∈ w, isWs c = true) → (∀ c ∈ w', isWs c = true) →
        ∃ toks, Parses L syn (w ++ (s ++ w')) [] Indent.default (.ok toks) ∧ toks.map (·.data) = t.data :=
  ⟨indentSyntax, indent_syntax hL hs hN, fun _ _ _ w' h hw hw' =>
    indent_reads hL hR (laid_treeText h w' fun c hc => hw' c (List.mem_of_head? hc)) hw hw'⟩

/-- C68: what examples/indent.rs writes for the text of a tree. -/
theorem C68_indent {L : Lexer} (hL : L.Lawful) (hs : NoSlash L) (hN : ReadsNumbers L) (hR : ResumesLines L)
    (E : ErrText) (fmt : F64 → Str) {t : Tree} {s w w' : Str} (h : Laid L 0 t s) (hw : ∀ c ∈ w, isWs c = true)
    (hw' : ∀ c ∈ w', isWs c = true) {toks : List Tok} (hd : toks.map (·.data) = t.data) (out : Str) :
    ExampleWrites L E fmt indentRules (w ++ (s ++ w')) out ↔ writeJson fmt toks = .ok out := by
  obtain ⟨syn, h1, h2⟩ := C68_indent_rules hL hs hN hR
  obtain ⟨toks', hp, hd'⟩ := h2 t s w w' h hw hw'
  have e : writeJson fmt toks' = writeJson fmt toks := by simp only [writeJson, hd, hd']
  rw [(example_of_syntax h1).1, ← e]
  constructor
  · rintro (⟨_, _, _, hx, _⟩ | ⟨data, hx, hj⟩)
    · cases parses_det hx hp
    · cases parses_det hx hp
      exact hj
  · intro hj
    exact .inr ⟨toks', hp, hj⟩

/-- Digits are read as a number. -/
theorem std_readsNumber {s : Str} {v : F64} (h0 : s ≠ []) (h : ∀ x ∈ s, Std.isDigit x = true)
    (hv : (stdLexer.parseNum false s s.length).toOption = some v) (hn : stdLexer.num false s = some s.length) :
    ReadsNumber stdLexer s v := by
  refine ⟨?_, fun rest hr => ?_⟩
  · cases s with
    | nil => exact absurd rfl h0
    | cons c cs => exact ⟨c, cs, rfl, digit_notWs (h c (by simp))⟩
  · cases rest with
    | nil =>
      rw [List.append_nil]
      refine ⟨hn, ?_⟩
      cases e : stdLexer.parseNum false s s.length <;> rw [e] at hv <;> cases hv
      rfl
    | cons c rest => exact (std_isNumber h0 h hv c rest (hr c rfl)).2

/-- Digits and their values. -/
def exDigits : List (Char × BitVec 64) := [('1', 0x3ff0000000000000), ('2', 0x4000000000000000),
  ('3', 0x4008000000000000), ('4', 0x4010000000000000), ('5', 0x4014000000000000), ('6', 0x4018000000000000)]

theorem exDigits_read {c : Char} {bits : BitVec 64} (h : (c, bits) ∈ exDigits) : ReadsNumber stdLexer [c] ⟨bits⟩ := by
  have hd : ∀ x ∈ exDigits, Std.isDigit x.1 = true ∧ (stdLexer.parseNum false [x.1] 1).toOption = some ⟨x.2⟩ ∧
      stdLexer.num false [x.1] = some 1 := by decide +kernel
  obtain ⟨h1, h2, h3⟩ := hd _ h
  exact std_readsNumber (by simp) (by simpa using h1) h2 h3

/-- The tree of the text in examples/indent.rs. -/
def indentTree : Tree :=
  .node ['1'] ⟨0x3ff0000000000000⟩ [
    .node ['2'] ⟨0x4000000000000000⟩ [.node ['3'] ⟨0x4008000000000000⟩ [], .node ['4'] ⟨0x4010000000000000⟩ []],
    .node ['5'] ⟨0x4014000000000000⟩ [.node ['6'] ⟨0x4018000000000000⟩ []]]

theorem indentTree_laid : Laid stdLexer 0 indentTree c!"1\n 2\n  3\n  4\n 5\n  6" := by
  have leaf : ∀ c bits i, (c, bits) ∈ exDigits → Laid stdLexer i (.node [c] ⟨bits⟩ []) [c] :=
    fun c bits i h => .node (exDigits_read h) .leaf
  have h34 : LaidAt stdLexer 2 [.node ['3'] ⟨0x4008000000000000⟩ [], .node ['4'] ⟨0x4010000000000000⟩ []] c!"\n  3\n  4" :=
    .cons (g := []) (by simp) (leaf _ _ _ (by decide)) (.cons (g := []) (by simp) (leaf _ _ _ (by decide)) .nil)
  have h6 : LaidAt stdLexer 2 [.node ['6'] ⟨0x4018000000000000⟩ []] c!"\n  6" :=
    .cons (g := []) (by simp) (leaf _ _ _ (by decide)) .nil
  refine .node (s := c!"\n 2\n  3\n  4\n 5\n  6") (exDigits_read (by decide)) (.block (m := 1) (by omega) (by decide) ?_)
  refine .cons (m := 1) (g := []) (s := c!"2\n  3\n  4") (s' := c!"\n 5\n  6") (by simp) ?_ (.cons (m := 1) (g := [])
    (s := c!"5\n  6") (s' := []) (by simp) ?_ .nil)
  · exact .node (s := c!"\n  3\n  4") (exDigits_read (by decide)) (.block (m := 2) (by omega) (by decide) h34)
  · exact .node (s := c!"\n  6") (exDigits_read (by decide)) (.block (m := 2) (by omega) (by decide) h6)

/-- One decimal digit. -/
def exFmtDigit (v : F64) : Str := (((exDigits.map fun x => (x.2, x.1)).lookup v.bits).map ([·])).getD []

/-- C68: examples/indent.rs as it stands. -/
example : ExampleWrites stdLexer exErrText exFmtDigit indentRules indentText
    c!"\"node\":{\n \"num\":1,\n \"node\":{\n  \"num\":2,\n  \"node\":{\n   \"num\":3\n  },\n  \"node\":{\n   \"num\":4\n  }\n },\n \"node\":{\n  \"num\":5,\n  \"node\":{\n   \"num\":6\n  }\n }\n}\n" :=
  (C68_indent stdLexer_lawful stdLexer_noSlash std_readsNumbers std_resumesLines exErrText exFmtDigit indentTree_laid
    (w := c!"\n") (w' := c!"\n    ") (by decide) (by decide) (toks := indentTree.data.map fun d => ⟨⟨0, 0⟩, d⟩)
    (by rw [List.map_map]; exact List.map_id _) _).2 (by decide +kernel)

end Verif.Props
