import Verif.Props.TabExact
/-
Tabs in the texts of examples/indent.rs: C113.
-/
namespace Verif.Props
open Verif Verif.Spec

/-- C113: a tree laid out with spaces and tabs is read, if no line reaches so far that it would belong to the
tree before it. -/
theorem C113_reads {L : Lexer} (hL : L.Lawful) (hs : NoSlash L) (hN : ReadsNumbers L) (hR : ResumesLines L) :
    ∃ syn : Syntax, (∀ r, SyntaxReturns L indentRules r ↔ r = .ok syn) ∧
      ∀ t l s w w', TabTree L 4 true 0 t l s w' → (∀ c ∈ w, isWs c = true) → (∀ c ∈ w', isWs c = true) →
        ∃ toks, Parses L syn (w ++ (s ++ w')) [] Indent.default (.ok toks) ∧ toks.map (·.data) = t.data :=
  ⟨indentSyntax, indent_syntax hL hs hN, fun _ _ _ _ _ h hw hw' => Tabs.tabs_read hL hR h hw hw'⟩

/-- C113: whatever is read is a tree laid out with spaces and tabs. -/
theorem C113_sound {L : Lexer} (hL : L.Lawful) (hs : NoSlash L) (hN : ReadsNumbers L) (hX : L.Exact)
    (hS : SolidNumbers L) :
    ∃ syn : Syntax, (∀ r, SyntaxReturns L indentRules r ↔ r = .ok syn) ∧
      ∀ text toks, Parses L syn text [] Indent.default (.ok toks) →
        ∃ t l s w w', text = w ++ (s ++ w') ∧ TabTree L 4 false 0 t l s w' ∧ (∀ c ∈ w, isWs c = true) ∧
          (∀ c ∈ w', isWs c = true) ∧ toks.map (·.data) = t.data :=
  ⟨indentSyntax, indent_syntax hL hs hN, fun _ _ h => Tabs.tabs_exact hL hX hS false false (by simp) (by simp) h⟩

/-- C113: if every number ends its line, exactly the trees are read of which no line reaches so far that it would
belong to the tree before it. -/
theorem C113_accepts {L : Lexer} (hL : L.Lawful) (hs : NoSlash L) (hN : ReadsNumbers L) (hR : ResumesLines L)
    (hX : L.Exact) (hS : SolidNumbers L) :
    ∃ syn : Syntax, (∀ r, SyntaxReturns L indentRules r ↔ r = .ok syn) ∧
      ∀ text, NumbersEndLines L text → ∀ data,
        (∃ toks, Parses L syn text [] Indent.default (.ok toks) ∧ toks.map (·.data) = data) ↔
        ∃ t l s w w', text = w ++ (s ++ w') ∧ TabTree L 4 true 0 t l s w' ∧ (∀ c ∈ w, isWs c = true) ∧
          (∀ c ∈ w', isWs c = true) ∧ data = t.data := by
  refine ⟨indentSyntax, indent_syntax hL hs hN, fun text ht data => ⟨?_, ?_⟩⟩
  · rintro ⟨toks, h, rfl⟩
    exact Tabs.tabs_exact hL hX hS true true (fun _ => ⟨rfl, Tabs.stops hL hX hS hR⟩) (fun _ => ht) h
  · rintro ⟨t, l, s, w, w', rfl, hT, hw, hw', rfl⟩
    exact Tabs.tabs_read hL hR hT hw hw'

/-- C113: any other such text is rejected, unless it is so long that columns might overflow. -/
theorem C113_rejects {L : Lexer} (hL : L.Lawful) (hs : NoSlash L) (hN : ReadsNumbers L) (hR : ResumesLines L)
    (hX : L.Exact) (hS : SolidNumbers L) :
    ∃ syn : Syntax, (∀ r, SyntaxReturns L indentRules r ↔ r = .ok syn) ∧
      ∀ text, NumbersEndLines L text → 4 * text.length + 1 < 2 ^ 32 →
        ((∃ e toks, Parses L syn text [] Indent.default (.err e toks)) ↔
        ¬ ∃ t l s w w', text = w ++ (s ++ w') ∧ TabTree L 4 true 0 t l s w' ∧ (∀ c ∈ w, isWs c = true) ∧
          (∀ c ∈ w', isWs c = true)) := by
  refine ⟨indentSyntax, indent_syntax hL hs hN, fun text ht hlen => ⟨?_, fun h => ?_⟩⟩
  · rintro ⟨e, toks, h⟩ ⟨t, l, s, w, w', rfl, hT, hw, hw'⟩
    obtain ⟨toks', h', -⟩ := Tabs.tabs_read hL hR hT hw hw'
    cases parses_det h h'
  · rcases C25_returns hL (syn := indentSyntax) (ind := Indent.default) (C25_check_sound hL _ (by decide +kernel))
      (C26_check_sound (by decide +kernel)) text (.inl (by simpa [ShortFor, Indent.default] using hlen)) [] with ⟨toks, h'⟩ | h'
    · obtain ⟨t, l, s, w, w', e, hT, hw, hw', -⟩ :=
        Tabs.tabs_exact hL hX hS true true (fun _ => ⟨rfl, Tabs.stops hL hX hS hR⟩) (fun _ => ht) h'
      exact absurd ⟨t, l, s, w, w', e, hT, hw, hw'⟩ h
    · exact h'

/-- C113: what is laid out so that no line reaches too far can be read in one way only. -/
theorem C113_unique {L : Lexer} (hL : L.Lawful) (hR : ResumesLines L) {t t' : Tree} {l l' : Nat} {s s' w w' v v' : Str}
    (h : TabTree L 4 true 0 t l s w') (h' : TabTree L 4 true 0 t' l' s' v') (hw : ∀ c ∈ w, isWs c = true)
    (hw' : ∀ c ∈ w', isWs c = true) (hv : ∀ c ∈ v, isWs c = true) (hv' : ∀ c ∈ v', isWs c = true)
    (e : w ++ (s ++ w') = v ++ (s' ++ v')) : t.data = t'.data := by
  obtain ⟨toks, h1, h2⟩ := Tabs.tabs_read hL hR h hw hw'
  obtain ⟨toks', h3, h4⟩ := Tabs.tabs_read hL hR h' hv hv'
  rw [e] at h1
  cases parses_det h1 h3
  rw [← h2, h4]

theorem reaches_spaces {tab i : Nat} : ReachesColumn tab i (List.replicate i ' ') := by
  have := carries_spaces (tab := tab) (Nat.le_refl i) []
  simpa [ReachesColumn] using this

/-- C113: the trees laid out with spaces (C69) are among them, for any width of tabs. -/
theorem C113_spaces {L : Lexer} {tab i : Nat} {t : Tree} {s rest : Str} (h : TreeText L i t s rest) :
    ∃ l, i ≤ l ∧ TabTree L tab true i t l s rest :=
  TreeText.rec (motive_1 := fun i t s R _ => ∃ l, i ≤ l ∧ TabTree L tab true i t l s R)
    (motive_2 := fun i cs s R _ => ∃ l, i ≤ l ∧ TabKids L tab true i cs l s R)
    (motive_3 := fun m cs s R _ => (∀ l, m < l → TabRows L tab true m l cs s R) ∧
      ∀ i, i ≤ m → m + 1 < 2 ^ 32 → cs ≠ [] → TabKids L tab true i cs m s R)
    (fun h _ ih => let ⟨l, hl, h'⟩ := ih; ⟨l, hl, .node h h'⟩)
    (⟨_, Nat.le_refl _, .leaf⟩)
    (fun hm hm' _ ih => ⟨_, hm, ih.2 _ hm hm' (by simp)⟩)
    (fun {i m t ts s s' rest} hm hm' _ _ ih ih' => by
      obtain ⟨l, hl, h⟩ := ih
      refine ⟨m, hm, ?_⟩
      have := TabKids.block (L := L) (strict := true) (.inl rfl) (reaches_spaces (tab := tab) (i := i))
        (w' := List.replicate (m - i) ' ') (fun c hc => .inl (List.mem_replicate.1 hc).2) (m := m)
        (by rw [width_spaces]; omega) hm' h (ih'.1 l hl)
      rwa [List.nil_append, ← List.append_assoc, List.replicate_append_replicate, show i + (m - i) = m by omega] at this)
    (⟨fun _ _ => .nil, fun _ _ _ h => absurd rfl h⟩)
    (fun {m t ts g s s' rest} hg _ _ ih ih' => by
      obtain ⟨l', hl', h⟩ := ih
      refine ⟨fun l hl => .cons hg reaches_spaces (fun _ => by rwa [width_spaces]) h (ih'.1 l' hl'), fun i hi hm' _ => ?_⟩
      have := TabKids.block (L := L) (strict := true) (g := g ++ ['\n']) (.inr ⟨g, rfl, hg⟩) (reaches_spaces (tab := tab) (i := i))
        (w' := List.replicate (m - i) ' ') (fun c hc => .inl (List.mem_replicate.1 hc).2) (m := m)
        (by rw [width_spaces]; omega) hm' h (ih'.1 l' hl')
      rw [← List.append_assoc (List.replicate i ' '), List.replicate_append_replicate, show i + (m - i) = m by omega] at this
      simpa using this)
    h

theorem reaches_tabs {i k : Nat} (h : i ≤ 4 * k) (h' : 4 * k < i + 4) : ReachesColumn 4 i (List.replicate k '\t') := by
  have hw : ∀ n, width 4 (List.replicate n '\t') = 4 * n := by
    intro n
    induction n with
    | zero => rfl
    | succ n ih => rw [List.replicate_succ]; simp only [width, ih]; simp; omega
  refine ⟨Nat.le_refl _, ?_, ?_, ?_⟩
  · intro c hc
    exact .inr (List.mem_replicate.1 (List.mem_of_mem_take hc)).2
  · rw [List.take_length, hw]; exact h
  · intro j hj
    rw [List.length_replicate] at hj
    rw [List.take_replicate, hw]; omega

/-- Numbers on lines of their own behind two tabs. -/
def tabLines : List (Str × F64) → Str
  | [] => []
  | (d, _) :: ds => '\n' :: '\t' :: '\t' :: (d ++ tabLines ds)

def leafOf (d : Str × F64) : Tree := .node d.1 d.2 []

theorem leaf_tabTree {L : Lexer} {b : Bool} {d : Str × F64} (h : ReadsNumber L d.1 d.2) {i : Nat} {rest : Str}
    (hr : ∀ c, rest.head? = some c → isWs c = true) : TabTree L 4 b i (leafOf d) i d.1 rest := by
  have := TabTree.node (L := L) (tab := 4) (strict := b) (i := i) (s := []) (rest := rest) ⟨h.1, h.2 _ (by simpa using hr)⟩ .leaf
  simpa [leafOf] using this

theorem tabLines_head {ds : List (Str × F64)} {rest : Str} (hr : ∀ c, rest.head? = some c → isWs c = true) :
    ∀ c, (tabLines ds ++ rest).head? = some c → isWs c = true := by
  cases ds with
  | nil => simpa [tabLines] using hr
  | cons d ds =>
    intro c hc
    simp [tabLines] at hc
    subst hc; decide

theorem tabLines_rows {L : Lexer} {rest : Str} (hr : ∀ c, rest.head? = some c → isWs c = true) :
    ∀ {ds : List (Str × F64)}, (∀ d ∈ ds, ReadsNumber L d.1 d.2) →
      TabRows L 4 true 8 9 (ds.map leafOf) (tabLines ds) rest
  | [], _ => .nil
  | d :: ds, h => by
    have := TabRows.cons (L := L) (strict := true) (m := 8) (l := 9) (g := []) (by simp)
      (reaches_tabs (i := 8) (k := 2) (by omega) (by omega)) (fun _ => by decide)
      (leaf_tabTree (h d (by simp)) (i := 9) (tabLines_head (ds := ds) hr)) (tabLines_rows hr fun x hx => h x (by simp [hx]))
    exact this

/-- One number beside the next lines, which become its children. -/
theorem tab_child {L : Lexer} {i : Nat} {d : Str × F64} {t : Tree} {ts : List Tree} {l : Nat} {s s' rest : Str}
    (hd : ReadsNumber L d.1 d.2) (hi : 4 < i) (hi' : i ≤ 8) (h : TabTree L 4 true (i + 1) t l s (s' ++ rest))
    (h' : TabRows L 4 true i l ts s' rest) :
    TabTree L 4 true i (.node d.1 d.2 (t :: ts)) i (d.1 ++ '\n' :: '\t' :: '\t' :: (s ++ s')) rest := by
  have hk := TabKids.block (L := L) (strict := true) (i := i) (g := ['\n']) (w' := []) (m := i) (.inr ⟨[], rfl, by simp⟩)
    (reaches_tabs (i := i) (k := 2) (by omega) (by omega)) (by simp) (by simp [width]) (by omega) h h'
  refine .node (cs := t :: ts) (s := '\n' :: '\t' :: '\t' :: (s ++ s')) ⟨hd.1, hd.2 _ ?_⟩ hk
  intro c hc
  simp at hc; subst hc; decide

/-- C113: of numbers two tabs deep, each of the first three is the parent of what follows it. -/
theorem C113_tab_siblings {L : Lexer} (hL : L.Lawful) (hR : ResumesLines L) {a b c₁ c₂ c₃ c₄ : Str × F64} {ds : List (Str × F64)}
    (ha : ReadsNumber L a.1 a.2) (hb : ReadsNumber L b.1 b.2) (h1 : ReadsNumber L c₁.1 c₁.2) (h2 : ReadsNumber L c₂.1 c₂.2)
    (h3 : ReadsNumber L c₃.1 c₃.2) (h4 : ReadsNumber L c₄.1 c₄.2) (hds : ∀ d ∈ ds, ReadsNumber L d.1 d.2) :
    ∃ toks, Parses L indentSyntax (a.1 ++ '\n' :: '\t' :: (b.1 ++ tabLines (c₁ :: c₂ :: c₃ :: c₄ :: ds))) [] Indent.default (.ok toks) ∧
      toks.map (·.data) = (Tree.node a.1 a.2 [.node b.1 b.2 [.node c₁.1 c₁.2 [.node c₂.1 c₂.2 [.node c₃.1 c₃.2
        (leafOf c₄ :: ds.map leafOf)]]]]).data := by
  have hr : ∀ c, ([] : Str).head? = some c → isWs c = true := by simp
  have t8 := tab_child (i := 8) h3 (by omega) (by omega) (leaf_tabTree h4 (tabLines_head (ds := ds) hr)) (tabLines_rows hr hds)
  have t7 := tab_child (i := 7) (s' := []) h2 (by omega) (by omega) t8 .nil
  have t6 := tab_child (i := 6) (s' := []) h1 (by omega) (by omega) t7 .nil
  have t5 := tab_child (i := 5) (s' := []) hb (by omega) (by omega) t6 .nil
  have hk := TabKids.block (L := L) (strict := true) (i := 0) (g := ['\n']) (w := []) (w' := ['\t']) (m := 4) (s' := [])
    (.inr ⟨[], rfl, by simp⟩) (reaches_tabs (i := 0) (k := 0) (by omega) (by omega)) (by simp [Blank]) (by simp [width]) (by omega) t5 .nil
  have ht := TabTree.node (L := L) (d := a.1) (v := a.2) ⟨ha.1, ha.2 _ (by intro c hc; simp at hc; subst hc; decide)⟩ hk
  have := Tabs.tabs_read hL hR (w := []) (w' := []) ht (by simp) (by simp)
  simpa [tabLines] using this

/-- C113: with one tab they are siblings. -/
theorem C113_tab_row {L : Lexer} (hL : L.Lawful) (hR : ResumesLines L) {a b c : Str × F64}
    (ha : ReadsNumber L a.1 a.2) (hb : ReadsNumber L b.1 b.2) (hc : ReadsNumber L c.1 c.2) :
    ∃ toks, Parses L indentSyntax (a.1 ++ '\n' :: '\t' :: (b.1 ++ '\n' :: '\t' :: c.1)) [] Indent.default (.ok toks) ∧
      toks.map (·.data) = (Tree.node a.1 a.2 [leafOf b, leafOf c]).data := by
  have hrow := TabRows.cons (L := L) (strict := true) (m := 4) (l := 5) (g := []) (rest := []) (by simp)
    (reaches_tabs (i := 4) (k := 1) (by omega) (by omega)) (fun _ => by decide) (leaf_tabTree (i := 5) hc (by simp)) .nil
  have hk := TabKids.block (L := L) (strict := true) (i := 0) (g := ['\n']) (w := []) (w' := ['\t']) (m := 4)
    (.inr ⟨[], rfl, by simp⟩) (reaches_tabs (i := 0) (k := 0) (by omega) (by omega)) (by simp [Blank]) (by simp [width]) (by omega)
    (leaf_tabTree (i := 5) hb (by intro c hc; simp at hc; subst hc; decide)) hrow
  have ht := TabTree.node (L := L) (d := a.1) (v := a.2) ⟨ha.1, ha.2 _ (by intro c hc; simp at hc; subst hc; decide)⟩ hk
  have := Tabs.tabs_read hL hR (w := []) (w' := []) ht (by simp) (by simp)
  simpa using this

theorem exDigit {c : Char} {bits : BitVec 64} (h : (c, bits) ∈ exDigits) :
    ReadsNumber stdLexer (([c], ⟨bits⟩) : Str × F64).1 (([c], ⟨bits⟩) : Str × F64).2 := exDigits_read h

/-- An outline with one tab per level: 3, 4, 5 and 6 stand below each other, but 4 is read as a child of 3,
5 as a child of 4 and 6 as a child of 5. -/
example : ∃ toks, Parses stdLexer indentSyntax c!"1\n\t2\n\t\t3\n\t\t4\n\t\t5\n\t\t6" [] Indent.default (.ok toks) ∧
    toks.map (·.data) = (Tree.node ['1'] ⟨0x3ff0000000000000⟩ [.node ['2'] ⟨0x4000000000000000⟩
      [.node ['3'] ⟨0x4008000000000000⟩ [.node ['4'] ⟨0x4010000000000000⟩ [.node ['5'] ⟨0x4014000000000000⟩
        [.node ['6'] ⟨0x4018000000000000⟩ []]]]]]).data :=
  C113_tab_siblings stdLexer_lawful std_resumesLines (ds := []) (exDigit (by decide)) (exDigit (by decide)) (exDigit (by decide))
    (exDigit (by decide)) (exDigit (by decide)) (exDigit (by decide)) (by simp)

/-- A text in which every number ends its line... -/
example : NumbersEndLines stdLexer c!"1\n\t2 " := by
  intro a b n e _ hn
  have hb : b = (c!"1\n\t2 ").drop a.length := by rw [e]; simp
  have hl : a.length ≤ 5 := by
    have := congrArg List.length e
    simp at this; omega
  generalize a.length = k at hb hl
  subst hb
  have hk : k = 0 ∨ k = 1 ∨ k = 2 ∨ k = 3 ∨ k = 4 ∨ k = 5 := by omega
  have h0 : stdLexer.num false c!"1\n\t2 " = some 1 ∧ stdLexer.num false c!"2 " = some 1 ∧
      stdLexer.num false c!"\n\t2 " = none ∧ stdLexer.num false c!"\t2 " = none ∧
      stdLexer.num false c!" " = none ∧ stdLexer.num false [] = none := by decide +kernel
  obtain ⟨h1, h2, h3, h4, h5, h6⟩ := h0
  rcases hk with rfl | rfl | rfl | rfl | rfl | rfl
  · cases hn.symm.trans h1; exact .inr ⟨[], c!"\t2 ", rfl, by simp⟩
  · cases hn.symm.trans h3
  · cases hn.symm.trans h4
  · cases hn.symm.trans h2; exact .inl (by decide)
  · cases hn.symm.trans h5
  · cases hn.symm.trans h6

/-- ...and one in which a number does not. -/
example : ¬ NumbersEndLines stdLexer c!"1 2" := by
  intro h
  rcases h [] c!"1 2" 1 rfl (by simp) (by decide +kernel) with h | ⟨g, R, e, -⟩
  · exact absurd (h '2' (by simp)) (by decide)
  · have : '\n' ∈ (c!"1 2").drop 1 := by rw [e]; simp
    simp at this

/-- How deep each number stands, in the order of the text. -/
def depths : Nat → List MetaData → List Nat
  | _, [] => []
  | n, .startNode _ :: ds => depths (n + 1) ds
  | n, .endNode _ :: ds => depths (n - 1) ds
  | n, .f64 .. :: ds => n :: depths n ds
  | n, _ :: ds => depths n ds

def depthsRead (text : Str) : List Nat := match parse stdLexer 200 indentSyntax text [] with
  | .ok toks => depths 0 (toks.map (·.data))
  | _ => []

/-- The same with four spaces per level. -/
example : depthsRead c!"1\n\t2\n\t\t3\n\t\t4" = [1, 2, 3, 4] ∧ depthsRead c!"1\n    2\n        3\n        4" = [1, 2, 3, 3] := by
  decide +kernel

/-- Where numbers stand beside each other, a line that reaches far enough for the tree before it may still be read
further out: what follows on the line decides.  Here 4 is not read as a child of 3, because then 6 could not be read. -/
example : depthsRead c!"1\n 2\n  3\n\t4" = [1, 2, 3, 4] ∧ depthsRead c!"1\n 2\n  3\n\t4\t5   6" = [1, 2, 3, 2, 3, 4] := by
  decide +kernel

end Verif.Props
