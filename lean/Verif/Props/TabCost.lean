import Verif.Props.Counts
import Verif.Props.Tabs
import Verif.Spec.SlowTree
/-
Indented texts that take exponentially long: C115.
-/
namespace Verif.Props.Tabs
open Verif Verif.Spec Verif.Props

section
variable {L : Lexer}

/-- Reading a tree: how much is read, if it is, and in how many calls. -/
def NodeTakes (L : Lexer) (s : Str) (i : Nat) (o : Option Nat) (c : Nat) : Prop :=
  ∀ off id, ∃ x j tr e, Run (iEnv L) (.rule (iRule id)) ⟨s, off⟩ i x j tr ∧ x.map (·.1) = o ∧
    Counts (iEnv L) (.rule (iRule id)) ⟨s, off⟩ i c e

/-- Reading one line. -/
def LineTakes (L : Lexer) (first : Bool) (s : Str) (i : Nat) (o : Option Nat) (j c : Nat) : Prop :=
  ∀ off, ∃ x tr e, Run (iEnv L) (.line (iRule 2002) true first) ⟨s, off⟩ i x j tr ∧ x.map (·.1) = o ∧
    Counts (iEnv L) (.line (iRule 2002) true first) ⟨s, off⟩ i c e

/-- Reading the lines of a block. -/
def LinesTake (L : Lexer) (first : Bool) (item s : Str) (i : Nat) (o : Option Nat) (c : Nat) : Prop :=
  ∀ off, ∃ x j tr e, Run (iEnv L) (iGoal first item) ⟨s, off⟩ i x j tr ∧ x.map (·.1) = o ∧
    Counts (iEnv L) (iGoal first item) ⟨s, off⟩ i c e

theorem before_fst {n : Nat} {ts : List Tok} {o : Outcome} :
    (before n ts o).map (·.1) = (o.map (·.1)).map (n + ·) := by
  cases o <;> rfl

theorem node_takes {d v s i o c} (h : NumberAt L d v s) (hb : LinesTake L true [] s i o c) :
    NodeTakes L (d ++ s) i (o.map (d.length + ·)) (4 + c) := by
  intro off id
  obtain ⟨x, j, tr, e, hr, ho, hc⟩ := hb (off + d.length)
  obtain ⟨-, h1, h2⟩ := h
  have ea : adv ⟨d ++ s, off⟩ d.length = ⟨s, off + d.length⟩ := by simp [adv]
  have hnum : Run (iEnv L) (.rule (.number (some c!"num") false 2001)) ⟨d ++ s, off⟩ i
      (some (d.length, [⟨⟨off, d.length⟩, .f64 c!"num" v⟩])) i [] := .num_ok h1 h2
  have hlr : Run (iEnv L) (.rule (.lines (iRule 2002) true 2003)) (adv ⟨d ++ s, off⟩ d.length) i x j tr := by
    rw [ea]; exact .lines hr
  have hlc : Counts (iEnv L) (.rule (.lines (iRule 2002) true 2003)) (adv ⟨d ++ s, off⟩ d.length) i (1 + c) (1 + e) := by
    rw [ea]; exact .lines hc
  cases x with
  | none =>
    have hseq := Run.sequence (id := 2004) (.seq_cons hnum (.seq_fail (rs := []) hlr))
    have hcnt := Counts.sequence (id := 2004) (.seq_cons hnum (.leaf trivial) (.seq_fail (rs := []) hlr hlc))
    have := Counts.node (E := iEnv L) (name := c!"node") (prop := some c!"node") (ix := 0) (id := id) rfl hcnt
    rw [show 1 + (1 + (1 + (1 + c))) = 4 + c by omega] at this
    exact ⟨none, j, _, _, .node_fail rfl hseq, by rw [← ho]; rfl, this⟩
  | some y =>
    obtain ⟨n, ts⟩ := y
    have hseq := Run.sequence (id := 2004) (.seq_cons hnum (.seq_cons hlr .seq_nil))
    have hcnt := Counts.sequence (id := 2004) (.seq_cons hnum (.leaf trivial) (.seq_cons hlr hlc .seq_nil))
    have := Counts.node (E := iEnv L) (name := c!"node") (prop := some c!"node") (ix := 0) (id := id) rfl hcnt
    rw [show 1 + (1 + (1 + (1 + c + 0))) = 4 + c by omega] at this
    exact ⟨_, j, _, _, .node_ok rfl hseq, by rw [← ho]; rfl, this⟩

theorem lines_take_stop {first item s i k j c} (h : L.lineNext first item s = .call k)
    (h' : LineTakes L first (s.drop k) i none j c) : LinesTake L first item s i (some k) c := by
  intro off
  obtain ⟨x, tr, e, hr, ho, hc⟩ := h' (off + k)
  cases x with
  | some => simp at ho
  | none => exact ⟨_, j, tr, e, .lines_stop h hr, rfl, .lines_stop h hr hc⟩

theorem lines_take_more {first item s i k n j c o c'} (h : L.lineNext first item s = .call k)
    (h' : LineTakes L first (s.drop k) i (some n) j c)
    (h'' : LinesTake L false ((s.drop k).take n) (s.drop (k + n)) j o c') :
    LinesTake L first item s i (o.map (k + n + ·)) (c + c') := by
  intro off
  obtain ⟨x, tr, e, hr, ho, hc⟩ := h' (off + k)
  obtain ⟨x', j', tr', e', hr', ho', hc'⟩ := h'' (off + (k + n))
  cases x with
  | none => simp at ho
  | some y =>
    obtain ⟨n', ts⟩ := y
    simp only [Option.map_some, Option.some.injEq] at ho
    subst ho
    exact ⟨_, j', _, _, .lines_more h hr hr', by rw [before_fst, ho'], .lines_more h hr hc hc'⟩

theorem lines_take_fail {item s i k} (h : L.lineNext false item s = .fail k) : LinesTake L false item s i none 0 :=
  fun _ => ⟨_, i, _, 0, .lines_fail h, rfl, .lines_fail h⟩

theorem line_takes_shallow {first s i} (h : ¬ ∃ k, Carries tabs i s k) : LineTakes L first s i none i 0 :=
  fun _ => ⟨_, _, 0, .line_shallow h, rfl, .line_shallow h⟩

theorem line_takes_first {i w w' : _} {c : Char} {cs : Str} (hw : ReachesColumn tabs i w) (hw' : ∀ x ∈ w', Blank x)
    (hc : isWs c = false) (hm : i + width tabs w' + 1 < 2 ^ 32) {o n}
    (h : NodeTakes L (c :: cs) (i + width tabs w' + 1) o n) :
    LineTakes L true ((w ++ w') ++ c :: cs) i (o.map ((w ++ w').length + ·)) (i + width tabs w') n := by
  intro off
  obtain ⟨x, j, tr, e, hr, ho, hct⟩ := h (off + (w ++ w').length) 2002
  have e1 : ((w ++ w') ++ c :: cs).drop w.length = w' ++ c :: cs := by simp
  have e2 : (w' ++ c :: cs).take w'.length = w' := by simp
  have ea : adv ⟨(w ++ w') ++ c :: cs, off⟩ (w.length + w'.length) = ⟨c :: cs, off + (w ++ w').length⟩ := by
    rw [← List.length_append]
    simp only [adv, List.drop_left]
  have hk : Carries tabs i ((w ++ w') ++ c :: cs) w.length := by
    rw [List.append_assoc]; exact carries_of_reaches hw _
  have hl : Longest Blank (((w ++ w') ++ c :: cs).drop w.length) w'.length := by
    rw [e1]
    refine ⟨by simp, by rw [e2]; exact hw', ?_⟩
    intro y hy
    simp at hy
    subst hy
    rintro (rfl | rfl) <;> revert hc <;> decide
  have h1 := Run.line_align (E := iEnv L) (r := iRule 2002) (p := ⟨(w ++ w') ++ c :: cs, off⟩)
    (i := i) (o := x) (j := j) (tr := tr) rfl hk hl (by rw [e1, e2]; exact hm) (by rw [e1, e2, ea]; exact hr)
  have h2 := Counts.line_align (E := iEnv L) (r := iRule 2002) (p := ⟨(w ++ w') ++ c :: cs, off⟩)
    (i := i) (c := n) (d := e) rfl hk hl (by rw [e1, e2, ea]; exact hct)
  rw [e1, e2, ← List.length_append] at h1
  exact ⟨_, tr, e, h1, by rw [before_fst, ho], h2⟩

theorem line_takes_here {i w : _} {c : Char} {cs : Str} (hw : ReachesColumn tabs i w)
    (hc : isWs c = false) (hm : i + 1 < 2 ^ 32) {o n} (h : NodeTakes L (c :: cs) (i + 1) o n) :
    LineTakes L true (w ++ c :: cs) i (o.map (w.length + ·)) i n := by
  have := line_takes_first (L := L) (w' := []) hw (by simp) hc hm h
  rwa [List.append_nil] at this

theorem line_takes_next {m w : _} {c : Char} {cs : Str} (hw : ReachesColumn tabs m w)
    (hc : isWs c = false) (hm : m + 1 < 2 ^ 32) {o n} (h : NodeTakes L (c :: cs) (m + 1) o n) :
    LineTakes L false (w ++ c :: cs) m (o.map (w.length + ·)) m n := by
  intro off
  obtain ⟨x, j, tr, e, hr, ho, hct⟩ := h (off + w.length) 2002
  have ea : adv ⟨w ++ c :: cs, off⟩ w.length = ⟨c :: cs, off + w.length⟩ := by simp [adv]
  have hk := carries_of_reaches hw (c :: cs)
  have hd : ((w ++ c :: cs).drop w.length).head? ≠ some ' ' := by
    simp only [List.drop_left]
    intro hx; simp at hx; subst hx; revert hc; decide
  refine ⟨_, tr, e, Run.line_body (E := iEnv L) (o := x) (by simp) hk hd hm (j := j) (by rw [ea]; exact hr),
    by rw [before_fst, ho], Counts.line_body (E := iEnv L) (by simp) hk hd (by rw [ea]; exact hct)⟩

theorem leaf_takes (hL : L.Lawful) {i R g} (hR : Ender i R g) : LinesTake L true [] R i (some g) 0 := by
  rcases hR with ⟨h, rfl⟩ | ⟨a, w, c, b, rfl, ha, hw, hc, hm, rfl⟩
  · intro off
    exact ⟨_, i, _, 0, .lines_done (lineNext_done hL h), rfl, .lines_done (lineNext_done hL h)⟩
  · have h1 := lineNext_call hL (first := true) (item := []) (gap_lineStart (b := b) ha hw hc)
      (by intro t ht; simp at ht) (by simp)
    refine lines_take_stop h1 (j := i) ?_
    rw [show (a ++ '\n' :: (w ++ c :: b)).drop (a.length + 1) = w ++ c :: b by simp [List.drop_append]]
    exact line_takes_shallow (not_carries hm hc b)

theorem stop_takes (hL : L.Lawful) (hR : ResumesLines L) {m R g} (h : Ender m R g) (x : Str) :
    LinesTake L false (x ++ R.take g) (R.drop g) m (some 0) 0 := by
  rcases h with ⟨h, rfl⟩ | ⟨a, w, c, b, rfl, ha, hw, hc, hm, rfl⟩
  · intro off
    have : AllBlank (R.drop R.length) := fun c hc => by simp at hc
    have h1 := lineNext_done hL this (first := false) (item := x ++ R.take R.length)
    simp only [List.drop_length, List.length_nil] at h1 ⊢
    exact ⟨_, m, _, 0, .lines_done h1, rfl, .lines_done h1⟩
  · have e : (a ++ '\n' :: (w ++ c :: b)).take (a.length + 1) = a ++ ['\n'] := by
      simp [List.take_append, List.take_of_length_le (Nat.le_succ a.length)]
    have e' : (a ++ '\n' :: (w ++ c :: b)).drop (a.length + 1) = w ++ c :: b := by simp [List.drop_append]
    rw [e, e']
    exact lines_take_stop (k := 0) (j := m) (hR _ _ (by simp) (blank_nonBlank hw hc))
      (line_takes_shallow (not_carries hm hc b))

theorem NodeTakes.cast {s i n n' c c'} (h : NodeTakes L s i (some n) c) (hn : n = n') (hc : c = c') :
    NodeTakes L s i (some n') c' := by subst hn hc; exact h

theorem LinesTake.cast {first item s i n n' c c'} (h : LinesTake L first item s i (some n) c) (hn : n = n') (hc : c = c') :
    LinesTake L first item s i (some n') c' := by subst hn hc; exact h

theorem LineTakes.cast {first s i n n' j j' c} (h : LineTakes L first s i (some n) j c) (hn : n = n') (hj : j = j') :
    LineTakes L first s i (some n') j' c := by subst hn hj; exact h

/-- A line, its indentation `u`, and what follows its number. -/
theorem row_takes {first item G u} {d : Char} {s : Str} {i j m c o c'}
    (hcall : L.lineNext first item (G ++ (u ++ d :: s)) = .call G.length)
    (hline : LineTakes L first (u ++ d :: s) i (some (u.length + (1 + m))) j c)
    (hrest : LinesTake L false ((u ++ [d]) ++ s.take m) (s.drop m) j o c') :
    LinesTake L first item (G ++ (u ++ d :: s)) i (o.map (G.length + (u.length + (1 + m)) + ·)) (c + c') := by
  have e1 : (u ++ d :: s).take (u.length + (1 + m)) = (u ++ [d]) ++ s.take m := by
    rw [List.take_length_add_append, Nat.add_comm, List.take_succ_cons]; simp
  have e2 : (u ++ d :: s).drop (u.length + (1 + m)) = s.drop m := by
    rw [List.drop_length_add_append, Nat.add_comm, List.drop_succ_cons]
  refine lines_take_more hcall ?_ ?_ (n := u.length + (1 + m)) (j := j)
  · simpa using hline
  · rw [List.drop_length_add_append, e2, List.drop_left, e1]
    exact hrest

theorem tabs_blank {n : Nat} : ∀ x ∈ List.replicate n '\t', Blank x := fun _ hx => .inr (List.mem_replicate.1 hx).2

theorem width_tabs {n : Nat} : width 4 (List.replicate n '\t') = 4 * n := by
  induction n with
  | zero => rfl
  | succ n ih => rw [List.replicate_succ]; simp only [width, ih]; simp; omega

/-- A line on its own is called at once, the first time. -/
theorem call_here (hL : L.Lawful) {s : Str} (h : NonBlankLine s) : L.lineNext true [] s = .call 0 :=
  lineNext_call hL (first := true) (item := []) ⟨by simp, by simp, .inl rfl, by simpa using h⟩
    (by intro t ht; simp at ht) (by simp)

/-- Behind a new line. -/
theorem call_one (hL : L.Lawful) {w : Str} {c : Char} {b : Str} (hw : ∀ x ∈ w, Blank x) (hc : isWs c = false) :
    L.lineNext true [] ('\n' :: (w ++ c :: b)) = .call 1 := by
  have := lineNext_call hL (first := true) (item := []) (gap_lineStart (a := []) (b := b) (by intro x hx; simp at hx) hw hc)
      (by intro t ht; simp at ht) (by simp)
  simpa using this

section
variable (hL : L.Lawful) (hR : ResumesLines L) {d : Char} {v : F64} (hd : ReadsNumber L [d] v)
include hL hR hd

omit hL hR in
theorem digit_solid : isWs d = false := by
  obtain ⟨⟨c, cs, h, hc⟩, -⟩ := hd
  simp at h
  rw [h.1]; exact hc

omit hL hR in
theorem digit_takes {s : Str} {i o c} (hs : ∀ x, s.head? = some x → isWs x = true) (h : LinesTake L true [] s i o c) :
    NodeTakes L (d :: s) i (o.map (1 + ·)) (4 + c) :=
  node_takes (d := [d]) ⟨hd.1, hd.2 s hs⟩ h

omit hL hR hd in
theorem ender_head {i : Nat} {R : Str} {g : Nat} (h : Ender i R g) : ∀ c, R.head? = some c → isWs c = true := by
  intro c hc
  rcases h with ⟨h, -⟩ | ⟨a, w, x, b, rfl, ha, -, -, -, -⟩
  · exact h c (List.mem_of_head? hc)
  · cases a with
    | nil => simp at hc; subst hc; decide
    | cons y a => simp at hc; subst hc; exact ha y (by simp)

omit hL hR hd in
theorem levels_head {n a : Nat} {R : Str} (hR : ∀ c, R.head? = some c → isWs c = true) :
    ∀ c, (levels d n a ++ R).head? = some c → isWs c = true := by
  intro c hc
  cases n with
  | zero => exact hR c (by simpa [levels] using hc)
  | succ n => simp [levels] at hc; subst hc; decide

/-- What the levels take: first when the lines are read below a number in column `4a + 1`, which they do not belong
to, and then when the block of that number goes on. -/
theorem levels_take : ∀ n a R g, 4 * (a + n) + 9 < 2 ^ 32 → Ender (4 * a + 1) R g → ∃ k c c',
    k ≤ (levels d n a).length + g ∧ c + c' + 36 = 36 * 2 ^ n ∧
    LinesTake L true [] (levels d n a ++ R) (4 * a + 2) (some k) c ∧
    ∀ x, LinesTake L false (x ++ (levels d n a ++ R).take k) ((levels d n a ++ R).drop k) (4 * a + 1)
      (some ((levels d n a).length + g - k)) c'
  | 0, a, R, g, hb, hE => by
    refine ⟨g, 0, 0, by simp [levels], by simp, ?_, fun x => ?_⟩
    · exact leaf_takes hL (hE.mono (by omega))
    · simpa [levels] using stop_takes hL hR hE x
  | n + 1, a, R, g, hb, hE => by
    have hdw := digit_solid hd
    have hT : ∀ {i}, 4 * a < i → i ≤ 4 * a + 4 → ReachesColumn tabs i (List.replicate (a + 1) '\t') :=
      fun h h' => reaches_tabs (by omega) (by omega)
    -- what follows the inner levels
    let R6 : Str := '\n' :: (List.replicate (a + 1) '\t' ++ d :: (List.replicate (4 * a + 3) ' ' ++ d :: R))
    have hE6 : Ender (4 * (a + 1) + 1) R6 1 :=
      .inr ⟨[], List.replicate (a + 1) '\t', d, List.replicate (4 * a + 3) ' ' ++ d :: R, rfl, by intro x hx; simp at hx, tabs_blank, hdw,
        by rw [show Indent.default.tabSpaces = 4 from rfl, width_tabs]; omega, rfl⟩
    obtain ⟨k, c, c', hk, hsum, hA, hB⟩ := levels_take n (a + 1) R6 1 (by omega) hE6
    let X := levels d n (a + 1)
    let S5 : Str := List.replicate (4 * a + 5) ' '
    -- the number in front of the inner levels
    have h5 : NodeTakes L (d :: (X ++ R6)) (4 * a + 5 + 1) (some (1 + k)) (4 + c) :=
      digit_takes hd (levels_head (by intro x hx; simp [R6] at hx; subst hx; decide)) hA
    -- the block it begins
    have hS5 : ∀ x ∈ S5, Blank x := fun _ hx => .inl (List.mem_replicate.1 hx).2
    have h45 : ∀ i, i ≤ 4 * a + 5 → LinesTake L true [] ('\n' :: (S5 ++ d :: (X ++ R6))) i
        (some (4 * a + 8 + X.length)) (4 + c + c') := by
      intro i hi
      have hl : LineTakes L true (S5 ++ d :: (X ++ R6)) i (some (S5.length + (1 + k))) (4 * a + 5) (4 + c) := by
        have := line_takes_first (L := L) (i := i) (w := List.replicate i ' ') (w' := List.replicate (4 * a + 5 - i) ' ')
          (c := d) (cs := X ++ R6) reaches_spaces (fun _ hx => .inl (List.mem_replicate.1 hx).2) hdw
          (by rw [width_spaces]; omega) (o := some (1 + k)) (n := 4 + c) (by
            rw [width_spaces, show i + (4 * a + 5 - i) = 4 * a + 5 by omega]; exact h5)
        rw [List.replicate_append_replicate, width_spaces, show i + (4 * a + 5 - i) = 4 * a + 5 by omega] at this
        exact this
      have := row_takes (L := L) (first := true) (item := []) (G := ['\n']) (call_one hL hS5 hdw) hl (hB _)
      exact this.cast (by simp only [S5, X, List.length_replicate, List.length_singleton] at hk ⊢; omega) (by omega)
    have h4 : ∀ i, i ≤ 4 * a + 5 → NodeTakes L (d :: '\n' :: (S5 ++ d :: (X ++ R6))) i
        (some (1 + (4 * a + 8 + X.length))) (8 + c + c') := by
      intro i hi
      exact (digit_takes hd (by intro x hx; simp at hx; subst hx; decide) (h45 i hi)).cast rfl (by omega)
    -- the block below the first number of the level
    let T : Str := List.replicate (a + 1) '\t'
    let S3 : Str := List.replicate (4 * a + 3) ' '
    let Z : Str := '\n' :: (S5 ++ d :: (X ++ ['\n']))
    let s6 : Str := T ++ d :: (S3 ++ d :: R)
    have hS3 : ∀ x ∈ S3, Blank x := fun _ hx => .inl (List.mem_replicate.1 hx).2
    have hZ : '\n' :: (S5 ++ d :: (X ++ R6)) = Z ++ s6 := by simp [Z, R6, s6, T, S3]
    have hZl : Z.length = 4 * a + 8 + X.length := by simp [Z, S5]; omega
    have hblock : ∀ i o e, 4 * a < i → i ≤ 4 * a + 4 → LinesTake L false ((T ++ [d]) ++ Z) s6 i o e →
        LinesTake L true [] ('\n' :: (T ++ d :: '\n' :: (S5 ++ d :: (X ++ R6)))) i
          (o.map (1 + (T.length + (1 + (4 * a + 8 + X.length))) + ·)) (8 + c + c' + e) := by
      intro i o e hi hi' h
      refine row_takes (L := L) (first := true) (item := []) (G := ['\n']) (u := T) (o := o) (c' := e)
        (m := 4 * a + 8 + X.length) (call_one hL (w := T) tabs_blank hdw) (j := i) ?_ ?_
      · exact line_takes_here (hT hi hi') hdw (by omega) (h4 (i + 1) (by omega))
      · rw [hZ, ← hZl, List.take_left, List.drop_left]
        exact h
    have hhead : ∀ x, (S3 ++ d :: R).head? = some x → isWs x = true := by
      intro x hx
      simp [S3, List.replicate_succ] at hx
      subst hx; decide
    have hlast : ∀ x : Str, (x ++ Z).getLast? = some '\n' := by intro x; simp [Z, List.getLast?_cons, List.getLast?_append]
    have hnb : NonBlankLine (S3 ++ d :: R) := blank_nonBlank hS3 hdw
    have hcall6 : L.lineNext false ((T ++ [d]) ++ Z) s6 = .call 0 := hR _ _ (hlast _) (blank_nonBlank tabs_blank hdw)
    -- one column too far to the right, the block cannot be read
    have hfail : LinesTake L false ((T ++ [d]) ++ Z) s6 (4 * a + 3) none 4 := by
      have h6 : NodeTakes L (d :: (S3 ++ d :: R)) (4 * a + 3 + 1) (some (1 + 0)) (4 + 0) := by
        refine digit_takes hd hhead (lines_take_stop (j := 4 * a + 4) (call_here hL hnb) ?_)
        exact line_takes_shallow (not_carries (by rw [width_spaces]; omega) hdw R)
      obtain ⟨k', hf⟩ := lineNext_fail hL (item := (T ++ [d]) ++ (S3 ++ d :: R).take 0) hnb (by
        have : d ≠ '\n' := by rintro rfl; revert hdw; decide
        simp [T, List.mem_replicate, Ne.symm this])
      exact row_takes (L := L) (G := []) (m := 0) (o := none) hcall6
        (line_takes_next (hT (by omega) (by omega)) hdw (by omega) h6) (lines_take_fail hf)
    -- in its place it is read
    have hread : LinesTake L false ((T ++ [d]) ++ Z) s6 (4 * a + 2) (some (T.length + (1 + (4 * a + 4 + g)))) 8 := by
      have h1 : NodeTakes L (d :: R) (4 * a + 3 + 1) (some (1 + g)) 4 :=
        digit_takes hd (ender_head hE) (leaf_takes hL (hE.mono (by omega)))
      have h61 : LinesTake L true [] (S3 ++ d :: R) (4 * a + 3) (some (4 * a + 4 + g)) 4 := by
        have := row_takes (L := L) (first := true) (item := []) (G := []) (u := S3) (i := 4 * a + 3) (j := 4 * a + 3)
          (call_here hL hnb) (line_takes_here reaches_spaces hdw (by omega) h1) (stop_takes hL hR (hE.mono (by omega)) _)
        exact this.cast (by simp [S3]; omega) (by omega)
      have h6 : NodeTakes L (d :: (S3 ++ d :: R)) (4 * a + 2 + 1) (some (1 + (4 * a + 4 + g))) 8 :=
        (digit_takes hd hhead h61).cast rfl (by omega)
      have e1 : (S3 ++ d :: R).take (4 * a + 4 + g) = (S3 ++ [d]) ++ R.take g := by
        rw [show S3 ++ d :: R = (S3 ++ [d]) ++ R by simp, show 4 * a + 4 + g = (S3 ++ [d]).length + g by simp [S3],
          List.take_length_add_append]
      have e2 : (S3 ++ d :: R).drop (4 * a + 4 + g) = R.drop g := by
        rw [show S3 ++ d :: R = (S3 ++ [d]) ++ R by simp, show 4 * a + 4 + g = (S3 ++ [d]).length + g by simp [S3],
          List.drop_length_add_append]
      have := row_takes (L := L) (G := []) (o := some 0) (c' := 0) hcall6
        (line_takes_next (hT (by omega) (by omega)) hdw (by omega) h6) (by
          rw [e1, e2, ← List.append_assoc]; exact stop_takes hL hR (hE.mono (by omega)) _)
      exact this.cast (by simp [T]) (by omega)
    -- the first number of the level, both ways
    let hb : Str := '\n' :: (T ++ d :: '\n' :: (S5 ++ d :: (X ++ R6)))
    have hhb : ∀ x, hb.head? = some x → isWs x = true := by intro x hx; simp [hb] at hx; subst hx; decide
    have hbad : NodeTakes L (d :: hb) (4 * a + 2 + 1) none (16 + c + c') := by
      have := digit_takes hd hhb (hblock (4 * a + 3) none 4 (by omega) (by omega) hfail)
      rwa [show 4 + (8 + c + c' + 4) = 16 + c + c' by omega] at this
    let m := 1 + (T.length + (1 + (4 * a + 8 + X.length))) + (T.length + (1 + (4 * a + 4 + g)))
    have hgood : NodeTakes L (d :: hb) (4 * a + 1 + 1) (some (1 + m)) (20 + c + c') :=
      (digit_takes hd hhb (hblock (4 * a + 2) _ 8 (by omega) (by omega) hread)).cast rfl (by omega)
    have etext : levels d (n + 1) a ++ R = '\n' :: (T ++ d :: hb) := by
      simp [levels, hb, T, S5, X, R6]
    let Y : Str := '\n' :: (T ++ d :: (Z ++ (T ++ d :: (S3 ++ [d]))))
    have ehb : hb = Y ++ R := by simp [hb, Y, hZ, s6]
    have hYl : m = Y.length + g := by simp [m, Y, hZl, S3]; omega
    have hlen : (levels d (n + 1) a).length + g = 1 + (T.length + (1 + m)) := by
      have := congrArg List.length etext
      have e2 := congrArg List.length ehb
      simp only [List.length_append, List.length_cons] at this e2
      omega
    refine ⟨1, 16 + c + c', 20 + c + c', by omega, by rw [Nat.pow_succ]; omega, ?_, fun x => ?_⟩
    · rw [etext]
      refine lines_take_stop (j := 4 * a + 2) (call_one hL tabs_blank hdw) ?_
      exact line_takes_here (hT (by omega) (by omega)) hdw (by omega) hbad
    · rw [etext, hlen]
      have := row_takes (L := L) (first := false) (item := x ++ ['\n']) (G := []) (u := T) (o := some 0) (c' := 0)
        (hR _ _ (by simp) (blank_nonBlank tabs_blank hdw))
        (line_takes_next (hT (by omega) (by omega)) hdw (by omega) hgood) (by
          rw [ehb, hYl, List.take_length_add_append, List.drop_length_add_append, ← List.append_assoc]
          exact stop_takes hL hR hE _)
      exact this.cast (by simp) (by omega)

/-- The whole text. -/
theorem slow_takes (n : Nat) (hn : 4 * n + 9 < 2 ^ 32) : NodeTakes L (slowTree d n) 0 (some (slowTree d n).length)
    (8 + 36 * (2 ^ n - 1)) := by
  have hdw := digit_solid hd
  obtain ⟨k, c, c', hk, hsum, hA, hB⟩ := levels_take hL hR hd n 0 [] 0 (by omega) (.inl ⟨by intro x hx; simp at hx, rfl⟩)
  have h1 : NodeTakes L (d :: (levels d n 0 ++ [])) (0 + 1 + 1) (some (1 + k)) (4 + c) :=
    digit_takes hd (levels_head (by simp)) hA
  have hl : LineTakes L true ([' '] ++ d :: (levels d n 0 ++ [])) 0 (some ([' '].length + (1 + k))) 1 (4 + c) :=
    line_takes_first (L := L) (i := 0) (w := []) (w' := [' ']) (reaches_spaces (i := 0))
      (by intro x hx; simp at hx; exact .inl hx) hdw (by decide) h1
  have h2 := row_takes (L := L) (first := true) (item := []) (G := ['\n']) (u := [' ']) (i := 0)
    (call_one hL (w := [' ']) (by intro x hx; simp at hx; exact .inl hx) hdw) hl (hB _)
  have h3 := digit_takes hd (by intro x hx; simp at hx; subst hx; decide) h2
  simp only [List.append_nil] at h3
  refine NodeTakes.cast h3 ?_ ?_
  · simp [slowTree]; omega
  · have := Nat.one_le_two_pow (n := n); omega

end
end

theorem run_as {E : Env} {g : Goal} {p : Pos} {i j : Nat} {x y : Outcome} {tr : List RErr} (h : Run E g p i x j tr) (e : x = y) :
    Run E g p i y j tr := e ▸ h

theorem slow_root {L : Lexer} {s : Str} {c : Char} (hs : s.head? = some c) (hc : isWs c = false) {m : Nat}
    (h : NodeTakes L s 0 (some s.length) m) (toks : List Tok) :
    (∃ ts, Accepts L indentSyntax s Indent.default ts) ∧ ∃ e, Costs L indentSyntax s toks Indent.default (3 + m) e := by
  obtain ⟨x, j, tr, e, hr, ho, hct⟩ := h 0 1002
  cases x with
  | none => simp at ho
  | some y =>
    obtain ⟨n, ts⟩ := y
    simp only [Option.map_some, Option.some.injEq] at ho
    subst ho
    have hw1 : Run (iEnv L) (.rule (.whitespace true 1001)) ⟨s, 0⟩ 0 (some (0, [])) 0 [] :=
      .ws_ok ⟨by simp, by simp, by intro y hy; simp [hs] at hy; subst hy; simp [hc]⟩ (by simp)
    have hw2 : Run (iEnv L) (.rule (.whitespace true 1003)) ⟨[], s.length⟩ j (some (0, [])) j [] :=
      .ws_ok ⟨by simp, by simp, by simp⟩ (by simp)
    have ea : adv (⟨s, 0⟩ : Pos) 0 = ⟨s, 0⟩ := by simp [adv]
    have eb : adv (⟨s, 0⟩ : Pos) s.length = ⟨[], s.length⟩ := by simp [adv]
    have hrun : Run (iEnv L) (.rule (.sequence [.whitespace true 1001, iRule 1002, .whitespace true 1003] 1004)) ⟨s, 0⟩ 0 _ _ _ :=
      .sequence (.seq_cons hw1 (by rw [ea]; exact .seq_cons hr (by rw [eb]; exact .seq_cons hw2 .seq_nil)))
    have hcnt : Counts (iEnv L) (.rule (.sequence [.whitespace true 1001, iRule 1002, .whitespace true 1003] 1004)) ⟨s, 0⟩ 0 _ _ :=
      .sequence (.seq_cons hw1 (.leaf trivial) (by
        rw [ea]; exact .seq_cons hr hct (by rw [eb]; exact .seq_cons hw2 (.leaf trivial) .seq_nil)))
    rw [show 1 + (1 + (m + (1 + 0))) = 3 + m by omega] at hcnt
    exact ⟨⟨ts, _, _, _, rfl, run_as hrun (by simp [before])⟩, _, (C114_costs rfl hrun _ _).2 hcnt⟩

end Verif.Props.Tabs

namespace Verif.Props
open Verif Verif.Spec Tabs

/-- C115: the program examples/indent.rs reads the text of `n` levels, and needs more than `2 ^ n` calls for it. -/
theorem C115_exponential {L : Lexer} (hL : L.Lawful) (hR : ResumesLines L) {d : Char} {v : F64}
    (hd : ReadsNumber L [d] v) (n : Nat) (hn : 4 * n + 9 < 2 ^ 32) (toks : List Tok) :
    (∃ ts, Accepts L indentSyntax (slowTree d n) Indent.default ts) ∧
    ∀ m e, Costs L indentSyntax (slowTree d n) toks Indent.default m e → m + 25 = 36 * 2 ^ n := by
  have h := slow_takes hL hR hd n hn
  obtain ⟨ha, e, hc⟩ := slow_root (c := d) rfl (digit_solid hd) h toks
  refine ⟨ha, fun m e' h' => ?_⟩
  have := (C70_cost_unique h' hc).1
  have := Nat.one_le_two_pow (n := n)
  omega

/-- C115, with the rules as they are read from the program's own text. -/
theorem C115_program {L : Lexer} (hL : L.Lawful) (hs : NoSlash L) (hN : ReadsNumbers L) (hR : ResumesLines L)
    {d : Char} {v : F64} (hd : ReadsNumber L [d] v) :
    ∃ syn : Syntax, (∀ r, SyntaxReturns L indentRules r ↔ r = .ok syn) ∧
      ∀ n, 4 * n + 9 < 2 ^ 32 → ∀ toks, (∃ ts, Accepts L syn (slowTree d n) Indent.default ts) ∧
        ∀ m e, Costs L syn (slowTree d n) toks Indent.default m e → m + 25 = 36 * 2 ^ n :=
  ⟨indentSyntax, indent_syntax hL hs hN, fun n hn toks => C115_exponential hL hR hd n hn toks⟩

theorem levels_length (d : Char) (n a : Nat) : 2 * (levels d n a).length = 22 * n * a + 11 * n * n + 29 * n := by
  induction n generalizing a with
  | zero => simp [levels]
  | succ n ih =>
    have := ih (a + 1)
    simp only [levels, List.length_cons, List.length_append, List.length_replicate, List.length_nil]
    grind

theorem C115_length (d : Char) (n : Nat) : 2 * (slowTree d n).length = 8 + 29 * n + 11 * n * n := by
  have := levels_length d n 0
  simp only [slowTree, List.length_cons]
  omega

/-- C115: a text of 9384 characters that the program reads, in no fewer than `2 ^ 45` calls. -/
theorem C115_forty {L : Lexer} (hL : L.Lawful) (hR : ResumesLines L) {d : Char} {v : F64} (hd : ReadsNumber L [d] v)
    (toks : List Tok) :
    ∃ text : Str, text.length = 9384 ∧ (∃ ts, Accepts L indentSyntax text Indent.default ts) ∧
      ∀ m e, Costs L indentSyntax text toks Indent.default m e → 2 ^ 45 ≤ m := by
  obtain ⟨h1, h2⟩ := C115_exponential hL hR hd 40 (by omega) toks
  refine ⟨slowTree d 40, ?_, h1, fun m e h => ?_⟩
  · have := C115_length d 40
    omega
  · have := h2 m e h
    omega

example (n : Nat) (hn : 4 * n + 9 < 2 ^ 32) (toks : List Tok) (m e : Nat)
    (h : Costs stdLexer indentSyntax (slowTree '1' n) toks Indent.default m e) : m + 25 = 36 * 2 ^ n :=
  (C115_exponential stdLexer_lawful std_resumesLines (exDigit (bits := 0x3ff0000000000000) (by decide)) n hn toks).2 m e h

example : slowTree '7' 1 = c!"7\n 7\n\t7\n\t7\n     7\n\t7   7" := by decide

/-- The calls of the parser for one level, counted. -/
example : callCount stdLexer indentSyntax.rules 40
    ⟨indentSyntax.rules.getLast?.get!, ⟨[], Indent.default⟩, 0, ⟨slowTree '1' 1, 0⟩⟩ = 47 := by
  decide +kernel

end Verif.Props
