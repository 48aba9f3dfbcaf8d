import Verif.Props.TabTree
/-
What is read from texts with tabs is a tree: C113.
-/
namespace Verif.Props.Tabs
open Verif Verif.Spec Verif.Props

section
variable {L : Lexer}

theorem line_inv {first q i n ts j tr} (h : Run (iEnv L) (.line (iRule 2002) true first) q i (some (n, ts)) j tr) :
    ∃ m u b n' j' tr', (first = false → m = i ∧ ReachesColumn tabs i u) ∧
      (∃ w w', u = w ++ w' ∧ ReachesColumn tabs i w ∧ (∀ c ∈ w', Blank c) ∧ m = i + width tabs w') ∧
      m + 1 < 2 ^ 32 ∧ j = m ∧ q.src = u ++ b ∧
      n = u.length + n' ∧ Run (iEnv L) (.rule (iRule 2002)) ⟨b, q.off + u.length⟩ (m + 1) (some (n', ts)) j' tr' := by
  generalize ho : some (n, ts) = o at h
  cases h with
  | line_shallow => cases ho
  | line_deep => cases ho
  | line_body ha hc hd hi h' =>
    rename_i k o j'
    cases o with
    | none => cases ho
    | some x =>
      obtain ⟨n', us⟩ := x
      simp only [before] at ho
      cases ho
      have hr := reaches_of_carries hc
      have hl : (q.src.take k).length = k := List.length_take_of_le hc.1
      exact ⟨i, q.src.take k, q.src.drop k, n', j', tr, fun _ => ⟨rfl, hr⟩, ⟨q.src.take k, [], by simp, hr, by simp, by simp [width]⟩,
        hi, rfl, (List.take_append_drop k _).symm, by rw [hl], by rw [hl]; simpa [adv] using h'⟩
  | line_align ha hc hm hi h' =>
    rename_i k m o j'
    cases o with
    | none => cases ho
    | some x =>
      obtain ⟨n', us⟩ := x
      simp only [before] at ho
      cases ho
      have hr := reaches_of_carries hc
      obtain ⟨hm1, hm2, -⟩ := hm
      have hl : (q.src.take (k + m)).length = k + m := by
        have := hc.1
        simp at hm1 ⊢; omega
      refine ⟨_, q.src.take (k + m), q.src.drop (k + m), n', j', tr, by simp, ⟨q.src.take k, (q.src.drop k).take m, List.take_add,
        hr, hm2, rfl⟩, hi, rfl, (List.take_append_drop _ _).symm, by rw [hl], ?_⟩
      rw [hl]; exact h'

/-- The text does not go on with a tree that reaches column `l`. -/
def Stop (L : Lexer) (l : Nat) (R : Str) : Prop :=
  ∀ k n v, Carries tabs l R k → L.num false (R.drop k) = some n → L.parseNum false (R.drop k) n = .ok v → False

/-- What is left behind a tree. -/
def TabTail (L : Lexer) (b : Bool) (l : Nat) (g R : Str) : Prop :=
  R = [] ∨ ((g = [] ∨ g.getLast? = some '\n') ∧ NonBlankLine R ∧ (b = true → Stop L l R))

def NodeOut (L : Lexer) (q b : Bool) (p : Pos) (i n : Nat) (ts : List Tok) : Prop :=
  ∃ t l s g R, p.src = s ++ (g ++ R) ∧ n = s.length + g.length ∧ AllBlank g ∧ TabTail L b l g R ∧
    TabTree L tabs b i t l s (g ++ R) ∧ ts.map (·.data) = t.data ∧ EndsSolid s ∧ (q = true → LineEnd (g ++ R))

def KidsOut (L : Lexer) (q b : Bool) (p : Pos) (i n : Nat) (ts : List Tok) : Prop :=
  ∃ cs l s g R, p.src = s ++ (g ++ R) ∧ n = s.length + g.length ∧ AllBlank g ∧ TabTail L b l g R ∧
    TabKids L tabs b i cs l s (g ++ R) ∧ ts.map (·.data) = Tree.dataList cs ∧ (s = [] ∨ EndsSolid s) ∧
    (q = true → LineEnd (g ++ R))

def RowsOut (L : Lexer) (q b : Bool) (g0 : Str) (p : Pos) (m l n : Nat) (ts : List Tok) : Prop :=
  ∃ cs s g R, g0 ++ p.src = s ++ (g ++ R) ∧ g0.length + n = s.length + g.length ∧ AllBlank g ∧ TabTail L b m g R ∧
    TabRows L tabs b m l cs s (g ++ R) ∧ ts.map (·.data) = Tree.dataList cs ∧ (s = [] ∨ EndsSolid s) ∧
    (q = true → LineEnd (g ++ R))

theorem lines_inv {first item p i n ts j tr} (h : Run (iEnv L) (iGoal first item) p i (some (n, ts)) j tr) :
    (L.lineNext first item p.src = .done n ∧ ts = []) ∨
    (L.lineNext first item p.src = .call n ∧ ts = [] ∧
      ∃ j tr, Run (iEnv L) (.line (iRule 2002) true first) (adv p n) i none j tr) ∨
    ∃ k n₁ ts₁ j₁ tr₁ n₂ ts₂ tr₂, L.lineNext first item p.src = .call k ∧ n = k + n₁ + n₂ ∧ ts = ts₁ ++ ts₂ ∧
      Run (iEnv L) (.line (iRule 2002) true first) (adv p k) i (some (n₁, ts₁)) j₁ tr₁ ∧
      Run (iEnv L) (iGoal false ((p.src.drop k).take n₁)) (adv p (k + n₁)) j₁ (some (n₂, ts₂)) j tr₂ := by
  generalize ho : some (n, ts) = o at h
  cases h with
  | lines_done h => cases ho; exact .inl ⟨h, rfl⟩
  | lines_fail => cases ho
  | lines_stop h h' => cases ho; exact .inr (.inl ⟨h, rfl, _, _, h'⟩)
  | lines_more h h' h'' =>
    rename_i o _
    cases o with
    | none => cases ho
    | some x =>
      obtain ⟨n', us⟩ := x
      simp only [before] at ho
      cases ho
      exact .inr (.inr ⟨_, _, _, _, _, _, _, _, h, rfl, rfl, h', h''⟩)

theorem lineEnd_head {s : Str} (h : LineEnd s) : ∀ c, s.head? = some c → isWs c = true := by
  intro c hc
  rcases h with h | ⟨g, R, rfl, h⟩
  · exact h c (List.mem_of_head? hc)
  · cases g with
    | nil => simp at hc; subst hc; decide
    | cons y g => simp at hc; subst hc; exact h y (by simp)

/-- A line that is not blank is not the end of a line. -/
theorem nonBlank_not_lineEnd {s : Str} (h : NonBlankLine s) (h' : LineEnd s) : False := by
  obtain ⟨a, c, b, rfl, hc, ha⟩ := h
  rcases h' with h' | ⟨g, R, e, hg⟩
  · have := h' c (by simp)
    rw [hc] at this; cases this
  · rcases List.append_eq_append_iff.1 e with ⟨x, rfl, e'⟩ | ⟨x, rfl, e'⟩
    · cases x with
      | nil => cases e'; revert hc; decide
      | cons y x =>
        cases e'
        have := hg c (by simp)
        rw [hc] at this; cases this
    · cases x with
      | nil => cases e'; revert hc; decide
      | cons y x =>
        cases e'
        exact absurd rfl (ha '\n' (by simp)).2

theorem ends_suffix {x y : Str} (h : NumbersEndLines L (x ++ y)) (hx : ∀ c, x.getLast? = some c → isWs c = true) :
    NumbersEndLines L y := by
  rintro a b n rfl ha hn
  refine h (x ++ a) b n (by simp) (fun c hc => ?_) hn
  rw [List.getLast?_append] at hc
  cases ha' : a.getLast? with
  | none => rw [ha'] at hc; exact hx c (by simpa using hc)
  | some d => rw [ha'] at hc; simp at hc; subst hc; exact ha _ ha'

theorem ends_behind (hL : L.Lawful) (hX : L.Exact) {x y : Str} (h : NumbersEndLines L (x ++ y)) (hy : LineEnd y) :
    NumbersEndLines L y := by
  rintro a b n rfl ha hn
  cases a with
  | nil =>
    exfalso
    cases b with
    | nil => have := hL.num_some hn; simp at this; omega
    | cons c b =>
      have := lineEnd_head hy c (by simp)
      rw [(hX.num_head hn).1] at this; cases this
  | cons d a =>
    refine h (x ++ d :: a) b n (by simp) (fun c hc => ha c ?_) hn
    rw [List.getLast?_append] at hc
    simpa [List.getLast?_cons] using hc

theorem width_reach {tab l : Nat} {w : Str} (hw : ∀ c ∈ w, Blank c) (h : l ≤ width tab w) (s : Str) :
    ∃ k, k ≤ w.length ∧ Carries tab l (w ++ s) k := by
  have hex : ∃ k, k ≤ w.length ∧ l ≤ width tab (w.take k) := ⟨w.length, Nat.le_refl _, by simpa using h⟩
  obtain ⟨k, ⟨hk, hl⟩, hmin⟩ : ∃ k, (k ≤ w.length ∧ l ≤ width tab (w.take k)) ∧
      ∀ j < k, ¬ (j ≤ w.length ∧ l ≤ width tab (w.take j)) := by
    obtain ⟨k0, hk0⟩ := hex
    induction k0 using Nat.strongRecOn with
    | ind k0 ih =>
      by_cases hj : ∃ j < k0, j ≤ w.length ∧ l ≤ width tab (w.take j)
      · obtain ⟨j, hj, hj'⟩ := hj
        exact ih j hj hj'
      · exact ⟨k0, hk0, fun j hj' hh => hj ⟨j, hj', hh⟩⟩
  refine ⟨k, hk, by simp; omega, ?_, ?_, ?_⟩
  · rw [List.take_append_of_le_length hk]
    exact fun c hc => hw c (List.mem_of_mem_take hc)
  · rw [List.take_append_of_le_length hk]; exact hl
  · intro j hj
    rw [List.take_append_of_le_length (by omega)]
    have := hmin j hj
    simp only [not_and, Nat.not_le] at this
    exact this (by omega)

/-- A line in column `m` that is not a tree in column `l` does not reach column `l`. -/
theorem stop_width {m l : Nat} {w s : Str} {n v} (hml : m ≤ l) (hw : ReachesColumn tabs m w) (hS : Stop L l (w ++ s))
    (hn : L.num false s = some n) (hv : L.parseNum false s n = .ok v) : width tabs w < l := by
  apply Nat.lt_of_not_le
  intro hle
  obtain ⟨k, hk, hc⟩ := width_reach (reaches_blank hw) hle s
  have : k = w.length := by
    by_cases hlt : k < w.length
    · have h1 := hw.2.2.2 k hlt
      have h2 := hc.2.2.1
      rw [List.take_append_of_le_length hk] at h2
      omega
    · omega
  subst this
  exact hS _ n v hc (by simpa using hn) (by simpa using hv)

/-- Stopping at a line means that there is no tree in column `l`. -/
def Stops (L : Lexer) : Prop :=
  ∀ first p i j tr, NumbersEndLines L p.src → Run (iEnv L) (.line (iRule 2002) true first) p i none j tr → Stop L i p.src

theorem call_zero {p : Str} {k : Nat} (h : NonBlankLine p) (hb : ∀ c ∈ p.take k, isWs c = true)
    (hk : k = 0 ∨ (p.take k).getLast? = some '\n') : k = 0 := by
  rcases hk with hk | hk
  · exact hk
  · exfalso
    obtain ⟨x, hx⟩ := List.getLast?_eq_some_iff.1 hk
    refine nonBlank_not_lineEnd h (.inr ⟨x, p.drop k, ?_, fun c hc => hb c (by rw [hx]; simp [hc])⟩)
    conv => lhs; rw [← List.take_append_drop k p, hx]
    simp

/-- What the rule of the example reads in a text of at most `N` characters is a tree. -/
theorem tabs_out (hL : L.Lawful) (hX : L.Exact) (hS : SolidNumbers L) (q b : Bool) (hb : b = true → q = true ∧ Stops L)
    (N : Nat) :
    (∀ p i n ts j tr id, p.src.length ≤ N → (q = true → NumbersEndLines L p.src) →
      Run (iEnv L) (.rule (iRule id)) p i (some (n, ts)) j tr → NodeOut L q b p i n ts) ∧
    (∀ p i n ts j tr, p.src.length ≤ N → (q = true → NumbersEndLines L p.src) → (q = true → LineEnd p.src) →
      Run (iEnv L) (iGoal true []) p i (some (n, ts)) j tr → KidsOut L q b p i n ts) ∧
    (∀ p i l n ts j tr x g0, p.src.length ≤ N → (q = true → NumbersEndLines L p.src) → (q = true → LineEnd (g0 ++ p.src)) →
      EndsSolid x → AllBlank g0 → i ≤ l → TabTail L b l g0 p.src →
      Run (iEnv L) (iGoal false (x ++ g0)) p i (some (n, ts)) j tr → RowsOut L q b g0 p i l n ts) := by
  induction N using Nat.strongRecOn with
  | ind N ih =>
    have hnode : ∀ p i n ts j tr id, p.src.length ≤ N → (q = true → NumbersEndLines L p.src) →
        Run (iEnv L) (.rule (iRule id)) p i (some (n, ts)) j tr → NodeOut L q b p i n ts := by
      intro p i n ts j tr id hN hq h
      obtain ⟨k, v, n', ts', tr', h1, h2, rfl, h3, hd⟩ := node_inv h
      obtain ⟨hk1, hk2⟩ := hL.num_some h1
      have hle : q = true → LineEnd (p.src.drop k) := fun h => hq h [] p.src k rfl (by simp) h1
      have hq' : q = true → NumbersEndLines L (p.src.drop k) := fun h =>
        ends_behind hL hX (x := p.src.take k) (by rw [List.take_append_drop]; exact hq h) (hle h)
      obtain ⟨cs, l, s, g, R, e, rfl, hg, hR, hK, hd', hs, hend⟩ := (ih (p.src.length - k) (by omega)).2.1 (adv p k) i n' ts' j tr'
        (by simp [adv]) hq' hle h3
      have esrc : p.src = p.src.take k ++ (s ++ (g ++ R)) := by
        rw [← e]; exact (List.take_append_drop k p.src).symm
      have hlen : (p.src.take k).length = k := List.length_take_of_le hk2
      have hsol : EndsSolid (p.src.take k) := by
        have hne : p.src.take k ≠ [] := fun h0 => by rw [h0] at hlen; simp at hlen; omega
        exact ⟨_, _, (List.dropLast_concat_getLast hne).symm, hS _ _ h1 _ (List.getLast_mem hne)⟩
      refine ⟨.node (p.src.take k) v cs, l, p.src.take k ++ s, g, R, by rw [List.append_assoc]; exact esrc,
        by simp [hlen]; omega, hg, hR, .node ⟨?_, ?_, ?_⟩ hK, ?_, hsol.append_of hs, hend⟩
      · cases hq : p.src.take k with
        | nil => rw [hq] at hlen; simp at hlen; omega
        | cons c cs' => exact ⟨c, cs', rfl, hS _ _ h1 c (by rw [hq]; simp)⟩
      · rw [← esrc, hlen]; exact h1
      · rw [← esrc, hlen]; exact h2
      · rw [hd, hd', Tree.data]
    have hstep : ∀ first p i k n₁ ts₁ j₁ tr₁ n₂ ts₂ j tr₂, p.src.length ≤ N → (q = true → NumbersEndLines L (p.src.drop k)) →
        Run (iEnv L) (.line (iRule 2002) true first) (adv p k) i (some (n₁, ts₁)) j₁ tr₁ →
        Run (iEnv L) (iGoal false ((p.src.drop k).take n₁)) (adv p (k + n₁)) j₁ (some (n₂, ts₂)) j tr₂ →
        ∃ m u t l s s' cs g R, (first = false → m = i ∧ ReachesColumn tabs i u) ∧
          (∃ w w', u = w ++ w' ∧ ReachesColumn tabs i w ∧ (∀ c ∈ w', Blank c) ∧ m = i + width tabs w') ∧ m + 1 < 2 ^ 32 ∧
          p.src.drop k = u ++ (s ++ (s' ++ (g ++ R))) ∧
          n₁ + n₂ = u.length + s.length + s'.length + g.length ∧ TabTree L tabs b (m + 1) t l s (s' ++ (g ++ R)) ∧
          TabRows L tabs b m l cs s' (g ++ R) ∧ AllBlank g ∧ TabTail L b m g R ∧
          (ts₁ ++ ts₂).map (·.data) = Tree.dataList (t :: cs) ∧ EndsSolid s ∧ (s' = [] ∨ EndsSolid s') ∧
          (q = true → LineEnd (g ++ R)) := by
      intro first p i k n₁ ts₁ j₁ tr₁ n₂ ts₂ j tr₂ hN hq h h'
      obtain ⟨m, u, b', n', j', tr', hmf, hu, hm', hj, e, rfl, hr⟩ := line_inv h
      obtain rfl := hj.symm
      change p.src.drop k = _ at e
      have hlb : b'.length ≤ N := by
        have := congrArg List.length e
        simp at this; omega
      have hub : ∀ c ∈ u, isWs c = true := by
        obtain ⟨w, w', rfl, hw, hw', -⟩ := hu
        intro c hc
        rcases List.mem_append.1 hc with hc | hc
        · exact (blank_ws (reaches_blank hw) c hc).1
        · exact (blank_ws hw' c hc).1
      have hq' : q = true → NumbersEndLines L b' := fun h =>
        ends_suffix (x := u) (by rw [← e]; exact hq h) fun c hc => hub c (List.mem_of_getLast? hc)
      obtain ⟨t, l, s, g₁, R₁, e₁, rfl, hg₁, hR₁, hT, hd, hs, hend⟩ := hnode ⟨b', _⟩ _ _ _ _ _ _ hlb hq' hr
      change b' = _ at e₁
      subst e₁
      have e1 : (p.src.drop k).take (u.length + (s.length + g₁.length)) = (u ++ s) ++ g₁ := by
        rw [e]
        have : u ++ (s ++ (g₁ ++ R₁)) = (u ++ s ++ g₁) ++ R₁ := by simp
        rw [this, List.take_left' (by simp)]
      have e2 : p.src.drop (k + (u.length + (s.length + g₁.length))) = R₁ := by
        rw [← List.drop_drop, e]
        have : u ++ (s ++ (g₁ ++ R₁)) = (u ++ s ++ g₁) ++ R₁ := by simp
        rw [this, List.drop_left' (by simp)]
      have hs0 : 1 ≤ s.length := by
        obtain ⟨x, c, rfl, -⟩ := hs
        simp
      have hq₁ : q = true → NumbersEndLines L R₁ := by
        intro hq0
        rcases hR₁ with rfl | ⟨hg0, hnb, -⟩
        · intro a b'' n' hab _ hn
          simp at hab
          obtain ⟨rfl, rfl⟩ := hab
          have := hL.num_some hn; simp at this; omega
        · rcases hg0 with rfl | hg0
          · exact absurd (hend hq0) (fun h => nonBlank_not_lineEnd hnb (by simpa using h))
          · refine ends_suffix (x := s ++ g₁) (by rw [List.append_assoc]; exact hq' hq0) fun c hc => ?_
            rw [getLast_append hg0] at hc
            cases hc; decide
      rw [e1] at h'
      have hadv : adv p (k + (u.length + (s.length + g₁.length))) = ⟨R₁, p.off + (k + (u.length + (s.length + g₁.length)))⟩ := by
        simp [adv, e2]
      rw [hadv] at h'
      obtain ⟨cs, s', g, R, e₂, hl, hg, hR, hRows, hd', hs', hend'⟩ := (ih R₁.length (by simp at hlb; omega)).2.2 _ _ l _ _ _ _
        (u ++ s) g₁ (Nat.le_refl _) hq₁ hend hs.append hg₁ (Nat.le_of_succ_le (tabTree_lim hT)) hR₁ h'
      change g₁ ++ R₁ = _ at e₂
      rw [e₂] at hT e
      exact ⟨m, u, t, l, s, s', cs, g, R, hmf, hu, hm', e, by omega, hT, hRows, hg, hR, by simp [hd, hd', Tree.dataList], hs, hs', hend'⟩
    have hcall : ∀ {p : Pos} {k}, (k = 0 ∨ (p.src.take k).getLast? = some '\n') → (q = true → NumbersEndLines L p.src) →
        q = true → NumbersEndLines L (p.src.drop k) := by
      intro p k hk hq hq0
      refine ends_suffix (x := p.src.take k) (by rw [List.take_append_drop]; exact hq hq0) fun c hc => ?_
      rcases hk with rfl | hk
      · simp at hc
      · rw [hk] at hc; cases hc; decide
    refine ⟨hnode, ?_, ?_⟩
    · intro p i n ts j tr hN hq hle h
      rcases lines_inv h with ⟨hc, rfl⟩ | ⟨hc, rfl, j', tr', hline⟩ | ⟨k, n₁, ts₁, j₁, tr₁, n₂, ts₂, tr₂, hc, rfl, rfl, h1, h2⟩
      · obtain ⟨rfl, hb'⟩ := hL.line_done hc
        exact ⟨[], i, [], p.src, [], by simp, by simp, hb', .inl rfl, .leaf, rfl, .inl rfl, by simpa using hle⟩
      · obtain ⟨hk, hb', hnl, hnb, -⟩ := hL.line_call hc
        refine ⟨[], i, [], p.src.take n, p.src.drop n, by simp, by simp [hk], hb', .inr ⟨?_, hnb, fun hb0 => ?_⟩, .leaf, rfl, .inl rfl,
          by simpa using hle⟩
        · rcases hnl with rfl | hnl
          · exact .inl (by simp)
          · exact .inr hnl
        · exact (hb hb0).2 _ _ _ _ _ (hcall hnl hq (hb hb0).1) hline
      · obtain ⟨hk, hb', hnl, hnb, -⟩ := hL.line_call hc
        obtain ⟨m, u, t, l, s, s', cs, g, R, -, ⟨w, w', rfl, hw, hw', hm⟩, hm', e, hl, hT, hRows, hg, hR, hd, hs, hs', hend⟩ :=
          hstep true p i k n₁ ts₁ j₁ tr₁ n₂ ts₂ j tr₂ hN (hcall hnl hq) h1 h2
        refine ⟨t :: cs, m, p.src.take k ++ (w ++ (w' ++ (s ++ s'))), g, R, ?_, ?_, hg, hR,
          .block ?_ hw hw' hm hm' hT hRows, hd, .inr ?_, hend⟩
        · conv => lhs; rw [← List.take_append_drop k p.src, e]
          simp
        · simp at hl ⊢; omega
        · rcases hnl with rfl | hnl
          · exact .inl (by simp)
          · obtain ⟨g', eg⟩ : ∃ g', p.src.take k = g' ++ ['\n'] := List.getLast?_eq_some_iff.1 hnl
            exact .inr ⟨g', eg, fun c hc => hb' c (by rw [eg]; simp [hc])⟩
        · exact (EndsSolid.append (EndsSolid.append (hs.append_of hs'))).append
    · intro p i l n ts j tr x g0 hN hq hle hx hg0 hil hT0 h
      rcases lines_inv h with ⟨hc, rfl⟩ | ⟨hc, rfl, j', tr', hline⟩ | ⟨k, n₁, ts₁, j₁, tr₁, n₂, ts₂, tr₂, hc, rfl, rfl, h1, h2⟩
      · obtain ⟨rfl, hb'⟩ := hL.line_done hc
        refine ⟨[], [], g0 ++ p.src, [], by simp, by simp, ?_, .inl rfl, .nil, rfl, .inl rfl, by simpa using hle⟩
        intro c hc
        rcases List.mem_append.1 hc with hc | hc
        · exact hg0 c hc
        · exact hb' c hc
      · obtain ⟨hk, hb', hnl, hnb, -⟩ := hL.line_call hc
        refine ⟨[], [], g0 ++ p.src.take n, p.src.drop n, by simp, by simp [hk], ?_, .inr ⟨?_, hnb, fun hb0 => ?_⟩, .nil, rfl, .inl rfl,
          by simpa using hle⟩
        · intro c hc
          rcases List.mem_append.1 hc with hc | hc
          · exact hg0 c hc
          · exact hb' c hc
        · rcases hnl with rfl | hnl
          · rcases hT0 with h0 | ⟨h0, -⟩
            · rw [h0] at hnb
              obtain ⟨a, c, b, hh, -⟩ := hnb
              simp at hh
            · simpa using h0
          · exact .inr (getLast_append hnl)
        · exact (hb hb0).2 _ _ _ _ _ (hcall hnl hq (hb hb0).1) hline
      · obtain ⟨hk, hb', hnl, hnb, -⟩ := hL.line_call hc
        obtain ⟨m, u, t, l', s, s', cs, g, R, hmf, -, hm', e, hl, hT, hRows, hg, hR, hd, hs, hs', hend⟩ :=
          hstep false p i k n₁ ts₁ j₁ tr₁ n₂ ts₂ j tr₂ hN (hcall hnl hq) h1 h2
        obtain ⟨rfl, hw⟩ := hmf rfl
        have hgap : (g0 ++ p.src.take k).getLast? = some '\n' := by
          rcases hnl with rfl | hnl
          · rcases hT0 with h0 | ⟨h0, -⟩
            · rw [h0] at hnb
              obtain ⟨a, c, b, hh, -⟩ := hnb
              simp at hh
            · rcases h0 with rfl | h0
              · rcases hX.line_newline hc with h0 | ⟨y, w, hy, hw⟩
                · simp at h0
                · exfalso
                  obtain ⟨x', c, rfl, hcw⟩ := hx
                  have hl := congrArg List.getLast? hy
                  simp only [List.append_nil, List.getLast?_append, List.getLast?_singleton, Option.some_or] at hl
                  have hmem : c ∈ '\n' :: w := List.mem_of_getLast? (by
                    rw [List.getLast?_cons] at hl ⊢
                    simpa using hl.symm)
                  have : isWs c = true := by
                    rcases List.mem_cons.1 hmem with rfl | hm
                    · decide
                    · exact hw c hm
                  rw [hcw] at this; cases this
              · simpa using h0
          · exact getLast_append hnl
        obtain ⟨g', eg⟩ : ∃ g', g0 ++ p.src.take k = g' ++ ['\n'] := List.getLast?_eq_some_iff.1 hgap
        have hlen := congrArg List.length eg
        rw [List.length_append, List.length_take_of_le hk] at hlen
        simp at hlen
        refine ⟨t :: cs, g' ++ '\n' :: (u ++ (s ++ s')), g, R, ?_, by simp; omega, hg, hR,
          .cons (fun c hc => ?_) hw (fun hb0 => ?_) hT hRows, hd,
          .inr (EndsSolid.append (a := g') (EndsSolid.append (a := ['\n']) (hs.append_of hs').append)), hend⟩
        · rw [← List.take_append_drop k p.src, e, ← List.append_assoc, eg]
          simp
        · have : c ∈ g0 ++ p.src.take k := by rw [eg]; simp [hc]
          rcases List.mem_append.1 this with hc | hc
          · exact hg0 c hc
          · exact hb' c hc
        · rcases hT0 with h0 | ⟨-, hnb0, hstop⟩
          · rw [h0] at hnb
            obtain ⟨a, c, b, hh, -⟩ := hnb
            simp at hh
          · obtain rfl := call_zero hnb0 hb' hnl
            rw [List.drop_zero] at e
            have hst := hstop hb0
            rw [e] at hst
            cases hT with
            | node hnum _ => exact stop_width hil hw hst (by simpa using hnum.2.1) (by simpa using hnum.2.2)

theorem node_none_inv {id p i j tr n v} (h : Run (iEnv L) (.rule (iRule id)) p i none j tr)
    (hn : L.num false p.src = some n) (hv : L.parseNum false p.src n = .ok v) :
    ∃ j' tr', Run (iEnv L) (iGoal true []) (adv p n) i none j' tr' := by
  cases h with
  | node_fail hr h =>
    cases hr
    obtain ⟨o, ho⟩ : ∃ o : Outcome, o = none := ⟨none, rfl⟩
    rw [← ho] at h
    cases h with
    | sequence h =>
      cases h with
      | seq_fail h =>
        cases h with
        | num_none h => cases hn.symm.trans h
        | num_bad h hv' =>
          cases hn.symm.trans h
          cases hv.symm.trans hv'
      | seq_cons h h' =>
        cases h with
        | num_ok h1 h2 =>
          rename_i o' _ _ _
          cases hn.symm.trans h1
          cases h' with
          | seq_fail h =>
            cases h with
            | lines h => exact ⟨_, _, h⟩
          | seq_cons h h' =>
            cases h' with
            | seq_nil => cases ho

/-- A block of lines does not fail where every number ends its line. -/
theorem lines_never (hL : L.Lawful) (hX : L.Exact) (hS : SolidNumbers L) (hR : ResumesLines L) (N : Nat) :
    ∀ first item p i j tr, p.src.length ≤ N → NumbersEndLines L p.src →
      (first = false → p.src = [] ∨ (item.getLast? = some '\n' ∧ NonBlankLine p.src)) →
      Run (iEnv L) (iGoal first item) p i none j tr → False := by
  induction N using Nat.strongRecOn with
  | ind N ih =>
    intro first item p i j tr hN hq hI h
    obtain ⟨o, ho⟩ : ∃ o : Outcome, o = none := ⟨none, rfl⟩
    rw [← ho] at h
    cases h with
    | lines_done => cases ho
    | lines_stop => cases ho
    | lines_fail h =>
      obtain ⟨hf, -⟩ := hL.line_fail h
      subst hf
      rcases hI rfl with h0 | ⟨h0, hnb⟩
      · have : AllBlank p.src := by rw [h0]; exact fun c hc => by simp at hc
        cases (lineNext_done hL this).symm.trans h
      · have := hR _ _ h0 hnb
        cases this.symm.trans h
    | lines_more hc h h' =>
      rename_i o _
      cases o with
      | some x => cases ho
      | none =>
        obtain ⟨hk, hb', hnl, hnb, -⟩ := hL.line_call hc
        rename_i k n₁ ts₁ j₁ tr₁ tr₂
        have hq1 : NumbersEndLines L (p.src.drop k) := by
          refine ends_suffix (x := p.src.take k) (by rw [List.take_append_drop]; exact hq) fun c hc => ?_
          rcases hnl with rfl | hnl
          · simp at hc
          · rw [hnl] at hc; cases hc; decide
        obtain ⟨m, u, b', n', j', tr', hmf, hu, hm', hj, e, rfl, hr⟩ := line_inv h
        change p.src.drop k = _ at e
        have hub : ∀ c ∈ u, isWs c = true := by
          obtain ⟨w, w', rfl, hw, hw', -⟩ := hu
          intro c hc
          rcases List.mem_append.1 hc with hc | hc
          · exact (blank_ws (reaches_blank hw) c hc).1
          · exact (blank_ws hw' c hc).1
        have hq2 : NumbersEndLines L b' :=
          ends_suffix (x := u) (by rw [← e]; exact hq1) fun c hc => hub c (List.mem_of_getLast? hc)
        obtain ⟨t, l, s, g₁, R₁, e₁, rfl, hg₁, hR₁, hT, hd, hs, hend⟩ :=
          (tabs_out hL hX hS true false (by simp) b'.length).1 ⟨b', _⟩ _ _ _ _ _ _ (Nat.le_refl _) (fun _ => hq2) hr
        change b' = _ at e₁
        subst e₁
        have e1 : (p.src.drop k).take (u.length + (s.length + g₁.length)) = (u ++ s) ++ g₁ := by
          rw [e]
          have : u ++ (s ++ (g₁ ++ R₁)) = (u ++ s ++ g₁) ++ R₁ := by simp
          rw [this, List.take_left' (by simp)]
        have e2 : p.src.drop (k + (u.length + (s.length + g₁.length))) = R₁ := by
          rw [← List.drop_drop, e]
          have : u ++ (s ++ (g₁ ++ R₁)) = (u ++ s ++ g₁) ++ R₁ := by simp
          rw [this, List.drop_left' (by simp)]
        have hs0 : 1 ≤ s.length := by
          obtain ⟨x, c, rfl, -⟩ := hs
          simp
        have hlen : R₁.length < N := by
          have := congrArg List.length e
          simp at this; omega
        have hadv : adv p (k + (u.length + (s.length + g₁.length))) = ⟨R₁, p.off + (k + (u.length + (s.length + g₁.length)))⟩ := by
          simp [adv, e2]
        rw [hadv, e1] at h'
        rcases hR₁ with rfl | ⟨hg0, hnb₁, -⟩
        · refine ih 0 (by simpa using hlen) _ _ _ _ _ _ (by simp) ?_ (fun _ => .inl rfl) h'
          intro a b'' n' hab _ hn
          simp at hab
          obtain ⟨rfl, rfl⟩ := hab
          have := hL.num_some hn; simp at this; omega
        · rcases hg0 with rfl | hg0
          · exact nonBlank_not_lineEnd hnb₁ (by simpa using hend rfl)
          · refine ih R₁.length hlen _ _ _ _ _ _ (Nat.le_refl _) ?_ (fun _ => .inr ⟨getLast_append hg0, hnb₁⟩) h'
            refine ends_suffix (x := s ++ g₁) (by rw [List.append_assoc]; exact hq2) fun c hc => ?_
            rw [getLast_append hg0] at hc
            cases hc; decide

theorem stops (hL : L.Lawful) (hX : L.Exact) (hS : SolidNumbers L) (hR : ResumesLines L) : Stops L := by
  intro first p i j tr hq h k n v hc hn hv
  have hblank : ∀ c ∈ p.src.take k, isWs c = true := fun c h => (blank_ws hc.2.1 c h).1
  have hq1 : NumbersEndLines L (p.src.drop k) :=
    ends_suffix (x := p.src.take k) (by rw [List.take_append_drop]; exact hq) fun c h => hblank c (List.mem_of_getLast? h)
  have hlast : LineEnd ((p.src.drop k).drop n) := hq1 [] _ n rfl (by simp) hn
  have hq2 : NumbersEndLines L ((p.src.drop k).drop n) :=
    ends_behind hL hX (x := (p.src.drop k).take n) (by rw [List.take_append_drop]; exact hq1) hlast
  have hhead : ∀ c, (p.src.drop k).head? = some c → isWs c = false := by
    intro c hc
    cases hd : p.src.drop k with
    | nil => rw [hd] at hc; simp at hc
    | cons d ds =>
      rw [hd] at hc hn
      simp at hc
      subst hc
      exact (hX.num_head hn).1
  have key : ∀ i' j' tr', Run (iEnv L) (.rule (iRule 2002)) (adv p k) i' none j' tr' → False := by
    intro i' j' tr' hr
    obtain ⟨j'', tr'', hr'⟩ := node_none_inv hr hn hv
    exact lines_never hL hX hS hR _ true [] _ _ _ _ (Nat.le_refl _) hq2 (by simp) hr'
  obtain ⟨o, ho⟩ : ∃ o : Outcome, o = none := ⟨none, rfl⟩
  rw [← ho] at h
  cases h with
  | line_shallow h => exact h ⟨k, hc⟩
  | line_deep ha h hd =>
    rw [carries_unique h hc] at hd
    have := hhead _ hd
    revert this; decide
  | line_body ha h hd hi h' =>
    rename_i o _
    cases o with
    | some x => cases ho
    | none =>
      rw [carries_unique h hc] at h'
      exact key _ _ _ h'
  | line_align ha h hm hi h' =>
    rename_i k' m o _
    cases o with
    | some x => cases ho
    | none =>
      obtain rfl := carries_unique h hc
      have hm0 : m = 0 := by
        obtain ⟨h1, h2, -⟩ := hm
        cases m with
        | zero => rfl
        | succ m =>
          cases hd : p.src.drop k' with
          | nil => rw [hd] at h1; simp at h1
          | cons d ds =>
            exfalso
            have h3 := hhead d (by rw [hd]; rfl)
            have h4 := h2 d (by rw [hd]; simp)
            rcases h4 with rfl | rfl <;> revert h3 <;> decide
      subst hm0
      exact key _ _ _ h'

theorem tabs_exact (hL : L.Lawful) (hX : L.Exact) (hS : SolidNumbers L) (q b : Bool) (hb : b = true → q = true ∧ Stops L)
    {text : Str} (ht : q = true → NumbersEndLines L text) {toks : List Tok}
    (h : Parses L indentSyntax text [] Indent.default (.ok toks)) :
    ∃ t l s w w', text = w ++ (s ++ w') ∧ TabTree L tabs b 0 t l s w' ∧ AllBlank w ∧ AllBlank w' ∧
      toks.map (·.data) = t.data := by
  obtain ⟨r, n, ts, j, tr, hr, h, hn, he⟩ := parses_ok_run.1 h
  cases hr
  generalize ho : some (n, ts) = o at h
  cases h with
  | sequence h =>
    cases h with
    | seq_fail => cases ho
    | seq_cons h h' =>
      cases h with
      | ws_ok hw _ =>
        cases h' with
        | seq_fail => cases ho
        | seq_cons h h' =>
          rename_i n₁ ts₁ _ _ _ _
          have hq : q = true → NumbersEndLines L (adv (⟨text, 0⟩ : Pos) _).src := fun hq0 =>
            ends_suffix (x := text.take _) (by rw [adv, List.take_append_drop]; exact ht hq0) fun c hc =>
              hw.2.1 c (List.mem_of_getLast? hc)
          obtain ⟨t, l, s, g, R, e, rfl, hg, hR, hT, hd, -⟩ := (tabs_out hL hX hS q b hb text.length).1 _ _ _ _ _ _ _
            (by simp [adv]) hq h
          cases h' with
          | seq_fail => cases ho
          | seq_cons h h' =>
            cases h' with
            | seq_nil =>
              cases h with
              | ws_ok hw' _ =>
                rename_i b' _
                simp only [before] at ho
                cases ho
                rename_i a _ _ _
                obtain ⟨hw1, hw2, -⟩ := hw
                change a ≤ text.length at hw1
                change text.drop a = _ at e
                have hsrc : (adv (adv (⟨text, 0⟩ : Pos) a) (s.length + g.length)).src = R := by
                  change (text.drop a).drop _ = R
                  rw [e, ← List.append_assoc, List.drop_left' (by simp)]
                rw [hsrc] at hw'
                have hlen := congrArg List.length e
                simp at hlen
                obtain ⟨hb1, hb2, -⟩ := hw'
                have hall : AllBlank R := by
                  rw [List.take_of_length_le (by omega)] at hb2
                  exact hb2
                have hR0 : R = [] := by
                  rcases hR with hR | ⟨-, hR, -⟩
                  · exact hR
                  · exact absurd hall (nonBlank_not_allBlank hR)
                subst hR0
                rw [List.append_nil] at hT e
                refine ⟨t, l, s, text.take a, g, ?_, hT, hw2, hg, by rw [he]; simpa using hd⟩
                rw [← e, List.take_append_drop]

end

end Verif.Props.Tabs
