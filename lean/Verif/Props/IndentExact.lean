import Verif.Props.IndentTree
/-
Which texts the rules of examples/indent.rs read: C69.
-/
namespace Verif.Props
open Verif Verif.Spec

theorem digits_solid {u : Bool} {cs : Str} : ∀ c ∈ cs.take (Std.digits u cs), isWs c = false := by
  intro c hc
  have : cs.take (Std.digits u cs) = cs.takeWhile fun c => Std.isDigit c || (u && c == '_') := by
    rw [Std.digits]
    exact (List.prefix_iff_eq_take.1 (List.takeWhile_prefix _)).symm
  rw [this] at hc
  have h := List.all_takeWhile (p := fun c => Std.isDigit c || (u && c == '_')) (l := cs)
  rw [List.all_eq_true] at h
  have h := h c hc
  simp at h
  rcases h with h | ⟨_, rfl⟩
  · exact digit_notWs h
  · decide

theorem std_solid {u : Bool} {src : Str} {n : Nat} (h : stdLexer.num u src = some n) :
    ∀ c ∈ src.take n, isWs c = false := by
  intro c hc
  change Std.num u src = some n at h
  unfold Std.num at h
  simp only at h
  split at h
  · cases h
    rw [Nat.add_assoc, List.take_add, List.mem_append] at hc
    rcases hc with hc | hc
    · rw [List.take_add, List.mem_append] at hc
      rcases hc with hc | hc
      · cases src with
        | nil => simp at hc
        | cons y ys =>
          by_cases hy : y = '-'
          · subst hy
            simp [Std.numSign] at hc
            subst hc; decide
          · simp [Std.numSign, hy] at hc
      · exact digits_solid c hc
    · rw [List.take_add, List.mem_append] at hc
      rcases hc with hc | hc
      · generalize List.drop _ src = xs at hc
        cases xs with
        | nil => simp at hc
        | cons y ys =>
          by_cases hy : y = '.'
          · subst hy
            simp only [Std.numFrac, Nat.add_comm 1, List.take_succ_cons, List.mem_cons] at hc
            rcases hc with rfl | hc
            · decide
            · exact digits_solid c hc
          · simp [Std.numFrac, hy] at hc
      · rw [List.drop_drop] at hc
        generalize List.drop _ src = xs at hc
        cases xs with
        | nil => simp at hc
        | cons y ys =>
          simp only [Std.numExp] at hc
          split at hc
          · rename_i hy
            split at hc
            · simp at hc
            · rw [Nat.add_assoc, Nat.add_comm 1, List.take_succ_cons, List.mem_cons] at hc
              rcases hc with rfl | hc
              · rcases hy with rfl | rfl <;> decide
              · rw [List.take_add, List.mem_append] at hc
                rcases hc with hc | hc
                · cases ys with
                  | nil => simp at hc
                  | cons z zs =>
                    unfold Std.expSign at hc
                    split at hc
                    · rename_i e; cases e; simp at hc; subst hc; decide
                    · rename_i e; cases e; simp at hc; subst hc; decide
                    · simp at hc
                · exact digits_solid c hc
          · simp at hc
  · cases h

theorem std_solidNumbers : SolidNumbers stdLexer := fun _ _ h => std_solid h

/-- What is left behind a tree: nothing, or the start of a line that is not blank, or the rest of a line. -/
def Tail (g R : Str) : Prop := R = [] ∨ ((g = [] ∨ g.getLast? = some '\n') ∧ NonBlankLine R)

def EndsSolid (s : Str) : Prop := ∃ x c, s = x ++ [c] ∧ isWs c = false

theorem EndsSolid.append {a b : Str} (h : EndsSolid b) : EndsSolid (a ++ b) := by
  obtain ⟨x, c, rfl, h⟩ := h
  exact ⟨a ++ x, c, by simp, h⟩

theorem EndsSolid.append_of {a b : Str} (ha : EndsSolid a) (hb : b = [] ∨ EndsSolid b) : EndsSolid (a ++ b) := by
  rcases hb with rfl | hb
  · simpa using ha
  · exact hb.append

section
variable {L : Lexer}

def NodeOut (L : Lexer) (p : Pos) (i n : Nat) (ts : List Tok) : Prop :=
  ∃ t s g R, p.src = s ++ (g ++ R) ∧ n = s.length + g.length ∧ AllBlank g ∧ Tail g R ∧ TreeText L i t s (g ++ R) ∧
    ts.map (·.data) = t.data ∧ EndsSolid s

def KidsOut (L : Lexer) (p : Pos) (i n : Nat) (ts : List Tok) : Prop :=
  ∃ cs s g R, p.src = s ++ (g ++ R) ∧ n = s.length + g.length ∧ AllBlank g ∧ Tail g R ∧ KidsText L i cs s (g ++ R) ∧
    ts.map (·.data) = Tree.dataList cs ∧ (s = [] ∨ EndsSolid s)

def RowsOut (L : Lexer) (g0 : Str) (p : Pos) (m n : Nat) (ts : List Tok) : Prop :=
  ∃ cs s g R, g0 ++ p.src = s ++ (g ++ R) ∧ g0.length + n = s.length + g.length ∧ AllBlank g ∧ Tail g R ∧
    RowsText L m cs s (g ++ R) ∧ ts.map (·.data) = Tree.dataList cs ∧ (s = [] ∨ EndsSolid s)

theorem node_inv {id p i n ts j tr} (h : Run (iEnv L) (.rule (iRule id)) p i (some (n, ts)) j tr) :
    ∃ k v n' ts' tr', L.num false p.src = some k ∧ L.parseNum false p.src k = .ok v ∧ n = k + n' ∧
      Run (iEnv L) (iGoal true []) (adv p k) i (some (n', ts')) j tr' ∧
      ts.map (·.data) = .startNode c!"node" :: .f64 c!"num" v :: (ts'.map (·.data) ++ [.endNode c!"node"]) := by
  cases h with
  | node_ok hr h =>
    cases hr
    rename_i us
    generalize ho : some (n, us) = o at h
    cases h with
    | sequence h =>
      cases h with
      | seq_fail => cases ho
      | seq_cons h h' =>
        cases h with
        | num_ok h1 h2 =>
          rename_i o' tr' k v
          cases h' with
          | seq_fail => cases ho
          | seq_cons h h' =>
            cases h' with
            | seq_nil =>
              cases h with
              | lines h =>
                simp only [before] at ho
                cases ho
                exact ⟨_, _, _, _, _, h1, h2, rfl, h, by simp [wrapped, named]⟩

theorem spaces_of_blank : ∀ {s : Str}, (∀ c ∈ s, Blank c) → '\t' ∉ s → s = List.replicate s.length ' '
  | [], _, _ => rfl
  | c :: s, h, ht => by
    have hc : c = ' ' := by
      rcases h c (by simp) with h | h
      · exact h
      · subst h; simp at ht
    have := spaces_of_blank (s := s) (fun x hx => h x (by simp [hx])) fun hx => ht (by simp [hx])
    subst hc
    rw [List.length_cons, List.replicate_succ, ← this]

theorem carries_notab {tab i k : Nat} {s : Str} (h : Carries tab i s k) (ht : '\t' ∉ s) :
    k = i ∧ s = List.replicate i ' ' ++ s.drop i := by
  obtain ⟨h1, h2, h3, h4⟩ := h
  have e := spaces_of_blank h2 fun hx => ht (List.mem_of_mem_take hx)
  rw [List.length_take_of_le h1] at e
  have hk : k = i := by
    rw [e, width_spaces] at h3
    by_cases hki : i < k
    · have := h4 i hki
      have e' : s.take i = List.replicate i ' ' := by
        have : s.take i = (s.take k).take i := by rw [List.take_take, Nat.min_eq_left (by omega)]
        rw [this, e, List.take_replicate, Nat.min_eq_left (by omega)]
      rw [e', width_spaces] at this
      omega
    · omega
  subst hk
  refine ⟨rfl, ?_⟩
  rw [← e, List.take_append_drop]

theorem line_inv {first q i n ts j tr} (ht : '\t' ∉ q.src)
    (h : Run (iEnv L) (.line (iRule 2002) true first) q i (some (n, ts)) j tr) :
    ∃ m b n' j' tr', i ≤ m ∧ (first = false → m = i) ∧ m + 1 < 2 ^ 32 ∧ j = m ∧ q.src = List.replicate m ' ' ++ b ∧
      n = m + n' ∧ Run (iEnv L) (.rule (iRule 2002)) ⟨b, q.off + m⟩ (m + 1) (some (n', ts)) j' tr' := by
  generalize ho : some (n, ts) = o at h
  cases h with
  | line_shallow => cases ho
  | line_deep => cases ho
  | line_body ha hc hd hi h' =>
    rename_i k o j'
    cases o with
    | none => cases ho
    | some x =>
      obtain ⟨n', us⟩ := x
      simp only [before] at ho
      cases ho
      obtain ⟨rfl, e⟩ := carries_notab hc ht
      exact ⟨k, _, n', j', tr, Nat.le_refl _, fun _ => rfl, hi, rfl, e, rfl, by simpa [adv] using h'⟩
  | line_align ha hc hm hi h' =>
    rename_i k m o j'
    cases o with
    | none => cases ho
    | some x =>
      obtain ⟨n', us⟩ := x
      simp only [before] at ho
      cases ho
      obtain ⟨rfl, e⟩ := carries_notab hc ht
      obtain ⟨hm1, hm2, -⟩ := hm
      have e2 := spaces_of_blank hm2 fun hx => ht (List.mem_of_mem_drop (List.mem_of_mem_take hx))
      rw [List.length_take_of_le hm1] at e2
      have hw : width (iEnv L).tab ((q.src.drop k).take m) = m := by rw [e2, width_spaces]
      rw [hw] at hi h' ⊢
      refine ⟨k + m, q.src.drop (k + m), n', j', tr, by omega, by simp, hi, rfl, ?_, rfl, ?_⟩
      · rw [← List.replicate_append_replicate, List.append_assoc, ← e2, ← List.drop_drop, List.take_append_drop]
        exact e
      · simpa [adv, Nat.add_assoc] using h'

theorem lines_inv {first item p i n ts j tr} (h : Run (iEnv L) (iGoal first item) p i (some (n, ts)) j tr) :
    (L.lineNext first item p.src = .done n ∧ ts = []) ∨
    (L.lineNext first item p.src = .call n ∧ ts = []) ∨
    ∃ k n₁ ts₁ j₁ tr₁ n₂ ts₂ tr₂, L.lineNext first item p.src = .call k ∧ n = k + n₁ + n₂ ∧ ts = ts₁ ++ ts₂ ∧
      Run (iEnv L) (.line (iRule 2002) true first) (adv p k) i (some (n₁, ts₁)) j₁ tr₁ ∧
      Run (iEnv L) (iGoal false ((p.src.drop k).take n₁)) (adv p (k + n₁)) j₁ (some (n₂, ts₂)) j tr₂ := by
  generalize ho : some (n, ts) = o at h
  cases h with
  | lines_done h => cases ho; exact .inl ⟨h, rfl⟩
  | lines_fail => cases ho
  | lines_stop h => cases ho; exact .inr (.inl ⟨h, rfl⟩)
  | lines_more h h' h'' =>
    rename_i o _
    cases o with
    | none => cases ho
    | some x =>
      obtain ⟨n', us⟩ := x
      simp only [before] at ho
      cases ho
      exact .inr (.inr ⟨_, _, _, _, _, _, _, _, h, rfl, rfl, h', h''⟩)

theorem getLast_append {a b : Str} (h : b.getLast? = some '\n') : (a ++ b).getLast? = some '\n' := by
  rw [List.getLast?_append, h]; rfl

/-- What the rule of the example reads in a text of at most `N` characters is a tree. -/
theorem indent_out (hL : L.Lawful) (hX : L.Exact) (hS : SolidNumbers L) (N : Nat) :
    (∀ p i n ts j tr id, p.src.length ≤ N → '\t' ∉ p.src →
      Run (iEnv L) (.rule (iRule id)) p i (some (n, ts)) j tr → NodeOut L p i n ts) ∧
    (∀ p i n ts j tr, p.src.length ≤ N → '\t' ∉ p.src →
      Run (iEnv L) (iGoal true []) p i (some (n, ts)) j tr → KidsOut L p i n ts) ∧
    (∀ p i n ts j tr x g0, p.src.length ≤ N → '\t' ∉ p.src → EndsSolid x → AllBlank g0 → Tail g0 p.src →
      Run (iEnv L) (iGoal false (x ++ g0)) p i (some (n, ts)) j tr → RowsOut L g0 p i n ts) := by
  induction N using Nat.strongRecOn with
  | ind N ih =>
    have hnode : ∀ p i n ts j tr id, p.src.length ≤ N → '\t' ∉ p.src →
        Run (iEnv L) (.rule (iRule id)) p i (some (n, ts)) j tr → NodeOut L p i n ts := by
      intro p i n ts j tr id hN ht h
      obtain ⟨k, v, n', ts', tr', h1, h2, rfl, h3, hd⟩ := node_inv h
      obtain ⟨hk1, hk2⟩ := hL.num_some h1
      obtain ⟨cs, s, g, R, e, rfl, hg, hR, hK, hd', hs⟩ := (ih (p.src.length - k) (by omega)).2.1 (adv p k) i n' ts' j tr'
        (by simp [adv]) (fun hx => ht (List.mem_of_mem_drop hx)) h3
      have esrc : p.src = p.src.take k ++ (s ++ (g ++ R)) := by
        rw [← e]; exact (List.take_append_drop k p.src).symm
      have hlen : (p.src.take k).length = k := List.length_take_of_le hk2
      have hsol : EndsSolid (p.src.take k) := by
        have hne : p.src.take k ≠ [] := fun h0 => by rw [h0] at hlen; simp at hlen; omega
        exact ⟨_, _, (List.dropLast_concat_getLast hne).symm, hS _ _ h1 _ (List.getLast_mem hne)⟩
      refine ⟨.node (p.src.take k) v cs, p.src.take k ++ s, g, R, by rw [List.append_assoc]; exact esrc,
        by simp [hlen]; omega, hg, hR, .node ⟨?_, ?_, ?_⟩ hK, ?_, hsol.append_of hs⟩
      · cases hq : p.src.take k with
        | nil => rw [hq] at hlen; simp at hlen; omega
        | cons c cs' => exact ⟨c, cs', rfl, hS _ _ h1 c (by rw [hq]; simp)⟩
      · rw [← esrc, hlen]; exact h1
      · rw [← esrc, hlen]; exact h2
      · rw [hd, hd', Tree.data]
    have hstep : ∀ first p i k n₁ ts₁ j₁ tr₁ n₂ ts₂ j tr₂, p.src.length ≤ N → '\t' ∉ p.src →
        Run (iEnv L) (.line (iRule 2002) true first) (adv p k) i (some (n₁, ts₁)) j₁ tr₁ →
        Run (iEnv L) (iGoal false ((p.src.drop k).take n₁)) (adv p (k + n₁)) j₁ (some (n₂, ts₂)) j tr₂ →
        ∃ m t s s' cs g R, i ≤ m ∧ (first = false → m = i) ∧ m + 1 < 2 ^ 32 ∧
          p.src.drop k = List.replicate m ' ' ++ (s ++ (s' ++ (g ++ R))) ∧
          n₁ + n₂ = m + s.length + s'.length + g.length ∧ TreeText L (m + 1) t s (s' ++ (g ++ R)) ∧
          RowsText L m cs s' (g ++ R) ∧ AllBlank g ∧ Tail g R ∧
          (ts₁ ++ ts₂).map (·.data) = Tree.dataList (t :: cs) ∧ EndsSolid s ∧ (s' = [] ∨ EndsSolid s') := by
      intro first p i k n₁ ts₁ j₁ tr₁ n₂ ts₂ j tr₂ hN ht h h'
      have ht' : '\t' ∉ p.src.drop k := fun hx => ht (List.mem_of_mem_drop hx)
      obtain ⟨m, b, n', j', tr', hm, hmf, hm', hj, e, rfl, hr⟩ := line_inv (by exact ht') h
      obtain rfl := hj.symm
      change p.src.drop k = _ at e
      have hlb : b.length ≤ N := by
        have := congrArg List.length e
        simp at this; omega
      obtain ⟨t, s, g₁, R₁, e₁, rfl, hg₁, hR₁, hT, hd, hs⟩ := hnode ⟨b, _⟩ _ _ _ _ _ _ hlb
        (fun hx => ht' (by rw [e]; simp [hx])) hr
      change b = _ at e₁
      subst e₁
      have e1 : (p.src.drop k).take (m + (s.length + g₁.length)) = (List.replicate m ' ' ++ s) ++ g₁ := by
        rw [e]
        have : List.replicate m ' ' ++ (s ++ (g₁ ++ R₁)) = (List.replicate m ' ' ++ s ++ g₁) ++ R₁ := by simp
        rw [this, List.take_left' (by simp)]
      have e2 : p.src.drop (k + (m + (s.length + g₁.length))) = R₁ := by
        rw [← List.drop_drop, e]
        have : List.replicate m ' ' ++ (s ++ (g₁ ++ R₁)) = (List.replicate m ' ' ++ s ++ g₁) ++ R₁ := by simp
        rw [this, List.drop_left' (by simp)]
      have hs0 : 1 ≤ s.length := by
        obtain ⟨x, c, rfl, -⟩ := hs
        simp
      rw [e1] at h'
      have hadv : adv p (k + (m + (s.length + g₁.length))) = ⟨R₁, p.off + (k + (m + (s.length + g₁.length)))⟩ := by
        simp [adv, e2]
      rw [hadv] at h'
      obtain ⟨cs, s', g, R, e₂, hl, hg, hR, hRows, hd', hs'⟩ := (ih R₁.length (by simp at hlb; omega)).2.2 _ _ _ _ _ _
        (List.replicate m ' ' ++ s) g₁ (Nat.le_refl _) (fun hx => ht' (by rw [e]; simp [hx])) hs.append hg₁ hR₁ h'
      change g₁ ++ R₁ = _ at e₂
      rw [e₂] at hT e
      exact ⟨m, t, s, s', cs, g, R, hm, hmf, hm', e, by omega, hT, hRows, hg, hR, by simp [hd, hd', Tree.dataList], hs, hs'⟩
    refine ⟨hnode, ?_, ?_⟩
    · intro p i n ts j tr hN ht h
      rcases lines_inv h with ⟨hc, rfl⟩ | ⟨hc, rfl⟩ | ⟨k, n₁, ts₁, j₁, tr₁, n₂, ts₂, tr₂, hc, rfl, rfl, h1, h2⟩
      · obtain ⟨rfl, hb⟩ := hL.line_done hc
        exact ⟨[], [], p.src, [], by simp, by simp, hb, .inl rfl, .leaf, rfl, .inl rfl⟩
      · obtain ⟨hk, hb, hnl, hnb, -⟩ := hL.line_call hc
        refine ⟨[], [], p.src.take n, p.src.drop n, by simp, by simp [hk], hb, .inr ⟨?_, hnb⟩, .leaf, rfl, .inl rfl⟩
        rcases hnl with rfl | hnl
        · exact .inl (by simp)
        · exact .inr hnl
      · obtain ⟨hk, hb, hnl, hnb, -⟩ := hL.line_call hc
        obtain ⟨m, t, s, s', cs, g, R, hm, -, hm', e, hl, hT, hRows, hg, hR, hd, hs, hs'⟩ :=
          hstep true p i k n₁ ts₁ j₁ tr₁ n₂ ts₂ j tr₂ hN ht h1 h2
        rcases hnl with rfl | hnl
        · refine ⟨t :: cs, List.replicate m ' ' ++ (s ++ s'), g, R, by simpa using e, by simp; omega, hg, hR,
            .beside hm hm' hT hRows, hd, .inr (hs.append_of hs').append⟩
        · obtain ⟨g', eg⟩ : ∃ g', p.src.take k = g' ++ ['\n'] := List.getLast?_eq_some_iff.1 hnl
          have hlen := congrArg List.length eg
          rw [List.length_take_of_le hk] at hlen
          simp at hlen
          refine ⟨t :: cs, g' ++ '\n' :: (List.replicate m ' ' ++ (s ++ s')), g, R, ?_, by simp; omega, hg, hR,
            .under hm hm' (.cons (fun c hc => hb c (by rw [eg]; simp [hc])) hT hRows), hd,
            .inr (EndsSolid.append (a := g') (EndsSolid.append (a := ['\n']) (hs.append_of hs').append))⟩
          rw [← List.take_append_drop k p.src, e, eg]
          simp
    · intro p i n ts j tr x g0 hN ht hx hg0 hT0 h
      rcases lines_inv h with ⟨hc, rfl⟩ | ⟨hc, rfl⟩ | ⟨k, n₁, ts₁, j₁, tr₁, n₂, ts₂, tr₂, hc, rfl, rfl, h1, h2⟩
      · obtain ⟨rfl, hb⟩ := hL.line_done hc
        refine ⟨[], [], g0 ++ p.src, [], by simp, by simp, ?_, .inl rfl, .nil, rfl, .inl rfl⟩
        intro c hc
        rcases List.mem_append.1 hc with hc | hc
        · exact hg0 c hc
        · exact hb c hc
      · obtain ⟨hk, hb, hnl, hnb, -⟩ := hL.line_call hc
        refine ⟨[], [], g0 ++ p.src.take n, p.src.drop n, by simp, by simp [hk], ?_, .inr ⟨?_, hnb⟩, .nil, rfl, .inl rfl⟩
        · intro c hc
          rcases List.mem_append.1 hc with hc | hc
          · exact hg0 c hc
          · exact hb c hc
        rcases hnl with rfl | hnl
        · rcases hT0 with h0 | ⟨h0, -⟩
          · rw [h0] at hnb
            obtain ⟨a, c, b, hh, -⟩ := hnb
            simp at hh
          · simpa using h0
        · exact .inr (getLast_append hnl)
      · obtain ⟨hk, hb, hnl, hnb, -⟩ := hL.line_call hc
        obtain ⟨m, t, s, s', cs, g, R, hm, hmf, hm', e, hl, hT, hRows, hg, hR, hd, hs, hs'⟩ :=
          hstep false p i k n₁ ts₁ j₁ tr₁ n₂ ts₂ j tr₂ hN ht h1 h2
        obtain rfl := hmf rfl
        have hgap : (g0 ++ p.src.take k).getLast? = some '\n' := by
          rcases hnl with rfl | hnl
          · rcases hT0 with h0 | ⟨h0, -⟩
            · rw [h0] at hnb
              obtain ⟨a, c, b, hh, -⟩ := hnb
              simp at hh
            · rcases h0 with rfl | h0
              · rcases hX.line_newline hc with h0 | ⟨y, w, hy, hw⟩
                · simp at h0
                · exfalso
                  obtain ⟨x', c, rfl, hcw⟩ := hx
                  have hl := congrArg List.getLast? hy
                  simp only [List.append_nil, List.getLast?_append, List.getLast?_singleton, Option.some_or] at hl
                  have hmem : c ∈ '\n' :: w := List.mem_of_getLast? (by
                    rw [List.getLast?_cons] at hl ⊢
                    simpa using hl.symm)
                  have : isWs c = true := by
                    rcases List.mem_cons.1 hmem with rfl | hm
                    · decide
                    · exact hw c hm
                  rw [hcw] at this; cases this
              · simpa using h0
          · exact getLast_append hnl
        obtain ⟨g', eg⟩ : ∃ g', g0 ++ p.src.take k = g' ++ ['\n'] := List.getLast?_eq_some_iff.1 hgap
        have hlen := congrArg List.length eg
        rw [List.length_append, List.length_take_of_le hk] at hlen
        simp at hlen
        refine ⟨t :: cs, g' ++ '\n' :: (List.replicate m ' ' ++ (s ++ s')), g, R, ?_, by simp; omega, hg, hR,
          .cons (fun c hc => ?_) hT hRows, hd,
          .inr (EndsSolid.append (a := g') (EndsSolid.append (a := ['\n']) (hs.append_of hs').append))⟩
        · rw [← List.take_append_drop k p.src, e, ← List.append_assoc, eg]
          simp
        · have : c ∈ g0 ++ p.src.take k := by rw [eg]; simp [hc]
          rcases List.mem_append.1 this with hc | hc
          · exact hg0 c hc
          · exact hb c hc

theorem indent_exact (hL : L.Lawful) (hX : L.Exact) (hS : SolidNumbers L) {text : Str} (ht : '\t' ∉ text) {toks : List Tok}
    (h : Parses L indentSyntax text [] Indent.default (.ok toks)) :
    ∃ t s w w', text = w ++ (s ++ w') ∧ TreeText L 0 t s w' ∧ AllBlank w ∧ AllBlank w' ∧ toks.map (·.data) = t.data := by
  obtain ⟨r, n, ts, j, tr, hr, h, hn, he⟩ := parses_ok_run.1 h
  cases hr
  generalize ho : some (n, ts) = o at h
  cases h with
  | sequence h =>
    cases h with
    | seq_fail => cases ho
    | seq_cons h h' =>
      cases h with
      | ws_ok hw _ =>
        cases h' with
        | seq_fail => cases ho
        | seq_cons h h' =>
          rename_i n₁ ts₁ _ _ _ _
          obtain ⟨t, s, g, R, e, rfl, hg, hR, hT, hd, -⟩ := (indent_out hL hX hS text.length).1 _ _ _ _ _ _ _
            (by simp [adv]) (fun hx => ht (List.mem_of_mem_drop hx)) h
          cases h' with
          | seq_fail => cases ho
          | seq_cons h h' =>
            cases h' with
            | seq_nil =>
              cases h with
              | ws_ok hw' _ =>
                rename_i b _
                simp only [before] at ho
                cases ho
                rename_i a _ _ _
                obtain ⟨hw1, hw2, -⟩ := hw
                change a ≤ text.length at hw1
                change text.drop a = _ at e
                have hsrc : (adv (adv (⟨text, 0⟩ : Pos) a) (s.length + g.length)).src = R := by
                  change (text.drop a).drop _ = R
                  rw [e, ← List.append_assoc, List.drop_left' (by simp)]
                rw [hsrc] at hw'
                have hlen := congrArg List.length e
                simp at hlen
                obtain ⟨hb1, hb2, -⟩ := hw'
                have hall : AllBlank R := by
                  rw [List.take_of_length_le (by omega)] at hb2
                  exact hb2
                have hR0 : R = [] := by
                  rcases hR with hR | ⟨-, hR⟩
                  · exact hR
                  · exact absurd hall (nonBlank_not_allBlank hR)
                subst hR0
                rw [List.append_nil] at hT e
                refine ⟨t, s, text.take a, g, ?_, hT, hw2, hg, by rw [he]; simpa using hd⟩
                rw [← e, List.take_append_drop]

end

/-- C69: the rules of examples/indent.rs read exactly the texts of trees, if the text has no tabs. -/
theorem C69_accepts {L : Lexer} (hL : L.Lawful) (hs : NoSlash L) (hN : ReadsNumbers L) (hR : ResumesLines L)
    (hX : L.Exact) (hS : SolidNumbers L) :
    ∃ syn : Syntax, (∀ r, SyntaxReturns L indentRules r ↔ r = .ok syn) ∧
      ∀ text, '\t' ∉ text → ∀ data,
        (∃ toks, Parses L syn text [] Indent.default (.ok toks) ∧ toks.map (·.data) = data) ↔
        ∃ t s w w', text = w ++ (s ++ w') ∧ TreeText L 0 t s w' ∧ (∀ c ∈ w, isWs c = true) ∧
          (∀ c ∈ w', isWs c = true) ∧ data = t.data := by
  refine ⟨indentSyntax, indent_syntax hL hs hN, fun text ht data => ⟨?_, ?_⟩⟩
  · rintro ⟨toks, h, rfl⟩
    exact indent_exact hL hX hS ht h
  · rintro ⟨t, s, w, w', rfl, hT, hw, hw', rfl⟩
    exact indent_reads hL hR hT hw hw'

/-- C69: any other text is rejected, unless it is so long that columns might overflow. -/
theorem C69_rejects {L : Lexer} (hL : L.Lawful) (hs : NoSlash L) (hN : ReadsNumbers L) (hR : ResumesLines L)
    (hX : L.Exact) (hS : SolidNumbers L) :
    ∃ syn : Syntax, (∀ r, SyntaxReturns L indentRules r ↔ r = .ok syn) ∧
      ∀ text, '\t' ∉ text → 4 * text.length + 1 < 2 ^ 32 →
        ((∃ e toks, Parses L syn text [] Indent.default (.err e toks)) ↔
        ¬ ∃ t s w w', text = w ++ (s ++ w') ∧ TreeText L 0 t s w' ∧ (∀ c ∈ w, isWs c = true) ∧
          (∀ c ∈ w', isWs c = true)) := by
  refine ⟨indentSyntax, indent_syntax hL hs hN, fun text ht hlen => ⟨?_, fun h => ?_⟩⟩
  · rintro ⟨e, toks, h⟩ ⟨t, s, w, w', rfl, hT, hw, hw'⟩
    obtain ⟨toks', h', -⟩ := indent_reads hL hR hT hw hw'
    cases parses_det h h'
  · rcases C25_returns hL (syn := indentSyntax) (ind := Indent.default) (C25_check_sound hL _ (by decide +kernel))
      (C26_check_sound (by decide +kernel)) text (.inl (by simpa [ShortFor, Indent.default] using hlen)) [] with ⟨toks, h'⟩ | h'
    · obtain ⟨t, s, w, w', e, hT, hw, hw', -⟩ := indent_exact hL hX hS ht h'
      exact absurd ⟨t, s, w, w', e, hT, hw, hw'⟩ h
    · exact h'

/-- The first child may stand beside its parent: `1 2` is a tree... -/
theorem beside_treeText : TreeText stdLexer 0 (.node ['1'] ⟨0x3ff0000000000000⟩ [.node ['2'] ⟨0x4000000000000000⟩ []])
    c!"1 2" [] := by
  have h1 := exDigits_read (c := '1') (bits := 0x3ff0000000000000) (by decide)
  have h2 := exDigits_read (c := '2') (bits := 0x4000000000000000) (by decide)
  exact .node (d := ['1']) (s := c!" 2") ⟨h1.1, h1.2 _ (by simp; decide)⟩
    (.beside (m := 1) (s := ['2']) (s' := []) (by omega) (by decide) (.node (d := ['2']) (s := []) ⟨h2.1, h2.2 _ (by simp)⟩ .leaf) .nil)

example : ∃ toks, Parses stdLexer indentSyntax c!"1 2" [] Indent.default (.ok toks) ∧
    toks.map (·.data) = (Tree.node ['1'] ⟨0x3ff0000000000000⟩ [.node ['2'] ⟨0x4000000000000000⟩ []]).data :=
  indent_reads stdLexer_lawful std_resumesLines (w := []) (w' := []) beside_treeText (by simp) (by simp)

/-- ...but no third number may follow on the line. -/
example : Parses stdLexer indentSyntax c!"1 2 3" [] Indent.default (.err ⟨⟨3, 0⟩, .expectedNewLine 2003⟩
    [⟨⟨0, 0⟩, .startNode c!"node"⟩, ⟨⟨0, 1⟩, .f64 c!"num" ⟨0x3ff0000000000000⟩⟩, ⟨⟨2, 0⟩, .startNode c!"node"⟩,
      ⟨⟨2, 1⟩, .f64 c!"num" ⟨0x4000000000000000⟩⟩, ⟨⟨2, 1⟩, .endNode c!"node"⟩]) :=
  ⟨by simp, 40, by decide +kernel⟩

end Verif.Props
