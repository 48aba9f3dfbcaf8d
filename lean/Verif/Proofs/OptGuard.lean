import Verif.Proofs.OptTotal
/-
What the optimizer changes: a syntax whose selects do not try, at the end of the text, the
alternatives outside their tables.
-/
namespace Verif
open Spec

section
variable {refs : List Rule}

theorem Spec.EndGuardedL.length {rs gs : List Rule} (h : EndGuardedL refs rs gs) : rs.length = gs.length :=
  match h with
  | .nil => rfl
  | .cons _ h' => by simp [h'.length]

theorem Spec.EndGuardedL.get {rs gs : List Rule} (h : EndGuardedL refs rs gs) : ∀ (k : Nat),
    (rs[k]? = none ∧ gs[k]? = none) ∨
      ∃ r g, rs[k]? = some r ∧ gs[k]? = some g ∧ EndGuarded refs r g :=
  match h with
  | .nil => by intro k; simp
  | .cons h h' => by
    intro k
    cases k with
    | zero => exact .inr ⟨_, _, rfl, rfl, h⟩
    | succ k => simpa using h'.get k

end

/-! ### The same unique bytes, the same tables -/

/-- Guarding does not change the unique byte of a rule. -/
theorem guarded_byte {refs refsG : List Rule} (hr : EndGuardedL refs refs refsG) :
    ∀ (n : Nat) {r g : Rule}, EndGuarded refs r g → uniqueByte refsG n g = uniqueByte refs n r := by
  intro n
  induction n with
  | zero => intro r g _; simp [uniqueByte]
  | succ n ih =>
    intro r g h
    cases h with
    | whitespace | tag | untilAny | untilAnyOrWs | text | number | fastSelect | lines | optional =>
      simp [uniqueByte]
    | @node a b ix d =>
      cases ix with
      | none => simp [uniqueByte]
      | some ix =>
        unfold uniqueByte
        rcases hr.get ix with ⟨h1, h2⟩ | ⟨q, g, h1, h2, h3⟩
        · simp only [h1, h2]
        · simp only [h1, h2]; exact ih h3
    | select _ _ h =>
      cases h with
      | nil => simp [uniqueByte]
      | cons h h' =>
        cases h' with
        | nil => simp only [uniqueByte]; exact ih h
        | cons _ _ => simp [uniqueByte]
    | @guarded rs gs id t u _ h2 hu h =>
      have hl := h.length
      have hl' := guardFrom_length u gs
      have two : ∀ {l : List Rule} {refs : List Rule}, 2 ≤ l.length →
          uniqueByte refs (n + 1) (.select l id) = .ok none := by
        intro l refs hl
        match l, hl with
        | a :: b :: l, _ => simp [uniqueByte]
      rw [two (by omega), two (by omega)]
    | sequence h =>
      cases h with
      | nil => simp [uniqueByte]
      | cons h h' => simp only [uniqueByte]; exact ih h
    | separateBy h h' => simp only [uniqueByte]; rw [ih h]
    | repeat_ h => simp only [uniqueByte]; rw [ih h]
    | not h =>
      cases h with
      | not h => simp only [uniqueByte]; exact ih h
      | _ => simp [uniqueByte]

theorem uniqueLoop_guarded {refs refsG : List Rule} (hr : EndGuardedL refs refs refsG) {n : Nat} :
    ∀ {rs gs : List Rule}, EndGuardedL refs rs gs → ∀ i t u,
      uniqueLoop refsG n i gs t u = uniqueLoop refs n i rs t u := by
  intro rs gs h
  match h with
  | .nil => intros; simp [uniqueLoop]
  | .cons h h' =>
    intro i t u
    simp only [uniqueLoop, guarded_byte hr n h, uniqueLoop_guarded hr h']

theorem uniqueTable_guarded {refs refsG : List Rule} (hr : EndGuardedL refs refs refsG) {n : Nat}
    {rs gs : List Rule} (h : EndGuardedL refs rs gs) : uniqueTable refsG n gs = uniqueTable refs n rs :=
  uniqueLoop_guarded hr h _ _ _

theorem uniqueLoop_ge {refs : List Rule} {n : Nat} : ∀ {rs : List Rule} {i d t u},
    uniqueLoop refs n i rs d i = .ok (t, u) → i ≤ u
  | [], i, d, t, u, h => by simp [uniqueLoop] at h; omega
  | r :: rs, i, d, t, u, h => by
    unfold uniqueLoop at h
    split at h
    · simp at h; omega
    · split at h
      · split at h
        · have := uniqueLoop_ge h; omega
        · simp at h; omega
      · simp at h; omega
      · simp at h
      · simp at h

/-- The guard has no unique byte. -/
theorem notAtEnd_byte {refs : List Rule} {n : Nat} (hn : 3 ≤ n) (r : Rule) :
    uniqueByte refs n (notAtEnd r) = .ok none := by
  obtain ⟨m, rfl⟩ := Nat.exists_eq_add_of_le' hn
  simp [notAtEnd, nonEnd, uniqueByte]

/-- The loop stops where it did, also when the alternatives after that place are guarded. -/
theorem uniqueLoop_guardFrom {refs : List Rule} {n : Nat} (hn : 3 ≤ n) :
    ∀ {rs : List Rule} {i k d t u}, uniqueLoop refs n i rs d i = .ok (t, u) → u = i + k →
      k < rs.length → uniqueLoop refs n i (guardFrom k rs) d i = .ok (t, u)
  | [], i, k, d, t, u, h, hk, hl => by simp at hl
  | r :: rs, i, 0, d, t, u, h, hk, hl => by
    have ht : t = d := by
      unfold uniqueLoop at h
      split at h
      · simp at h; exact h.1.symm
      · split at h
        · split at h
          · have := uniqueLoop_ge h; omega
          · simp at h; exact h.1.symm
        · simp at h; exact h.1.symm
        · simp at h
        · simp at h
    subst ht
    simp only [guardFrom, List.take_zero, List.drop_zero, List.map_cons, List.nil_append, uniqueLoop,
      notAtEnd_byte hn]
    simp [hk]
  | r :: rs, i, k + 1, d, t, u, h, hk, hl => by
    have he : guardFrom (k + 1) (r :: rs) = r :: guardFrom k rs := by simp [guardFrom]
    rw [he]
    unfold uniqueLoop at h ⊢
    split at h
    · simp at h; omega
    · rename_i h255
      rw [if_neg h255]
      split at h
      · rename_i b hb
        split at h
        · rename_i hd
          simp only [hd, if_true]
          exact uniqueLoop_guardFrom hn h (by omega) (by simpa using hl)
        · simp at h; omega
      · simp at h; omega
      · simp at h
      · simp at h

/-! ### The optimizer and the guarded syntax -/

section
variable {refs refsG : List Rule} {n : Nat} {Q : Rule → Prop}

mutual
/-- The optimized rule is the guarded rule with table look-ups. -/
theorem opt_guarded_sim (hr : EndGuardedL refs refs refsG) (hn : 3 ≤ n) : {r g r' : Rule} →
    optimizeRule refs n r = .ok r' → EndGuarded refs r g → Sim refsG n Q g r'
  | .whitespace _ _, _, _, h, hg => by cases hg; simp [optimizeRule] at h; subst h; exact .whitespace
  | .tag _ _ _ _ _, _, _, h, hg => by cases hg; simp [optimizeRule] at h; subst h; exact .tag
  | .untilAny _ _ _ _, _, _, h, hg => by cases hg; simp [optimizeRule] at h; subst h; exact .untilAny
  | .untilAnyOrWs _ _ _ _, _, _, h, hg => by
    cases hg; simp [optimizeRule] at h; subst h; exact .untilAnyOrWs
  | .text _ _ _, _, _, h, hg => by cases hg; simp [optimizeRule] at h; subst h; exact .text
  | .number _ _ _, _, _, h, hg => by cases hg; simp [optimizeRule] at h; subst h; exact .number
  | .node _ _ _ _, _, _, h, hg => by cases hg; simp [optimizeRule] at h; subst h; exact .node
  | .fastSelect _ _ _ _, _, _, h, hg => by
    cases hg; simp [optimizeRule] at h; subst h; exact Sim.refl _
  | .sequence args id, _, _, h, hg => by
    simp only [optimizeRule] at h
    obtain ⟨args', h1, h2⟩ := Comp.bind_ok.1 h
    cases Comp.pure_ok.1 h2
    cases hg with | sequence hg => exact .sequence (opt_guarded_simL hr hn h1 hg)
  | .separateBy r b _ _ _, _, _, h, hg => by
    simp only [optimizeRule] at h
    obtain ⟨r', h1, h2⟩ := Comp.bind_ok.1 h
    obtain ⟨b', h3, h4⟩ := Comp.bind_ok.1 h2
    cases Comp.pure_ok.1 h4
    cases hg with
    | separateBy hg hg' => exact .separateBy (opt_guarded_sim hr hn h1 hg) (opt_guarded_sim hr hn h3 hg')
  | .repeat_ r _ _, _, _, h, hg => by
    simp only [optimizeRule] at h
    obtain ⟨r', h1, h2⟩ := Comp.bind_ok.1 h
    cases Comp.pure_ok.1 h2
    cases hg with | repeat_ hg => exact .repeat_ (opt_guarded_sim hr hn h1 hg)
  | .lines r _ _, _, _, h, hg => by
    simp only [optimizeRule] at h
    obtain ⟨r', h1, h2⟩ := Comp.bind_ok.1 h
    cases Comp.pure_ok.1 h2
    cases hg with | lines hg => exact .lines (opt_guarded_sim hr hn h1 hg)
  | .optional r _, _, _, h, hg => by
    simp only [optimizeRule] at h
    obtain ⟨r', h1, h2⟩ := Comp.bind_ok.1 h
    cases Comp.pure_ok.1 h2
    cases hg with | optional hg => exact .optional (opt_guarded_sim hr hn h1 hg)
  | .not r _, _, _, h, hg => by
    simp only [optimizeRule] at h
    obtain ⟨r', h1, h2⟩ := Comp.bind_ok.1 h
    cases Comp.pure_ok.1 h2
    cases hg with | not hg => exact .not (opt_guarded_sim hr hn h1 hg)
  | .select args id, _, r', h, hg => by
    simp only [optimizeRule] at h
    obtain ⟨t, u, args', ht, h1, h2⟩ := optimizeSelect_ok (by simp [optimizeRules_eq]) h
    cases hg with
    | select ht' hu hg =>
      obtain ⟨m, ht'⟩ := ht'
      cases uniqueTable_det ht ht'
      have hsim := opt_guarded_simL hr hn h1 hg
      have htg := (uniqueTable_guarded hr (n := n) hg).trans ht
      rcases h2 with ⟨_, rfl⟩ | ⟨h2, hl, rfl⟩ | ⟨h2, hlt, rfl⟩
      · exact .select hsim
      · rw [hl, hg.length] at htg
        refine .fast htg ?_ hsim
        intro he
        have := hg.length
        rw [he] at this
        simp at this
        simp [this] at hl
        omega
      · omega
    | guarded ht' h2' hu hg =>
      obtain ⟨m, ht'⟩ := ht'
      cases uniqueTable_det ht ht'
      have hsim := opt_guarded_simL hr hn h1 hg
      have htg := (uniqueTable_guarded hr (n := n) hg).trans ht
      have hl := hg.length
      rcases h2 with ⟨_, rfl⟩ | ⟨h2, hl, rfl⟩ | ⟨h2, hlt, rfl⟩
      · omega
      · omega
      · exact .guarded rfl (uniqueLoop_guardFrom hn htg (by omega) (by omega)) (by omega) (by omega) hsim
theorem opt_guarded_simL (hr : EndGuardedL refs refs refsG) (hn : 3 ≤ n) :
    {rs gs rs' : List Rule} → Comp.all (optimizeRules refs n rs) = .ok rs' →
      EndGuardedL refs rs gs → SimL refsG n Q gs rs'
  | [], _, _, h, hg => by cases hg; simp [optimizeRules, Comp.all] at h; subst h; exact .nil
  | r :: rs, _, _, h, hg => by
    simp only [optimizeRules] at h
    obtain ⟨a, as, h1, h2, rfl⟩ := Comp.all_cons_ok.1 h
    cases hg with
    | cons hg hg' => exact .cons (opt_guarded_sim hr hn h1 hg) (opt_guarded_simL hr hn h2 hg')
end

mutual
/-- Where the optimizer returns there is a guarded rule. -/
theorem opt_guarded : {r r' : Rule} → optimizeRule refs n r = .ok r' → ∃ g, EndGuarded refs r g
  | .whitespace _ _, _, _ => ⟨_, .whitespace⟩
  | .tag _ _ _ _ _, _, _ => ⟨_, .tag⟩
  | .untilAny _ _ _ _, _, _ => ⟨_, .untilAny⟩
  | .untilAnyOrWs _ _ _ _, _, _ => ⟨_, .untilAnyOrWs⟩
  | .text _ _ _, _, _ => ⟨_, .text⟩
  | .number _ _ _, _, _ => ⟨_, .number⟩
  | .node _ _ _ _, _, _ => ⟨_, .node⟩
  | .fastSelect _ _ _ _, _, _ => ⟨_, .fastSelect⟩
  | .sequence args id, _, h => by
    simp only [optimizeRule] at h
    obtain ⟨args', h1, h2⟩ := Comp.bind_ok.1 h
    obtain ⟨g, hg⟩ := opt_guardedL h1
    exact ⟨_, .sequence hg⟩
  | .separateBy r b _ _ _, _, h => by
    simp only [optimizeRule] at h
    obtain ⟨r', h1, h2⟩ := Comp.bind_ok.1 h
    obtain ⟨b', h3, h4⟩ := Comp.bind_ok.1 h2
    obtain ⟨g, hg⟩ := opt_guarded h1
    obtain ⟨c, hc⟩ := opt_guarded h3
    exact ⟨_, .separateBy hg hc⟩
  | .repeat_ r _ _, _, h => by
    simp only [optimizeRule] at h
    obtain ⟨r', h1, h2⟩ := Comp.bind_ok.1 h
    obtain ⟨g, hg⟩ := opt_guarded h1
    exact ⟨_, .repeat_ hg⟩
  | .lines r _ _, _, h => by
    simp only [optimizeRule] at h
    obtain ⟨r', h1, h2⟩ := Comp.bind_ok.1 h
    obtain ⟨g, hg⟩ := opt_guarded h1
    exact ⟨_, .lines hg⟩
  | .optional r _, _, h => by
    simp only [optimizeRule] at h
    obtain ⟨r', h1, h2⟩ := Comp.bind_ok.1 h
    obtain ⟨g, hg⟩ := opt_guarded h1
    exact ⟨_, .optional hg⟩
  | .not r _, _, h => by
    simp only [optimizeRule] at h
    obtain ⟨r', h1, h2⟩ := Comp.bind_ok.1 h
    obtain ⟨g, hg⟩ := opt_guarded h1
    exact ⟨_, .not hg⟩
  | .select args id, r', h => by
    simp only [optimizeRule] at h
    obtain ⟨t, u, args', ht, h1, h2⟩ := optimizeSelect_ok (by simp [optimizeRules_eq]) h
    obtain ⟨gs, hg⟩ := opt_guardedL h1
    have hl := (uniqueTable_spec ht).1.len
    by_cases hu : u < 2 ∨ u = args.length
    · exact ⟨_, .select ⟨n, ht⟩ hu hg⟩
    · exact ⟨_, .guarded ⟨n, ht⟩ (by omega) (by omega) hg⟩
theorem opt_guardedL : {rs rs' : List Rule} → Comp.all (optimizeRules refs n rs) = .ok rs' →
    ∃ gs, EndGuardedL refs rs gs
  | [], _, _ => ⟨_, .nil⟩
  | r :: rs, _, h => by
    simp only [optimizeRules] at h
    obtain ⟨a, as, h1, h2, rfl⟩ := Comp.all_cons_ok.1 h
    obtain ⟨g, hg⟩ := opt_guarded h1
    obtain ⟨gs, hgs⟩ := opt_guardedL h2
    exact ⟨_, .cons hg hgs⟩
end

mutual
theorem Spec.EndGuarded.det : {r g g' : Rule} → EndGuarded refs r g → EndGuarded refs r g' → g = g'
  | _, _, _, .whitespace, h => by cases h; rfl
  | _, _, _, .tag, h => by cases h; rfl
  | _, _, _, .untilAny, h => by cases h; rfl
  | _, _, _, .untilAnyOrWs, h => by cases h; rfl
  | _, _, _, .text, h => by cases h; rfl
  | _, _, _, .number, h => by cases h; rfl
  | _, _, _, .node, h => by cases h; rfl
  | _, _, _, .fastSelect, h => by cases h; rfl
  | _, _, _, .select ⟨_, ht⟩ hu h, h' => by
    cases h' with
    | select _ _ h' => rw [EndGuardedL.det h h']
    | guarded ht' h2 hu' h' =>
      obtain ⟨_, ht'⟩ := ht'
      cases uniqueTable_det ht ht'
      omega
  | _, _, _, .guarded ⟨_, ht⟩ h2 hu h, h' => by
    cases h' with
    | select ht' hu' h' =>
      obtain ⟨_, ht'⟩ := ht'
      cases uniqueTable_det ht ht'
      omega
    | guarded ht' _ _ h' =>
      obtain ⟨_, ht'⟩ := ht'
      cases uniqueTable_det ht ht'
      rw [EndGuardedL.det h h']
  | _, _, _, .sequence h, h' => by cases h' with | sequence h' => rw [EndGuardedL.det h h']
  | _, _, _, .separateBy h k, h' => by
    cases h' with | separateBy h' k' => rw [EndGuarded.det h h', EndGuarded.det k k']
  | _, _, _, .repeat_ h, h' => by cases h' with | repeat_ h' => rw [EndGuarded.det h h']
  | _, _, _, .lines h, h' => by cases h' with | lines h' => rw [EndGuarded.det h h']
  | _, _, _, .optional h, h' => by cases h' with | optional h' => rw [EndGuarded.det h h']
  | _, _, _, .not h, h' => by cases h' with | not h' => rw [EndGuarded.det h h']
theorem Spec.EndGuardedL.det : {rs gs gs' : List Rule} → EndGuardedL refs rs gs →
    EndGuardedL refs rs gs' → gs = gs'
  | _, _, _, .nil, h => by cases h; rfl
  | _, _, _, .cons h k, h' => by
    cases h' with | cons h' k' => rw [EndGuarded.det h h', EndGuardedL.det k k']
end

end

theorem notAtEnd_ruleOk {refs : List Rule} {r : Rule} (h : RuleOk refs r) : RuleOk refs (notAtEnd r) := by
  refine ruleOk_iff.2 ⟨trivial, ?_⟩
  intro c hc
  cases hc with
  | sequence hc =>
    simp only [List.mem_cons, List.not_mem_nil, or_false] at hc
    rcases hc with rfl | rfl
    · refine ruleOk_iff.2 ⟨trivial, ?_⟩
      intro c hc
      cases hc with
      | not =>
        refine ruleOk_iff.2 ⟨trivial, ?_⟩
        intro c hc
        cases hc with
        | not => exact ruleOk_iff.2 ⟨trivial, fun c hc => nomatch hc⟩
    · exact h

mutual
/-- Guarding keeps the indices in range. -/
theorem guarded_ruleOk {refs refs' : List Rule} (hlen : refs.length = refs'.length) {r g : Rule}
    (h : EndGuarded refs r g) (hr : RuleOk refs r) : RuleOk refs' g := by
  have hr' := ruleOk_iff.1 hr
  match h with
  | .whitespace | .tag | .untilAny | .untilAnyOrWs | .text | .number =>
    exact ruleOk_iff.2 ⟨trivial, fun c hc => nomatch hc⟩
  | .node (c := ix) =>
    refine ruleOk_iff.2 ⟨?_, fun c hc => nomatch hc⟩
    cases ix with
    | none => trivial
    | some i => have := hr'.1; simp only [IndexOk] at this ⊢; omega
  | .fastSelect => exact sim_ruleOk (n := 0) (Q := fun _ => True) hlen (Sim.refl _) hr
  | .select _ _ h =>
    refine ruleOk_iff.2 ⟨trivial, ?_⟩
    intro c hc
    cases hc with
    | select hc => exact guarded_ruleOkL hlen h (fun q hq => hr'.2 q (.select hq)) c hc
  | .guarded (u := u) _ _ _ h =>
    have hall := guarded_ruleOkL hlen h (fun q hq => hr'.2 q (.select hq))
    refine ruleOk_iff.2 ⟨trivial, ?_⟩
    intro c hc
    cases hc with
    | select hc =>
      rcases List.mem_append.1 hc with hc | hc
      · exact hall c (List.mem_of_mem_take hc)
      · obtain ⟨q, hq, rfl⟩ := List.mem_map.1 hc
        exact notAtEnd_ruleOk (hall q (List.mem_of_mem_drop hq))
  | .sequence h =>
    refine ruleOk_iff.2 ⟨trivial, ?_⟩
    intro c hc
    cases hc with
    | sequence hc => exact guarded_ruleOkL hlen h (fun q hq => hr'.2 q (.sequence hq)) c hc
  | .separateBy h h' =>
    refine ruleOk_iff.2 ⟨trivial, ?_⟩
    intro c hc
    cases hc with
    | item => exact guarded_ruleOk hlen h (hr'.2 _ .item)
    | sep => exact guarded_ruleOk hlen h' (hr'.2 _ .sep)
  | .repeat_ h =>
    refine ruleOk_iff.2 ⟨trivial, ?_⟩
    intro c hc
    cases hc with
    | repeat_ => exact guarded_ruleOk hlen h (hr'.2 _ .repeat_)
  | .lines h =>
    refine ruleOk_iff.2 ⟨trivial, ?_⟩
    intro c hc
    cases hc with
    | lines => exact guarded_ruleOk hlen h (hr'.2 _ .lines)
  | .optional h =>
    refine ruleOk_iff.2 ⟨trivial, ?_⟩
    intro c hc
    cases hc with
    | optional => exact guarded_ruleOk hlen h (hr'.2 _ .optional)
  | .not h =>
    refine ruleOk_iff.2 ⟨trivial, ?_⟩
    intro c hc
    cases hc with
    | not => exact guarded_ruleOk hlen h (hr'.2 _ .not)
theorem guarded_ruleOkL {refs refs' : List Rule} (hlen : refs.length = refs'.length)
    {rs gs : List Rule} (h : EndGuardedL refs rs gs) (hr : ∀ r ∈ rs, RuleOk refs r) :
    ∀ g ∈ gs, RuleOk refs' g := by
  match h with
  | .nil => intro r' h; simp at h
  | .cons h h' =>
    intro r' hr'
    rcases List.mem_cons.1 hr' with hr' | hr'
    · rw [hr']; exact guarded_ruleOk hlen h (hr _ (by simp))
    · exact guarded_ruleOkL hlen h' (fun q hq => hr q (by simp [hq])) r' hr'
end

end Verif
