import Verif.Spec.StackDepth
import Verif.Proofs.ByteCost
import Verif.Proofs.RefsCost
import Verif.Proofs.ConvertDepthRules
/-
The functions of `syntax` with bounds on their depth: what is returned, and when.
-/
namespace Verif
open Spec

/-! ### Several calls -/

theorem outerDepths_le {d : Nat} : ∀ {rs : List Rule}, outerDepths rs ≤ d ↔ ∀ r ∈ rs, outerDepth r ≤ d
  | [] => by simp [outerDepths]
  | r :: rs => by
    rw [outerDepths, Nat.max_le, outerDepths_le]
    simp

theorem optDepths_le {refs : List Rule} {d : Nat} : ∀ {rs : List Rule}, optDepths refs rs ≤ d ↔ ∀ r ∈ rs, optDepth refs r ≤ d
  | [] => by simp [optDepths]
  | r :: rs => by
    rw [optDepths, Nat.max_le, optDepths_le]
    simp

theorem tableDepth_le {refs args : List Rule} {d : Nat} :
    tableDepth refs args ≤ d ↔ ∀ a ∈ reached refs [] args, chainLength refs a ≤ d := by
  unfold tableDepth
  generalize reached refs [] args = l
  induction l with
  | nil => simp
  | cons a l ih => simp only [List.map_cons, List.foldr_cons, Nat.max_le, ih, List.mem_cons, forall_eq_or_imp]

theorem all_map_to {f : Rule → Comp Rule} {g : Rule → Rule} {w : Rule → Nat} {d : Nat} (h : ∀ r r', f r = .ok r' ↔ r' = g r ∧ w r ≤ d) :
    ∀ {rs rs' : List Rule}, Comp.all (rs.map f) = .ok rs' ↔ rs' = rs.map g ∧ ∀ r ∈ rs, w r ≤ d
  | [], rs' => by simp [Comp.all, eq_comm]
  | r :: rs, rs' => by
    rw [List.map_cons, Comp.all_cons_ok]
    simp only [h, all_map_to h, List.map_cons, List.mem_cons, forall_eq_or_imp]
    constructor
    · rintro ⟨a, as, ⟨rfl, h1⟩, ⟨rfl, h2⟩, rfl⟩
      exact ⟨rfl, h1, h2⟩
    · rintro ⟨rfl, h1, h2⟩
      exact ⟨_, _, ⟨rfl, h1⟩, ⟨rfl, h2⟩, rfl⟩

/-! ### `update_refs` -/

theorem updateRefsTo_iff {names : List Str} : ∀ (d : Nat) (r r' : Rule),
    r.updateRefsTo names d = .ok r' ↔ r' = r.updateRefs names ∧ outerDepth r ≤ d
  | 0, r, r' => by
    have : 1 ≤ outerDepth r := by cases r <;> simp [outerDepth]
    constructor
    · intro h; simp [Rule.updateRefsTo] at h
    · rintro ⟨-, h⟩; omega
  | d + 1, r, r' => by
    have ih := updateRefsTo_iff (names := names) d
    have hl : ∀ {rs rs' : List Rule}, Comp.all (rs.map (Rule.updateRefsTo names d)) = .ok rs' ↔
        rs' = Rule.updateRefsL names rs ∧ outerDepths rs ≤ d := by
      intro rs rs'
      rw [all_map_to ih, outerDepths_le, updateRefsL_map]
    cases r with
    | sequence args id | select args id =>
      simp only [Rule.updateRefsTo, Rule.updateRefs, outerDepth, Comp.bind_ok, hl, Nat.add_le_add_iff_right, Pure.pure, Comp.ok.injEq]
      constructor
      · rintro ⟨a, ⟨rfl, h⟩, rfl⟩
        exact ⟨rfl, h⟩
      · rintro ⟨rfl, h⟩
        exact ⟨_, ⟨rfl, h⟩, rfl⟩
    | separateBy r b o t id =>
      simp only [Rule.updateRefsTo, Rule.updateRefs, outerDepth, Comp.bind_ok, ih, Nat.add_le_add_iff_right, Pure.pure, Comp.ok.injEq,
        Nat.max_le]
      constructor
      · rintro ⟨a, ⟨rfl, h⟩, b, ⟨rfl, h'⟩, rfl⟩
        exact ⟨rfl, h, h'⟩
      · rintro ⟨rfl, h, h'⟩
        exact ⟨_, ⟨rfl, h⟩, _, ⟨rfl, h'⟩, rfl⟩
    | repeat_ r o id | lines r o id | optional r id | not r id =>
      simp only [Rule.updateRefsTo, Rule.updateRefs, outerDepth, Comp.bind_ok, ih, Nat.add_le_add_iff_right, Pure.pure, Comp.ok.injEq]
      constructor
      · rintro ⟨a, ⟨rfl, h⟩, rfl⟩
        exact ⟨rfl, h⟩
      · rintro ⟨rfl, h⟩
        exact ⟨_, ⟨rfl, h⟩, rfl⟩
    | node name prop i id =>
      cases i <;> simp [Rule.updateRefsTo, Rule.updateRefs, outerDepth, eq_comm]
    | _ => simp [Rule.updateRefsTo, Rule.updateRefs, outerDepth, eq_comm]

/-! ### `unique_byte` -/

variable {refs : List Rule}

theorem uniqueByte_within {n d : Nat} {r : Rule} {o : Option UInt8} (h : uniqueByte refs n r = .ok o) :
    uniqueByte refs d r = .ok o ↔ chainLength refs r ≤ d := by
  have key : ∀ {d o m}, uniqueByteCounted refs d r = .ok (o, m) → m ≤ d := by
    intro d
    clear h
    induction d generalizing r with
    | zero => intro o m h; simp [uniqueByteCounted] at h
    | succ d ih =>
      intro o m h
      rcases uniqueByteCounted_cases refs r with ⟨c, hc, e⟩ | ⟨h1, h2, o', e⟩ | ⟨-, e⟩
      · rw [e] at h
        obtain ⟨⟨o', k⟩, h1, h2⟩ := Comp.bind_ok.1 h
        cases h2
        have := ih h1
        omega
      · rw [e] at h
        cases h
        omega
      · rw [e] at h
        cases h
  constructor
  · intro h
    rw [← uniqueByteCounted_erase] at h
    obtain ⟨k, h⟩ := Comp.erase_ok.1 h
    rw [chain_length (uniqueByteCounted_chain h)]
    exact key h
  · intro hd
    have h' := h
    rw [← uniqueByteCounted_erase] at h'
    obtain ⟨k, h'⟩ := Comp.erase_ok.1 h'
    have hc := uniqueByteCounted_chain h'
    rw [chain_length hc] at hd
    obtain ⟨o', h2⟩ := chain_counted hc
    have h3 : uniqueByte refs k r = .ok o' := by rw [← uniqueByteCounted_erase, h2]; rfl
    cases uniqueByte_det ⟨_, h⟩ ⟨_, h3⟩
    exact uniqueByte_mono hd h3

/-! ### The table of a select -/

theorem uniqueLoop_returns_at {d : Nat} : ∀ (rs : List Rule) (i : Nat) (t : Table) (u : Nat),
    (∀ pre r post, rs = pre ++ r :: post → Pre refs i t pre → ∃ o, uniqueByte refs d r = .ok o) →
    ∃ x, uniqueLoop refs d i rs t u = .ok x
  | [], _, _, _, _ => ⟨_, by simp [uniqueLoop]; rfl⟩
  | r :: rs, i, t, u, h => by
    by_cases hi : 255 ≤ i
    · exact ⟨_, by unfold uniqueLoop; rw [if_pos hi]⟩
    obtain ⟨o, hn⟩ := h [] r rs rfl ⟨by simp; omega, by simp, .nil⟩
    cases o with
    | none => exact ⟨_, by unfold uniqueLoop; rw [if_neg hi, hn]⟩
    | some b =>
      by_cases ht : t b = 255
      · obtain ⟨x, hm⟩ := uniqueLoop_returns_at rs (i + 1) (t.set b (UInt8.ofNat i)) (i + 1)
          fun pre r' post e hp => h (r :: pre) r' post (by rw [e]; rfl) ((pre_cons ⟨d, hn⟩ ht (by omega)).2 hp)
        refine ⟨x, ?_⟩
        unfold uniqueLoop
        rw [if_neg hi, hn]
        simpa only [ht, if_true] using hm
      · exact ⟨(t, u), by unfold uniqueLoop; rw [if_neg hi, hn]; simp only [ht, if_false]⟩

theorem mem_reached {a : Rule} : ∀ {rs pre : List Rule}, a ∈ reached refs pre rs →
    ∃ mid post, rs = mid ++ a :: post ∧ ComesAfter refs (pre ++ mid)
  | [], pre, h => by simp [reached] at h
  | r :: rs, pre, h => by
    rw [reached] at h
    split at h
    · rename_i hc
      rcases List.mem_cons.1 h with rfl | h
      · exact ⟨[], rs, rfl, by simpa using hc⟩
      · obtain ⟨mid, post, rfl, h2⟩ := mem_reached h
        exact ⟨r :: mid, post, rfl, by simpa using h2⟩
    · cases h

theorem comesAfter_prefix {pre mid : List Rule} (h : ComesAfter refs (pre ++ mid)) : ComesAfter refs pre := by
  obtain ⟨h1, h2, h3⟩ := h
  simp only [List.length_append] at h1
  exact ⟨by omega, fun a ha => h2 a (by simp [ha]), (List.pairwise_append.1 h3).1⟩

theorem reached_mem {a : Rule} : ∀ {mid pre post : List Rule}, ComesAfter refs (pre ++ mid) →
    a ∈ reached refs pre (mid ++ a :: post)
  | [], pre, post, h => by
    rw [List.nil_append, reached, if_pos (by simpa using h)]
    simp
  | r :: mid, pre, post, h => by
    rw [List.cons_append, reached, if_pos (comesAfter_prefix h)]
    exact .tail _ (reached_mem (by simpa using h))

theorem uniqueTable_within {n d : Nat} {args : List Rule} {x} (h : uniqueTable refs n args = .ok x) :
    uniqueTable refs d args = .ok x ↔ tableDepth refs args ≤ d := by
  rw [tableDepth_le]
  constructor
  · intro hd a ha
    obtain ⟨mid, post, rfl, hc⟩ := mem_reached ha
    obtain ⟨o, ho⟩ := uniqueTable_looks (by simpa using hc) hd
    exact (uniqueByte_within ho).1 ho
  · intro hd
    obtain ⟨y, hy⟩ : ∃ y, uniqueTable refs d args = .ok y := by
      refine uniqueLoop_returns_at args 0 _ 0 fun pre r post e hp => ?_
      subst e
      have hc := pre_iff.1 hp
      obtain ⟨o, ho⟩ := uniqueTable_looks hc h
      exact ⟨o, (uniqueByte_within ho).2 (hd r (reached_mem (by simpa using hc)))⟩
    rw [hy, uniqueTable_det h hy]

/-! ### `optimize_rule` -/

theorem all_map_within {f g : Rule → Comp Rule} {w : Rule → Nat} {d : Nat}
    (h : ∀ r r', g r = .ok r' → (f r = .ok r' ↔ w r ≤ d)) (hfg : ∀ r r', f r = .ok r' → ∀ r'', g r = .ok r'' → r' = r'') :
    ∀ {rs rs' : List Rule}, Comp.all (rs.map g) = .ok rs' → (Comp.all (rs.map f) = .ok rs' ↔ ∀ r ∈ rs, w r ≤ d)
  | [], rs', hg => by simpa [Comp.all] using hg
  | r :: rs, rs', hg => by
    rw [List.map_cons, Comp.all_cons_ok] at hg
    obtain ⟨a, as, h1, h2, rfl⟩ := hg
    rw [List.map_cons, Comp.all_cons_ok]
    simp only [List.mem_cons, forall_eq_or_imp, ← all_map_within h hfg h2, ← h r a h1]
    constructor
    · rintro ⟨a', as', h3, h4, e⟩
      cases e
      exact ⟨h3, h4⟩
    · rintro ⟨h3, h4⟩
      exact ⟨_, _, h3, h4, rfl⟩

theorem optimizeRule_to : ∀ {d : Nat} {r r' : Rule}, optimizeRuleTo refs d r = .ok r' → optimizeRule refs d r = .ok r'
  | 0, r, r', h => by simp [optimizeRuleTo] at h
  | d + 1, r, r', h => by
    have ih : ∀ {r r'}, optimizeRuleTo refs d r = .ok r' → optimizeRule refs (d + 1) r = .ok r' := fun h =>
      optimizeRule_mono (Nat.le_succ d) _ _ (optimizeRule_to h)
    cases r with
    | sequence args id =>
      simp only [optimizeRuleTo, optimizeRule, optimizeRules_eq] at h ⊢
      obtain ⟨a, h1, h2⟩ := Comp.bind_ok.1 h
      exact Comp.bind_ok.2 ⟨a, Comp.all_mono (fun _ _ _ => ih) h1, h2⟩
    | select args id =>
      simp only [optimizeRuleTo, optimizeRule, optimizeRules_eq] at h ⊢
      obtain ⟨t, u, as, h1, h2, h3⟩ := optimizeSelect_ok (by simp) h
      have h1' := uniqueTable_mono (Nat.le_succ d) h1
      have h2' : Comp.all (args.map (optimizeRule refs (d + 1))) = .ok as := Comp.all_mono (fun _ _ _ => ih) h2
      obtain ⟨r'', h4⟩ := optimizeSelect_of (id := id) h1' h2'
      obtain ⟨t', u', as', h5, h6, h7⟩ := optimizeSelect_ok (by simp) h4
      rw [h1'] at h5
      rw [h2'] at h6
      cases h5
      cases h6
      rw [h4]
      rcases h3 with ⟨e1, rfl⟩ | ⟨e1, e2, rfl⟩ | ⟨e1, e2, rfl⟩ <;> rcases h7 with ⟨f1, rfl⟩ | ⟨f1, f2, rfl⟩ | ⟨f1, f2, rfl⟩ <;>
        first | rfl | omega
    | separateBy r b o t id =>
      simp only [optimizeRuleTo, optimizeRule] at h ⊢
      obtain ⟨a, h1, h2⟩ := Comp.bind_ok.1 h
      obtain ⟨b, h3, h4⟩ := Comp.bind_ok.1 h2
      exact Comp.bind_ok.2 ⟨a, ih h1, Comp.bind_ok.2 ⟨b, ih h3, h4⟩⟩
    | repeat_ r o id | lines r o id | optional r id | not r id =>
      simp only [optimizeRuleTo, optimizeRule] at h ⊢
      obtain ⟨a, h1, h2⟩ := Comp.bind_ok.1 h
      exact Comp.bind_ok.2 ⟨a, ih h1, h2⟩
    | _ => simpa [optimizeRuleTo, optimizeRule] using h

theorem optimizeRule_det {n m : Nat} {r a b : Rule} (h : optimizeRule refs n r = .ok a) (h' : optimizeRule refs m r = .ok b) :
    a = b := by
  have h1 := optimizeRule_mono (Nat.le_max_left n m) _ _ h
  have h2 := optimizeRule_mono (Nat.le_max_right n m) _ _ h'
  rw [h1] at h2
  exact Comp.ok.inj h2

theorem optimizeRule_within {n : Nat} : ∀ {d : Nat} {r r' : Rule}, optimizeRule refs n r = .ok r' →
    (optimizeRuleTo refs d r = .ok r' ↔ optDepth refs r ≤ d)
  | 0, r, r', h => by
    have : 1 ≤ optDepth refs r := by cases r <;> simp [optDepth]
    constructor
    · intro h; simp [optimizeRuleTo] at h
    · intro h; omega
  | d + 1, r, r', h => by
    have ih : ∀ r r', optimizeRule refs n r = .ok r' → (optimizeRuleTo refs d r = .ok r' ↔ optDepth refs r ≤ d) :=
      fun _ _ => optimizeRule_within
    have det : ∀ r r', optimizeRuleTo refs d r = .ok r' → ∀ r'', optimizeRule refs n r = .ok r'' → r' = r'' :=
      fun _ _ h _ h' => optimizeRule_det (optimizeRule_to h) h'
    have det' : ∀ {rs : List Rule} {x y : List Rule}, Comp.all (rs.map (optimizeRuleTo refs d)) = .ok x → Comp.all (rs.map (optimizeRule refs n)) = .ok y →
        x = y := by
      intro rs
      induction rs with
      | nil => intro x y h h'; simp [Comp.all] at h h'; rw [h, h']
      | cons r rs ih =>
        intro x y h h'
        rw [List.map_cons, Comp.all_cons_ok] at h h'
        obtain ⟨a, as, h1, h2, rfl⟩ := h
        obtain ⟨b, bs, h3, h4, rfl⟩ := h'
        rw [det _ _ h1 _ h3, ih h2 h4]
    cases r with
    | sequence args id =>
      simp only [optimizeRuleTo, optimizeRule, optimizeRules_eq, optDepth] at h ⊢
      obtain ⟨a, h1, h2⟩ := Comp.bind_ok.1 h
      cases h2
      have := all_map_within ih det h1
      rw [Nat.add_le_add_iff_right, optDepths_le, ← this]
      constructor
      · intro h
        obtain ⟨b, h2, h3⟩ := Comp.bind_ok.1 h
        cases h3
        exact h2
      · intro h
        exact Comp.bind_ok.2 ⟨a, h, rfl⟩
    | select args id =>
      simp only [optimizeRuleTo, optimizeRule, optimizeRules_eq, optDepth] at h ⊢
      obtain ⟨t, u, as, h1, h2, h3⟩ := optimizeSelect_ok (by simp) h
      have h4 := uniqueTable_within (d := d) h1
      have h5 := all_map_within ih det h2
      rw [Nat.add_le_add_iff_right, Nat.max_le, optDepths_le, ← h4, ← h5]
      constructor
      · intro h
        obtain ⟨t', u', as', h6, h7, h8⟩ := optimizeSelect_ok (by simp) h
        rw [h6, h7]
        cases uniqueTable_det h1 h6
        cases det' h7 h2
        exact ⟨rfl, rfl⟩
      · rintro ⟨h6, h7⟩
        obtain ⟨r'', h8⟩ := optimizeSelect_of (id := id) h6 h7
        obtain ⟨t', u', as', h9, h10, h11⟩ := optimizeSelect_ok (by simp) h8
        rw [h6] at h9
        rw [h7] at h10
        cases h9
        cases h10
        rw [h8]
        rcases h3 with ⟨e1, rfl⟩ | ⟨e1, e2, rfl⟩ | ⟨e1, e2, rfl⟩ <;> rcases h11 with ⟨f1, rfl⟩ | ⟨f1, f2, rfl⟩ | ⟨f1, f2, rfl⟩ <;>
          first | rfl | omega
    | separateBy r b o t id =>
      simp only [optimizeRuleTo, optimizeRule, optDepth] at h ⊢
      obtain ⟨a, h1, h2⟩ := Comp.bind_ok.1 h
      obtain ⟨b', h3, h4⟩ := Comp.bind_ok.1 h2
      cases h4
      rw [Nat.add_le_add_iff_right, Nat.max_le, ← ih _ _ h1, ← ih _ _ h3]
      constructor
      · intro h
        obtain ⟨x, h5, h6⟩ := Comp.bind_ok.1 h
        obtain ⟨y, h7, h8⟩ := Comp.bind_ok.1 h6
        cases h8
        exact ⟨h5, h7⟩
      · rintro ⟨h5, h6⟩
        exact Comp.bind_ok.2 ⟨_, h5, Comp.bind_ok.2 ⟨_, h6, rfl⟩⟩
    | repeat_ r o id | lines r o id | optional r id | not r id =>
      simp only [optimizeRuleTo, optimizeRule, optDepth] at h ⊢
      obtain ⟨a, h1, h2⟩ := Comp.bind_ok.1 h
      cases h2
      rw [Nat.add_le_add_iff_right, ← ih _ _ h1]
      constructor
      · intro h
        obtain ⟨x, h5, h6⟩ := Comp.bind_ok.1 h
        cases h6
        exact h5
      · intro h5
        exact Comp.bind_ok.2 ⟨_, h5, rfl⟩
    | _ => simpa [optimizeRuleTo, optimizeRule, optDepth] using h

/-! ### The bound -/

theorem tableDepth_bound {args : List Rule} (h : ∀ a ∈ args, OuterPart refs a) : tableDepth refs args ≤ outerSizes refs :=
  tableDepth_le.2 fun a ha => chainLength_le (h a ((reached_sublist args []).subset ha))

mutual
theorem optDepth_bound : ∀ {r : Rule}, OuterPart refs r → optDepth refs r ≤ outerDepth r + outerSizes refs
  | .whitespace _ _, _ | .tag _ _ _ _ _, _ | .untilAny _ _ _ _, _ | .untilAnyOrWs _ _ _ _, _ | .text _ _ _, _
  | .number _ _ _, _ | .node _ _ _ _, _ | .fastSelect _ _ _ _, _ => by simp only [optDepth, outerDepth]; omega
  | .select args id, h => by
    have hc : ∀ a ∈ args, OuterPart refs a := fun a ha => h.child (.select ha) (by simp [NotTable])
    have h1 := tableDepth_bound hc
    have h2 := optDepths_bound hc
    simp only [optDepth, outerDepth]
    omega
  | .sequence args id, h => by
    have h2 := optDepths_bound fun a ha => h.child (.sequence ha) (by simp [NotTable])
    simp only [optDepth, outerDepth]
    omega
  | .separateBy r b _ _ _, h => by
    have h1 := optDepth_bound (h.child .item (by simp [NotTable]))
    have h2 := optDepth_bound (h.child .sep (by simp [NotTable]))
    simp only [optDepth, outerDepth]
    omega
  | .repeat_ r _ _, h => by
    have h1 := optDepth_bound (h.child .repeat_ (by simp [NotTable]))
    simp only [optDepth, outerDepth]
    omega
  | .lines r _ _, h => by
    have h1 := optDepth_bound (h.child .lines (by simp [NotTable]))
    simp only [optDepth, outerDepth]
    omega
  | .optional r _, h => by
    have h1 := optDepth_bound (h.child .optional (by simp [NotTable]))
    simp only [optDepth, outerDepth]
    omega
  | .not r _, h => by
    have h1 := optDepth_bound (h.child .not (by simp [NotTable]))
    simp only [optDepth, outerDepth]
    omega
theorem optDepths_bound : ∀ {rs : List Rule}, (∀ r ∈ rs, OuterPart refs r) → optDepths refs rs ≤ outerDepths rs + outerSizes refs
  | [], _ => by simp [optDepths]
  | r :: rs, h => by
    have h1 := optDepth_bound (h r (by simp))
    have h2 := optDepths_bound (rs := rs) fun a ha => h a (List.mem_cons_of_mem _ ha)
    simp only [optDepths, outerDepths]
    omega
end

mutual
theorem outerDepth_le_opt : ∀ r : Rule, outerDepth r ≤ optDepth refs r
  | .whitespace _ _ | .tag _ _ _ _ _ | .untilAny _ _ _ _ | .untilAnyOrWs _ _ _ _ | .text _ _ _
  | .number _ _ _ | .node _ _ _ _ | .fastSelect _ _ _ _ => by simp only [optDepth, outerDepth]; omega
  | .select args id | .sequence args id => by
    have h2 := outerDepths_le_opt args
    simp only [optDepth, outerDepth]
    omega
  | .separateBy r b _ _ _ => by
    have h1 := outerDepth_le_opt r
    have h2 := outerDepth_le_opt b
    simp only [optDepth, outerDepth]
    omega
  | .repeat_ r _ _ | .lines r _ _ | .optional r _ | .not r _ => by
    have h1 := outerDepth_le_opt r
    simp only [optDepth, outerDepth]
    omega
theorem outerDepths_le_opt : ∀ rs : List Rule, outerDepths rs ≤ optDepths refs rs
  | [] => by simp [outerDepths]
  | r :: rs => by
    have h1 := outerDepth_le_opt r
    have h2 := outerDepths_le_opt rs
    simp only [optDepths, outerDepths]
    omega
end

mutual
theorem outerDepth_le_rule : ∀ r : Rule, outerDepth r ≤ ruleDepth r
  | .whitespace _ _ | .tag _ _ _ _ _ | .untilAny _ _ _ _ | .untilAnyOrWs _ _ _ _ | .text _ _ _
  | .number _ _ _ | .node _ _ _ _ | .fastSelect _ _ _ _ => by simp only [ruleDepth, outerDepth]; omega
  | .select args id | .sequence args id => by
    have h2 := outerDepths_le_rule args
    simp only [ruleDepth, outerDepth]
    omega
  | .separateBy r b _ _ _ => by
    have h1 := outerDepth_le_rule r
    have h2 := outerDepth_le_rule b
    simp only [ruleDepth, outerDepth]
    omega
  | .repeat_ r _ _ | .lines r _ _ | .optional r _ | .not r _ => by
    have h1 := outerDepth_le_rule r
    simp only [ruleDepth, outerDepth]
    omega
theorem outerDepths_le_rule : ∀ rs : List Rule, outerDepths rs ≤ ruleDepthL rs
  | [] => by simp [outerDepths]
  | r :: rs => by
    have h1 := outerDepth_le_rule r
    have h2 := outerDepths_le_rule rs
    simp only [ruleDepthL, outerDepths]
    omega
end

mutual
theorem outerDepth_le_size : ∀ r : Rule, outerDepth r ≤ outerSize r
  | .whitespace _ _ | .tag _ _ _ _ _ | .untilAny _ _ _ _ | .untilAnyOrWs _ _ _ _ | .text _ _ _
  | .number _ _ _ | .node _ _ _ _ | .fastSelect _ _ _ _ => by simp only [outerSize, outerDepth]; omega
  | .select args id | .sequence args id => by
    have h2 := outerDepths_le_size args
    simp only [outerSize, outerDepth]
    omega
  | .separateBy r b _ _ _ => by
    have h1 := outerDepth_le_size r
    have h2 := outerDepth_le_size b
    simp only [outerSize, outerDepth]
    omega
  | .repeat_ r _ _ | .lines r _ _ | .optional r _ | .not r _ => by
    have h1 := outerDepth_le_size r
    simp only [outerSize, outerDepth]
    omega
theorem outerDepths_le_size : ∀ rs : List Rule, outerDepths rs ≤ outerSizes rs
  | [] => by simp [outerDepths]
  | r :: rs => by
    have h1 := outerDepth_le_size r
    have h2 := outerDepths_le_size rs
    simp only [outerSizes, outerDepths]
    omega
end

/-! ### `convert` -/

section
open CM Convert
variable {strings : List (Str × Str)}

theorem fle_readRuleTo_fuel {n m : Nat} (h : n ≤ m) : ∀ (d : Nat) p c,
    FLe (readRuleTo strings n d p c) (readRuleTo strings m d p c)
  | 0, _, _ => .timeout _
  | d + 1, p, c => fle_rule_step h (fle_readRuleTo_fuel h d) p c

theorem fle_nodesLoopTo_fuel {n m d : Nat} (h : n ≤ m) : ∀ {k l : Nat}, k ≤ l → ∀ c s,
    FLe (nodesLoopTo strings d n k c s) (nodesLoopTo strings d m l c s)
  | 0, _, _, _, _ => .timeout _
  | k + 1, 0, hk, _, _ => absurd hk (by omega)
  | k + 1, l + 1, hk, c, s => by
    refine FLe.bind (FLe.attempt ?_) ?_
    · exact fle_loop_reader h fun _ _ => .tryRead (.refl _) (.tryRead (.refl _)
        (.tryRead ((FLe.refl _).bind fun _ => fle_readRuleTo_fuel h ..) (.refl _)))
    intro a
    cases a with
    | none => exact .refl _
    | some a => exact (FLe.refl _).bind fun c => fle_nodesLoopTo_fuel h (by omega) c _

end

theorem convertToM_raw (d n : Nat) (data : List Tok) :
    convertToM d n data = rawToM d n data >>= fun s => Pure.pure s.updateRefs := by
  funext st
  simp only [convertToM, rawToM, Bind.bind, CM.bind]
  cases Convert.stringsLoop n n (.new data) [] st with
  | panic => rfl
  | timeout => rfl
  | ok x =>
    obtain ⟨r, st'⟩ := x
    cases r with
    | none => rfl
    | some r => rfl

theorem convertTo_fuel {n m d : Nat} (h : n ≤ m) {data : List Tok} {ignored : List Range} {x}
    (hs : convertTo d n data ignored = .ok x) : convertTo d m data ignored = .ok x := by
  have hn : convertToM d n data ⟨0, ignored⟩ ≠ .timeout := by
    intro e
    simp [convertTo, e] at hs
  have hf : FLe (convertToM d n data) (convertToM d m data) :=
    (fle_stringsLoop h h _ _).bind fun _ => (fle_nodesLoopTo_fuel h h _ _).bind fun _ => .refl _
  rw [← hs]
  simp only [convertTo, hf.eq _ hn]

theorem updateRefsTo_syntax {d : Nat} {syn syn' : Syntax} :
    syn.updateRefsTo d = .ok syn' ↔ syn' = syn.updateRefs ∧ outerDepths syn.rules ≤ d := by
  simp only [Syntax.updateRefsTo, Comp.bind_ok, all_map_to (updateRefsTo_iff d), outerDepths_le, Syntax.updateRefs,
    Pure.pure, Comp.ok.injEq]
  constructor
  · rintro ⟨a, ⟨rfl, h⟩, rfl⟩
    exact ⟨rfl, h⟩
  · rintro ⟨rfl, h⟩
    exact ⟨_, ⟨rfl, h⟩, rfl⟩

/-- Whenever `convert` comes to `update_refs`, that is not deeper. -/
theorem convertAllTo_iff {d n : Nat} {data : List Tok} {o : Option Syntax} :
    convertAllTo d n data = .ok o ↔ ∃ ig, convertTo d n data [] = .ok (o, ig) := by
  have hd : ∀ {syn : Syntax} {st}, rawToM d n data ⟨0, []⟩ = .ok (some syn, st) → outerDepths syn.rules ≤ d := by
    intro syn st h
    have h1 : convertTo d n data [] = .ok (some syn.updateRefs, st.ignored) := by
      simp only [convertTo, convertToM_raw, Bind.bind, CM.bind, h]
      rfl
    have h2 : ruleDepthL syn.updateRefs.rules ≤ d := ruleDepthL_le.2 fun r hr => convertTo_depth h1 hr
    have h3 : ruleDepthL syn.updateRefs.rules = ruleDepthL syn.rules := by
      rw [← depth_updateRefsL syn.names syn.rules, updateRefsL_map]
      rfl
    have := outerDepths_le_rule syn.rules
    omega
  unfold convertAllTo convertTo
  rw [convertToM_raw]
  simp only [Bind.bind, CM.bind]
  cases h : rawToM d n data ⟨0, []⟩ with
  | panic => simp
  | timeout => simp
  | ok x =>
    obtain ⟨r, st⟩ := x
    cases r with
    | none => simp
    | some syn =>
      have h1 : syn.updateRefsTo d = .ok syn.updateRefs := updateRefsTo_syntax.2 ⟨rfl, hd h⟩
      simp only [h1, Comp.bind, Pure.pure, CM.pure, Comp.ok.injEq, Prod.mk.injEq]
      simp

theorem optimizeTo_iff {d : Nat} {syn syn' : Syntax} :
    syn.optimizeTo d = .ok syn' ↔ Optimizes syn syn' ∧ optDepths syn.rules syn.rules ≤ d := by
  have det : ∀ {n} (r r' : Rule), optimizeRuleTo syn.rules d r = .ok r' → ∀ r'', optimizeRule syn.rules n r = .ok r'' → r' = r'' :=
    fun _ _ h _ h' => optimizeRule_det (optimizeRule_to h) h'
  constructor
  · intro h
    obtain ⟨a, h1, h2⟩ := Comp.bind_ok.1 h
    cases h2
    have h3 : Comp.all (syn.rules.map (optimizeRule syn.rules d)) = .ok a := Comp.all_mono (fun _ _ _ => optimizeRule_to) h1
    refine ⟨⟨d, Comp.bind_ok.2 ⟨a, h3, rfl⟩⟩, optDepths_le.2 ?_⟩
    exact (all_map_within (fun _ _ => optimizeRule_within) det h3).1 h1
  · rintro ⟨⟨n, h⟩, hd⟩
    obtain ⟨a, h1, h2⟩ := Comp.bind_ok.1 h
    cases h2
    exact Comp.bind_ok.2 ⟨a, (all_map_within (fun _ _ => optimizeRule_within) det h1).2 (optDepths_le.1 hd), rfl⟩

end Verif
