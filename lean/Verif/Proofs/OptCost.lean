import Verif.Spec.OptCost
import Verif.Proofs.OptTwice
import Verif.Props.OptTwice
/-
The optimizer with its calls counted does what it does without, and the number of calls.
-/
namespace Verif
open Spec Props

variable {refs : List Rule} {n : Nat}

/-- Without the number of calls. -/
def Comp.erase {α : Type} (x : Comp (α × Nat)) : Comp α := x >>= fun a => pure a.1

theorem Comp.erase_bind {α β : Type} (x : Comp (α × Nat)) (f : α × Nat → Comp (β × Nat)) (g : α → Comp β)
    (h : ∀ a, (f a).erase = g a.1) : (x >>= f).erase = x.erase >>= g := by
  cases x with
  | ok a => exact h a
  | panic => rfl
  | timeout => rfl

theorem Comp.all_erase {α : Type} : ∀ xs : List (Comp (α × Nat)),
    Comp.all (xs.map Comp.erase) = Comp.all xs >>= fun as => pure (as.map (·.1))
  | [] => rfl
  | x :: xs => by
    have ih := Comp.all_erase xs
    simp only [List.map_cons, Comp.all]
    rw [ih]
    cases x with
    | ok a => cases Comp.all xs <;> rfl
    | panic => rfl
    | timeout => rfl

theorem Comp.allCounted_erase {α : Type} (xs : List (Comp (α × Nat))) :
    (Comp.allCounted xs).erase = Comp.all (xs.map Comp.erase) := by
  rw [Comp.all_erase]
  unfold Comp.allCounted
  cases Comp.all xs <;> rfl

theorem optimizeSelectCounted_erase (args : List Rule) (opts : List (Comp (Rule × Nat))) (id : DebugId) :
    (optimizeSelectCounted refs n args opts id).erase = optimizeSelect refs n args (opts.map Comp.erase) id := by
  unfold optimizeSelectCounted optimizeSelect
  cases uniqueTable refs n args with
  | panic => rfl
  | timeout => rfl
  | ok x =>
    obtain ⟨table, upTo⟩ := x
    have hplain : (do let (args', k) ← Comp.allCounted opts; return (Rule.select args' id, k) : Comp (Rule × Nat)).erase =
        (do let args' ← Comp.all (opts.map Comp.erase); return .select args' id) := by
      rw [← Comp.allCounted_erase]
      exact Comp.erase_bind _ _ _ fun _ => rfl
    simp only
    split
    · split
      · rw [← List.map_drop, ← Comp.allCounted_erase, ← hplain]
        refine Comp.erase_bind _ _ _ fun a => ?_
        cases Comp.allCounted opts <;> rfl
      · exact hplain
    · rw [← List.map_take, ← List.map_drop, ← Comp.allCounted_erase, ← Comp.allCounted_erase]
      refine Comp.erase_bind _ _ _ fun a => ?_
      obtain ⟨a, k⟩ := a
      simp only
      split
      · exact Comp.erase_bind _ _ _ fun _ => rfl
      · rfl

mutual
theorem optimizeRuleCounted_erase : ∀ r : Rule, (optimizeRuleCounted refs n r).erase = optimizeRule refs n r
  | .whitespace _ _ | .tag _ _ _ _ _ | .untilAny _ _ _ _ | .untilAnyOrWs _ _ _ _ | .text _ _ _ | .number _ _ _
  | .node _ _ _ _ | .fastSelect _ _ _ _ => by simp only [optimizeRuleCounted, optimizeRule]; rfl
  | .sequence args id => by
    simp only [optimizeRuleCounted, optimizeRule]
    rw [← optimizeRulesCounted_erase args, ← Comp.allCounted_erase]
    exact Comp.erase_bind _ _ _ fun _ => rfl
  | .separateBy r b o t id => by
    simp only [optimizeRuleCounted, optimizeRule]
    rw [← optimizeRuleCounted_erase r, ← optimizeRuleCounted_erase b]
    exact Comp.erase_bind _ _ _ fun _ => Comp.erase_bind _ _ _ fun _ => rfl
  | .repeat_ r o id => by
    simp only [optimizeRuleCounted, optimizeRule]
    rw [← optimizeRuleCounted_erase r]
    exact Comp.erase_bind _ _ _ fun _ => rfl
  | .lines r i id => by
    simp only [optimizeRuleCounted, optimizeRule]
    rw [← optimizeRuleCounted_erase r]
    exact Comp.erase_bind _ _ _ fun _ => rfl
  | .optional r id => by
    simp only [optimizeRuleCounted, optimizeRule]
    rw [← optimizeRuleCounted_erase r]
    exact Comp.erase_bind _ _ _ fun _ => rfl
  | .not r id => by
    simp only [optimizeRuleCounted, optimizeRule]
    rw [← optimizeRuleCounted_erase r]
    exact Comp.erase_bind _ _ _ fun _ => rfl
  | .select args id => by
    simp only [optimizeRuleCounted, optimizeRule]
    rw [← optimizeRulesCounted_erase args, ← optimizeSelectCounted_erase]
    cases optimizeSelectCounted refs n args (optimizeRulesCounted refs n args) id <;> rfl
theorem optimizeRulesCounted_erase : ∀ rs : List Rule,
    (optimizeRulesCounted refs n rs).map Comp.erase = optimizeRules refs n rs
  | [] => by simp [optimizeRulesCounted, optimizeRules]
  | r :: rs => by
    simp only [optimizeRulesCounted, optimizeRules, List.map_cons, optimizeRuleCounted_erase r,
      optimizeRulesCounted_erase rs]
end

theorem optimizeRulesCounted_eq : ∀ rs : List Rule,
    optimizeRulesCounted refs n rs = rs.map (optimizeRuleCounted refs n)
  | [] => by simp [optimizeRulesCounted]
  | r :: rs => by simp [optimizeRulesCounted, optimizeRulesCounted_eq rs]

theorem optimizeCounted_erase (syn : Syntax) : (syn.optimizeCounted n).erase = syn.optimize n := by
  unfold Syntax.optimizeCounted Syntax.optimize
  rw [← optimizeRules_eq, ← optimizeRulesCounted_erase, ← Comp.allCounted_erase, optimizeRulesCounted_eq]
  exact Comp.erase_bind _ _ _ fun _ => rfl

theorem Comp.erase_ok {α : Type} {x : Comp (α × Nat)} {a : α} : x.erase = .ok a ↔ ∃ k, x = .ok (a, k) := by
  cases x with
  | ok y =>
    obtain ⟨y, k⟩ := y
    show Comp.ok y = .ok a ↔ _
    simp
  | panic => simp [Comp.erase, Bind.bind, Comp.bind]
  | timeout => simp [Comp.erase, Bind.bind, Comp.bind]

/-! ### The number -/

theorem Comp.allCounted_cons {α : Type} {x : Comp (α × Nat)} {xs l k} : Comp.allCounted (x :: xs) = .ok (l, k) ↔
    ∃ a as i j, x = .ok (a, i) ∧ Comp.allCounted xs = .ok (as, j) ∧ l = a :: as ∧ k = i + j := by
  unfold Comp.allCounted
  constructor
  · intro h
    obtain ⟨as, h1, h2⟩ := Comp.bind_ok.1 h
    obtain ⟨a, as, rfl, h3, rfl⟩ := Comp.all_cons_ok.1 h1
    cases Comp.pure_ok.1 h2
    exact ⟨_, _, _, _, rfl, Comp.bind_ok.2 ⟨as, h3, rfl⟩, rfl, rfl⟩
  · rintro ⟨a, as, i, j, rfl, h, rfl, rfl⟩
    obtain ⟨bs, h1, h2⟩ := Comp.bind_ok.1 h
    cases Comp.pure_ok.1 h2
    exact Comp.bind_ok.2 ⟨_, Comp.all_cons_ok.2 ⟨_, _, rfl, h1, rfl⟩, rfl⟩

theorem Comp.allCounted_append {α : Type} : ∀ {xs ys : List (Comp (α × Nat))} {as bs i j},
    Comp.allCounted xs = .ok (as, i) → Comp.allCounted ys = .ok (bs, j) →
    Comp.allCounted (xs ++ ys) = .ok (as ++ bs, i + j)
  | [], ys, as, bs, i, j, h, h' => by cases h; simpa using h'
  | x :: xs, ys, as, bs, i, j, h, h' => by
    obtain ⟨a, as, k, l, rfl, h1, rfl, rfl⟩ := Comp.allCounted_cons.1 h
    exact Comp.allCounted_cons.2 ⟨a, as ++ bs, k, l + j, rfl, Comp.allCounted_append h1 h', rfl, by omega⟩

/-- Two or more alternatives are in the table if and only if the first two begin with different bytes. -/
theorem table_two {a a' : Rule} {l : List Rule} {t u} (h : UniqueTable refs (a :: a' :: l) t u) :
    2 ≤ u ↔ ∃ b b', BeginsWith refs a b ∧ BeginsWith refs a' b' ∧ b ≠ b' := by
  constructor
  · intro h2
    obtain ⟨b, h3, -⟩ := (C30_table_exact h).2.2.1 0 a (by omega) rfl
    obtain ⟨b', h4, -⟩ := (C30_table_exact h).2.2.1 1 a' (by omega) rfl
    refine ⟨b, b', C72_unique_byte.1 h3, C72_unique_byte.1 h4, ?_⟩
    rintro rfl
    have := C30_bytes_distinct h (i := 0) (j := 1) (by omega) (by omega) rfl rfl h3 h4
    omega
  · rintro ⟨b, b', h3, h4, hb⟩
    have h3 := C72_unique_byte.2 h3
    have h4 := C72_unique_byte.2 h4
    have hcase : u = 0 ∨ u = 1 ∨ 2 ≤ u := by omega
    rcases hcase with rfl | rfl | h2
    · rcases C30_maximal h with h1 | h1 | ⟨r, h1, h5 | ⟨_, _, j, _, hj, _⟩⟩
      · simp at h1
      · simp at h1
      · cases h1
        cases uniqueByte_det h3 h5
      · omega
    · rcases C30_maximal h with h1 | h1 | ⟨r, h1, h5 | ⟨c, h5, j, q, hj, hq, h6⟩⟩
      · simp at h1
      · simp at h1
      · cases h1
        cases uniqueByte_det h4 h5
      · cases h1
        obtain rfl : j = 0 := by omega
        cases hq
        cases uniqueByte_det h4 h5
        cases uniqueByte_det h3 h6
        exact absurd rfl hb
    · exact h2

theorem triedTwice_iff {args : List Rule} {t u} (h : UniqueTable refs args t u) :
    TriedTwice refs args ↔ u < 2 ∧ 2 < args.length := by
  match args with
  | [] => simp [TriedTwice]
  | [a] => simp [TriedTwice]
  | [a, a'] => simp [TriedTwice]
  | a :: a' :: a'' :: l =>
    simp only [TriedTwice, ← table_two h, List.length_cons]
    omega

mutual
theorem optimizeRuleCounted_count : ∀ {r r' : Rule} {k : Nat},
    optimizeRuleCounted refs n r = .ok (r', k) → k = optWork refs r
  | .whitespace _ _, _, _, h | .tag _ _ _ _ _, _, _, h | .untilAny _ _ _ _, _, _, h | .untilAnyOrWs _ _ _ _, _, _, h
  | .text _ _ _, _, _, h | .number _ _ _, _, _, h | .node _ _ _ _, _, _, h | .fastSelect _ _ _ _, _, _, h => by
    simp only [optimizeRuleCounted] at h
    cases h
    simp [optWork]
  | .sequence args id, _, _, h => by
    simp only [optimizeRuleCounted] at h
    obtain ⟨⟨as, k⟩, h1, h2⟩ := Comp.bind_ok.1 h
    cases h2
    rw [optimizeRulesCounted_count h1, optWork]
  | .separateBy r b o t id, _, _, h => by
    simp only [optimizeRuleCounted] at h
    obtain ⟨⟨r', k⟩, h1, h2⟩ := Comp.bind_ok.1 h
    obtain ⟨⟨b', k'⟩, h3, h4⟩ := Comp.bind_ok.1 h2
    cases h4
    rw [optimizeRuleCounted_count h1, optimizeRuleCounted_count h3, optWork]
  | .repeat_ r o id, _, _, h | .lines r o id, _, _, h | .optional r id, _, _, h | .not r id, _, _, h => by
    simp only [optimizeRuleCounted] at h
    obtain ⟨⟨r', k⟩, h1, h2⟩ := Comp.bind_ok.1 h
    cases h2
    rw [optimizeRuleCounted_count h1, optWork]
  | .select args id, _, _, h => by
    simp only [optimizeRuleCounted] at h
    obtain ⟨⟨r', k⟩, h1, h2⟩ := Comp.bind_ok.1 h
    cases h2
    rw [optWork]
    congr 1
    unfold optimizeSelectCounted at h1
    split at h1
    · cases h1
    · cases h1
    · rename_i t u ht
      have htw := triedTwice_iff ⟨n, ht⟩
      split at h1
      · rename_i hu
        split at h1
        · rename_i hl
          rw [if_pos (htw.2 ⟨hu, hl⟩)]
          obtain ⟨⟨as, j⟩, h2, h3⟩ := Comp.bind_ok.1 h1
          obtain ⟨⟨r'', i⟩, h4, h5⟩ := Comp.bind_ok.1 h3
          obtain ⟨⟨bs, i⟩, h6, h7⟩ := Comp.bind_ok.1 h4
          cases h7
          cases h5
          rw [optimizeRulesCounted_count h6]
          match args, h2 with
          | [], h2 => cases h2; simp [optWorksRest]
          | a :: args, h2 =>
            simp only [optimizeRulesCounted, List.drop_succ_cons, List.drop_zero] at h2
            rw [optWorksRest, optimizeRulesCounted_count h2, Nat.add_comm]
        · rename_i hl
          rw [if_neg (fun hc => hl (htw.1 hc).2)]
          obtain ⟨⟨bs, i⟩, h6, h7⟩ := Comp.bind_ok.1 h1
          cases h7
          rw [optimizeRulesCounted_count h6, Nat.add_zero]
      · rename_i hu
        rw [if_neg (fun hc => hu (htw.1 hc).1), Nat.add_zero]
        obtain ⟨⟨as, i⟩, h2, h3⟩ := Comp.bind_ok.1 h1
        simp only at h3
        split at h3
        · obtain ⟨⟨bs, j⟩, h4, h5⟩ := Comp.bind_ok.1 h3
          cases h5
          have := Comp.allCounted_append h2 h4
          rw [List.take_append_drop] at this
          exact optimizeRulesCounted_count this
        · rename_i hl
          cases h3
          rw [List.take_of_length_le (by rw [optimizeRulesCounted_eq, List.length_map]; omega)] at h2
          exact optimizeRulesCounted_count h2
theorem optimizeRulesCounted_count : ∀ {rs rs' : List Rule} {k : Nat},
    Comp.allCounted (optimizeRulesCounted refs n rs) = .ok (rs', k) → k = optWorks refs rs
  | [], _, _, h => by
    simp only [optimizeRulesCounted] at h
    cases h
    simp [optWorks]
  | r :: rs, _, _, h => by
    simp only [optimizeRulesCounted] at h
    obtain ⟨a, as, i, j, h1, h2, rfl, rfl⟩ := Comp.allCounted_cons.1 h
    rw [optimizeRuleCounted_count h1, optimizeRulesCounted_count h2, optWorks]
end

mutual
theorem outerSize_le : ∀ r : Rule, outerSize r ≤ optWork refs r
  | .whitespace _ _ | .tag _ _ _ _ _ | .untilAny _ _ _ _ | .untilAnyOrWs _ _ _ _ | .text _ _ _ | .number _ _ _
  | .node _ _ _ _ | .fastSelect _ _ _ _ => by simp [outerSize, optWork]
  | .sequence args id => by
    have := outerSizes_le args
    simp only [outerSize, optWork]
    omega
  | .select args id => by
    have := outerSizes_le args
    simp only [outerSize, optWork]
    omega
  | .separateBy r b _ _ _ => by
    have := outerSize_le r
    have := outerSize_le b
    simp only [outerSize, optWork]
    omega
  | .repeat_ r _ _ | .lines r _ _ | .optional r _ | .not r _ => by
    have := outerSize_le r
    simp only [outerSize, optWork]
    omega
theorem outerSizes_le : ∀ rs : List Rule, outerSizes rs ≤ optWorks refs rs
  | [] => by simp [outerSizes, optWorks]
  | r :: rs => by
    have := outerSize_le r
    have := outerSizes_le rs
    simp only [outerSizes, optWorks]
    omega
end

theorem optWorksRest_le (rs : List Rule) : optWorksRest refs rs ≤ optWorks refs rs := by
  cases rs with
  | nil => simp [optWorksRest, optWorks]
  | cons r rs => simp [optWorksRest, optWorks]

theorem one_le_pow (k : Nat) : 1 ≤ 2 ^ k := Nat.one_le_two_pow

theorem mul_pow_le {a b c d : Nat} (h : a ≤ 2 ^ b * c) (hd : b ≤ d) : a ≤ 2 ^ d * c :=
  Nat.le_trans h (Nat.mul_le_mul_right c (Nat.pow_le_pow_right (by omega) hd))

theorem add_pow_le {a b c : Nat} (h : a ≤ 2 ^ b * c) : 1 + a ≤ 2 ^ b * (1 + c) := by
  have := one_le_pow b
  rw [Nat.mul_add]
  omega

mutual
theorem optWork_le : ∀ r : Rule, optWork refs r ≤ 2 ^ nesting refs r * outerSize r
  | .whitespace _ _ | .tag _ _ _ _ _ | .untilAny _ _ _ _ | .untilAnyOrWs _ _ _ _ | .text _ _ _ | .number _ _ _
  | .node _ _ _ _ | .fastSelect _ _ _ _ => by simp [outerSize, optWork, nesting]
  | .sequence args id => by
    simp only [outerSize, optWork, nesting]
    exact add_pow_le (optWorks_le args)
  | .select args id => by
    have h := optWorks_le args
    have h' := optWorksRest_le (refs := refs) args
    simp only [outerSize, optWork, nesting]
    refine add_pow_le ?_
    split
    · rw [Nat.add_comm 1, Nat.pow_succ, Nat.mul_right_comm]
      omega
    · simpa using h
  | .separateBy r b _ _ _ => by
    simp only [outerSize, optWork, nesting]
    refine add_pow_le ?_
    have h := mul_pow_le (optWork_le r) (Nat.le_max_left _ (nesting refs b))
    have h' := mul_pow_le (optWork_le b) (Nat.le_max_right (nesting refs r) _)
    rw [Nat.mul_add]
    omega
  | .repeat_ r _ _ | .lines r _ _ | .optional r _ | .not r _ => by
    simp only [outerSize, optWork, nesting]
    exact add_pow_le (optWork_le r)
theorem optWorks_le : ∀ rs : List Rule, optWorks refs rs ≤ 2 ^ nestings refs rs * outerSizes rs
  | [] => by simp [outerSizes, optWorks]
  | r :: rs => by
    simp only [outerSizes, optWorks, nestings]
    have h := mul_pow_le (optWork_le r) (Nat.le_max_left _ (nestings refs rs))
    have h' := mul_pow_le (optWorks_le rs) (Nat.le_max_right (nesting refs r) _)
    rw [Nat.mul_add]
    omega
end

mutual
theorem nesting_zero : ∀ r : Rule, (∀ args id, OccursOutside (.select args id) r → ¬ TriedTwice refs args) →
    nesting refs r = 0
  | .whitespace _ _, _ | .tag _ _ _ _ _, _ | .untilAny _ _ _ _, _ | .untilAnyOrWs _ _ _ _, _ | .text _ _ _, _
  | .number _ _ _, _ | .node _ _ _ _, _ | .fastSelect _ _ _ _, _ => by simp [nesting]
  | .sequence args id, h => by
    simp only [nesting]
    exact nestings_zero args fun q hq args' id' ho => h _ _ (.step ho (.sequence hq) (by simp [NotTable]))
  | .select args id, h => by
    simp only [nesting]
    rw [if_neg (h _ _ .refl),
      nestings_zero args fun q hq args' id' ho => h _ _ (.step ho (.select hq) (by simp [NotTable]))]
  | .separateBy r b _ _ _, h => by
    simp only [nesting]
    rw [nesting_zero r fun _ _ ho => h _ _ (.step ho .item (by simp [NotTable])),
      nesting_zero b fun _ _ ho => h _ _ (.step ho .sep (by simp [NotTable]))]
    rfl
  | .repeat_ r _ _, h => by
    simp only [nesting]
    exact nesting_zero r fun _ _ ho => h _ _ (.step ho .repeat_ (by simp [NotTable]))
  | .lines r _ _, h => by
    simp only [nesting]
    exact nesting_zero r fun _ _ ho => h _ _ (.step ho .lines (by simp [NotTable]))
  | .optional r _, h => by
    simp only [nesting]
    exact nesting_zero r fun _ _ ho => h _ _ (.step ho .optional (by simp [NotTable]))
  | .not r _, h => by
    simp only [nesting]
    exact nesting_zero r fun _ _ ho => h _ _ (.step ho .not (by simp [NotTable]))
theorem nestings_zero : ∀ rs : List Rule,
    (∀ q ∈ rs, ∀ args id, OccursOutside (.select args id) q → ¬ TriedTwice refs args) → nestings refs rs = 0
  | [], _ => by simp [nestings]
  | r :: rs, h => by
    simp only [nestings]
    rw [nesting_zero r (h r (by simp)), nestings_zero rs fun q hq => h q (by simp [hq])]
    rfl
end

theorem optWork_mem {q : Rule} : ∀ {rs : List Rule}, q ∈ rs → optWork refs q ≤ optWorks refs rs
  | r :: rs, h => by
    rcases List.mem_cons.1 h with rfl | h
    · simp [optWorks]
    · have := optWork_mem h
      simp only [optWorks]
      omega

theorem optWork_child {c r : Rule} (h : Child c r) (h' : NotTable r) : optWork refs c ≤ optWork refs r := by
  cases h with
  | select h =>
    have := optWork_mem (refs := refs) h
    simp only [optWork]
    omega
  | fast => exact absurd rfl (h' _ _ _ _)
  | sequence h =>
    have := optWork_mem (refs := refs) h
    simp only [optWork]
    omega
  | item | sep | repeat_ | lines | optional | not => simp only [optWork]; omega

theorem chain_le {k : Nat} {r : Rule} (h : TwiceChain refs k r) : 2 ^ k ≤ optWork refs r := by
  induction h with
  | @zero r =>
    have := outerSize_le (refs := refs) r
    have : 1 ≤ outerSize r := by cases r <;> simp only [outerSize] <;> omega
    omega
  | part h h' _ ih => exact Nat.le_trans ih (optWork_child h h')
  | twice h hc _ ih =>
    have := optWork_mem (refs := refs) hc
    simp only [optWork, if_pos h, optWorks, optWorksRest, Nat.pow_succ]
    omega

/-! ### Reading a text -/

theorem readSyntaxCounted_erase (L : Lexer) (text : Str) : (readSyntaxCounted L n text).erase = readSyntax L n text := by
  unfold readSyntaxCounted readSyntax
  cases bootstrapRules.optimize n with
  | panic => rfl
  | timeout => rfl
  | ok bs =>
    show Comp.erase (match parse L n bs text [] with | .timeout => _ | .panic => _ | .err e _ => _ | .ok tokens => _) =
      (match parse L n bs text [] with | .timeout => _ | .panic => _ | .err e _ => _ | .ok tokens => _)
    cases parse L n bs text [] with
    | timeout => rfl
    | panic => rfl
    | err => rfl
    | ok toks =>
      show Comp.erase (convert n toks [] >>= _) = convert n toks [] >>= _
      cases convert n toks [] with
      | panic => rfl
      | timeout => rfl
      | ok x =>
        obtain ⟨o, ig⟩ := x
        cases o with
        | none => rfl
        | some res =>
          show Comp.erase (res.optimizeCounted n >>= _) = res.optimize n >>= _
          rw [← optimizeCounted_erase]
          exact Comp.erase_bind _ _ _ fun _ => rfl

theorem nestText_length : ∀ k, (nestText k).length = 10 * k + 3
  | 0 => rfl
  | k + 1 => by simp [nestText, nestText_length k]; omega

theorem nestDesc_text {L : Lexer} : ∀ k, (nestDesc k).Text L (nestText k)
  | 0 => by simp [nestDesc, Desc.Text, nestText, sign]
  | k + 1 => by
    simp only [nestDesc, Desc.Text, Desc.TextL, nestText]
    refine ⟨by simp, c!".w? .w? " ++ nestText k, ⟨[], c!".w?", c!" .w? " ++ nestText k, by simp [Space], rfl,
      ⟨c!" ", c!".w?", c!" " ++ nestText k, by simp [Space, isWs], rfl, ⟨c!" ", nestText k, [], by simp [Space, isWs], nestDesc_text k,
        by simp [Space], by simp, by simp⟩, fun _ => ⟨' ', rfl, rfl⟩, rfl⟩, fun _ => ⟨' ', rfl, rfl⟩, rfl⟩, by simp⟩

theorem nestDesc_read : ∀ k i, (nestDesc k).read [] i = (some (nestRule k i), i + (3 * k + 1), 0)
  | 0, i => by simp [nestDesc, Desc.read, nestRule]
  | k + 1, i => by
    simp only [nestDesc, Desc.read, Desc.readL, nestRule, nestDesc_read k]
    have e : i + 1 + 1 + (3 * k + 1) + 1 = i + (3 * k + 4) := by omega
    have e' : i + (3 * (k + 1) + 1) = i + (3 * k + 4) := by omega
    simp [drop1, e, e']

theorem nestRule_refs (names : List Str) : ∀ k i, (nestRule k i).updateRefs names = nestRule k i
  | 0, i => by simp only [nestRule, Rule.updateRefs]
  | k + 1, i => by simp [nestRule, Rule.updateRefs, Rule.updateRefsL, nestRule_refs names k]

theorem nestRule_triedTwice (k : Nat) (i j : Nat) :
    TriedTwice refs [.whitespace true i, .whitespace true j, nestRule k j] := by
  rintro ⟨b, _, h, -⟩
  cases h with
  | call h => cases h

theorem nestRule_work : ∀ k i, optWork refs (nestRule k i) = 5 * 2 ^ k - 4
  | 0, i => by simp [nestRule, optWork]
  | k + 1, i => by
    have := one_le_pow k
    simp only [nestRule, optWork, if_pos (nestRule_triedTwice k (i + 1) (i + 2)), optWorks, optWorksRest,
      nestRule_work k, Nat.pow_succ]
    omega

theorem nestRule_optimized : ∀ k i, Optimized refs (nestRule k i) (nestRule k i)
  | 0, i => by simp only [nestRule]; exact .whitespace
  | k + 1, i => by
    simp only [nestRule]
    exact .select (t := fun _ => 255) (u := 0) ⟨1, rfl⟩ (by omega)
      (.cons .whitespace (.cons .whitespace (.cons (nestRule_optimized k _) .nil)))

end Verif
