import Verif.Proofs.Occurs
import Verif.Proofs.OptTotal
import Verif.Spec.Written
import Verif.Model.Refs
/-
The rules that are read for a description: their ids, references and lists.
-/
namespace Verif
open Spec

/-! ### Ids -/

theorem needs_id_le {x : Option Str} {i m : Nat} {f : Str → Nat → Rule} : (needs x i m f).2.1 ≤ i + 1 := by
  unfold needs; split <;> simp

theorem around_id_le {x : Option Rule × Nat × Nat} {f : Rule → Nat → Rule} : (around x f).2.1 ≤ x.2.1 + 1 := by
  unfold around; split <;> simp

theorem len_nodeOf (name : Str) (body : List MetaData) : (nodeOf name body).length = body.length + 2 := by
  simp [nodeOf]

mutual
/-- The ids used are bounded by the amount of data. -/
theorem Desc.read_id_le (s : List (Str × Str)) : (d : Desc) → (i : Nat) → (d.read s i).2.1 ≤ i + d.data.length
  | .whitespace o, i => by simp [Desc.read, Desc.data, nodeOf]
  | .untilAnyOrWs any o p, i => by
    have := @needs_id_le (any.get s) i (any.missing s + propMissing s p) (fun t id => .untilAnyOrWs t (o.getD false) (p.bind (·.get s)) id)
    simp only [Desc.read, Desc.data, len_nodeOf]; omega
  | .untilAny any o p, i => by
    have := @needs_id_le (any.get s) i (any.missing s + propMissing s p) (fun t id => .untilAny t (o.getD false) (p.bind (·.get s)) id)
    simp only [Desc.read, Desc.data, len_nodeOf]; omega
  | .tag neg t inv p, i => by
    have := @needs_id_le (t.get s) i (t.missing s + propMissing s p) (fun t id => .tag t (neg.getD false) (inv.getD false) (p.bind (·.get s)) id)
    simp only [Desc.read, Desc.data, len_nodeOf]; omega
  | .text e p, i => by simp only [Desc.read, Desc.data, len_nodeOf]; omega
  | .number u p, i => by simp only [Desc.read, Desc.data, len_nodeOf]; omega
  | .reference name p, i => by simp only [Desc.read, Desc.data, len_nodeOf]; omega
  | .sequence args, i => by
    have := Desc.readL_id_le s args i
    simp only [Desc.read, Desc.data, len_nodeOf]; omega
  | .select args, i => by
    have := Desc.readL_id_le s args i
    simp only [Desc.read, Desc.data, len_nodeOf]; omega
  | .optional d, i => by
    have := Desc.read_id_le s d i
    have := @around_id_le (d.read s i) .optional
    simp only [Desc.read, Desc.data, len_nodeOf]; omega
  | .not d, i => by
    have := Desc.read_id_le s d i
    have := @around_id_le (d.read s i) .not
    simp only [Desc.read, Desc.data, len_nodeOf]; omega
  | .lines ind d, i => by
    have := Desc.read_id_le s d i
    have := @around_id_le (d.read s i) fun r id => .lines r (ind.getD false) id
    simp only [Desc.read, Desc.data, len_nodeOf, List.length_append]; omega
  | .repeat_ o d, i => by
    have := Desc.read_id_le s d i
    have := @around_id_le ((d.read s i).1, (d.read s i).2.1, drop1 (d.read s i)) fun r id => .repeat_ r o id
    simp only [Desc.read, Desc.data, len_nodeOf, List.length_cons] at *; omega
  | .separatedBy o t b d, i => by
    have h1 := Desc.read_id_le s b i
    have h2 := Desc.read_id_le s d (b.read s i).2.1
    simp only [Desc.read, Desc.data, len_nodeOf, List.length_append]
    split
    · simp only; omega
    · rename_i b' _
      have := @around_id_le ((d.read s (b.read s i).2.1).1, (d.read s (b.read s i).2.1).2.1,
        drop1 (b.read s i) + drop1 (d.read s (b.read s i).2.1)) fun r id => .separateBy r b' (o.getD true) (t.getD true) id
      simp only at this ⊢; omega
theorem Desc.readL_id_le (s : List (Str × Str)) : (ds : List Desc) → (i : Nat) →
    (Desc.readL s ds i).2.1 ≤ i + (Desc.dataL ds).length
  | [], i => by simp [Desc.readL]
  | d :: ds, i => by
    have h1 := Desc.read_id_le s d i
    have h2 := Desc.readL_id_le s ds (d.read s i).2.1
    simp only [Desc.readL, Desc.dataL, len_nodeOf, List.length_append]; omega
end

/-! ### Shape -/

/-- No table, no resolved reference, and with `w` only lists that allow a trailing separator. -/
def plain (w : Bool) : Rule → Bool
  | .fastSelect _ _ _ _ => false
  | .node _ _ (some _) _ => false
  | .separateBy _ _ _ t _ => !w || t
  | _ => true

theorem Rule.allL_iff {p : Rule → Bool} : ∀ {rs : List Rule}, Rule.allL p rs = true ↔ ∀ r ∈ rs, Rule.all p r = true
  | [] => by simp [Rule.allL]
  | r :: rs => by simp [Rule.allL, Rule.allL_iff (rs := rs)]

theorem needs_some {x : Option Str} {i m : Nat} {f : Str → Nat → Rule} {r : Rule}
    (h : r ∈ (needs x i m f).1) : ∃ t id, r = f t id := by
  unfold needs at h
  split at h
  · exact ⟨_, _, (Option.some.inj h).symm⟩
  · cases h

theorem around_some {x : Option Rule × Nat × Nat} {f : Rule → Nat → Rule} {r : Rule}
    (h : r ∈ (around x f).1) : ∃ q ∈ x.1, ∃ id, r = f q id := by
  unfold around at h
  split at h
  · exact ⟨_, rfl, _, (Option.some.inj h).symm⟩
  · cases h

mutual
theorem Desc.read_plain (s : List (Str × Str)) (w : Bool) : (d : Desc) → (w = true → d.Written) → ∀ i, ∀ r ∈ (d.read s i).1,
    Rule.all (plain w) r = true
  | .whitespace o, _, i, r, h => by cases (Option.some.inj h); rfl
  | .untilAnyOrWs any o p, _, i, r, h => by obtain ⟨t, id, rfl⟩ := needs_some h; rfl
  | .untilAny any o p, _, i, r, h => by obtain ⟨t, id, rfl⟩ := needs_some h; rfl
  | .tag neg t inv p, _, i, r, h => by obtain ⟨t, id, rfl⟩ := needs_some h; rfl
  | .text e p, _, i, r, h => by cases (Option.some.inj h); rfl
  | .number u p, _, i, r, h => by cases (Option.some.inj h); rfl
  | .reference name p, _, i, r, h => by cases (Option.some.inj h); rfl
  | .sequence args, hw, i, r, h => by
    cases (Option.some.inj h)
    simpa [Rule.all, plain, Rule.allL_iff] using Desc.readL_plain s w args (fun h => (hw h).2) i
  | .select args, hw, i, r, h => by
    cases (Option.some.inj h)
    simpa [Rule.all, plain, Rule.allL_iff] using Desc.readL_plain s w args (fun h => (hw h).2) i
  | .optional d, hw, i, r, h => by
    obtain ⟨q, hq, id, rfl⟩ := around_some h
    simpa [Rule.all, plain] using Desc.read_plain s w d hw i q hq
  | .not d, hw, i, r, h => by
    obtain ⟨q, hq, id, rfl⟩ := around_some h
    simpa [Rule.all, plain] using Desc.read_plain s w d hw i q hq
  | .lines ind d, hw, i, r, h => by
    obtain ⟨q, hq, id, rfl⟩ := around_some h
    simpa [Rule.all, plain] using Desc.read_plain s w d (fun h => (hw h).2) i q hq
  | .repeat_ o d, hw, i, r, h => by
    obtain ⟨q, hq, id, rfl⟩ := around_some h
    simpa [Rule.all, plain] using Desc.read_plain s w d hw i q hq
  | .separatedBy o t b d, hw, i, r, h => by
    simp only [Desc.read] at h
    split at h
    · cases h
    · rename_i b' hb
      obtain ⟨q, hq, id, rfl⟩ := around_some h
      have h1 := Desc.read_plain s w b (fun h => (hw h).2.2.1) i b' hb
      have h2 := Desc.read_plain s w d (fun h => (hw h).2.2.2) _ q hq
      simp only [Rule.all, h1, h2, Bool.and_true, plain]
      cases w with
      | false => rfl
      | true =>
        have := (hw rfl).2.1
        cases t with
        | none => rfl
        | some t => cases t <;> simp_all
theorem Desc.readL_plain (s : List (Str × Str)) (w : Bool) : (ds : List Desc) → (w = true → Desc.WrittenL ds) → ∀ i,
    ∀ r ∈ (Desc.readL s ds i).1, Rule.all (plain w) r = true
  | [], _, i, r, h => by simp [Desc.readL] at h
  | d :: ds, hw, i, r, h => by
    simp only [Desc.readL, List.mem_append, Option.mem_toList] at h
    rcases h with h | h
    · exact Desc.read_plain s w d (fun h => (hw h).1) i r h
    · exact Desc.readL_plain s w ds (fun h => (hw h).2) _ r h
end

theorem Doc.read_plain (s : List (Str × Str)) (w : Bool) : ∀ {ns : List (F64 × Str × Desc)} {rs : List (Str × Rule)},
    (w = true → ∀ n ∈ ns, n.2.2.Written) → (Doc.read s ns).1 = some rs → ∀ x ∈ rs, Rule.all (plain w) x.2 = true
  | [], rs, _, h => by cases h; simp
  | (k, name, d) :: ns, rs, hw, h => by
    simp only [Doc.read] at h
    split at h
    · cases h
    · rename_i r hr
      obtain ⟨rs', h1, rfl⟩ := Option.map_eq_some_iff.1 h
      rintro x hx
      rcases List.mem_cons.1 hx with rfl | hx
      · exact Desc.read_plain s w d (fun h => hw h (k, name, d) (by simp)) _ r hr
      · exact Doc.read_plain s w (fun h n hn => hw h n (by simp [hn])) h1 x hx

/-! ### References -/

theorem findName_lt {name : Str} : ∀ {i : Nat} {names : List Str} {k}, findName name i names = some k →
    k < i + names.length
  | _, [], _, h => by simp [findName] at h
  | i, a :: as, k, h => by
    simp only [findName] at h
    split at h
    · cases h; simp
    · have := findName_lt h; simp; omega

/-- Indices below `m`, and with `w` only lists that allow a trailing separator. -/
def resolved (w : Bool) (m : Nat) : Rule → Bool
  | .fastSelect _ _ _ _ => false
  | .node _ _ (some k) _ => decide (k < m)
  | .separateBy _ _ _ t _ => !w || t
  | _ => true

mutual
theorem updateRefs_resolved {w : Bool} {names : List Str} : (r : Rule) → Rule.all (plain w) r = true →
    Rule.all (resolved w names.length) (r.updateRefs names) = true
  | .node _ _ none _, _ => by
    simp only [Rule.updateRefs, Rule.all, resolved]
    split <;> simp_all
    rename_i h
    have := findName_lt h.2.2.1
    omega
  | .node _ _ (some _) _, h => by simp [Rule.all, plain] at h
  | .whitespace _ _, _ => rfl
  | .tag _ _ _ _ _, _ => rfl
  | .untilAny _ _ _ _, _ => rfl
  | .untilAnyOrWs _ _ _ _, _ => rfl
  | .text _ _ _, _ => rfl
  | .number _ _ _, _ => rfl
  | .fastSelect _ _ _ _, h => by simp [Rule.all, plain] at h
  | .select args _, h => by
    simp only [Rule.all, plain, Bool.true_and] at h
    simpa [Rule.updateRefs, Rule.all, resolved] using updateRefsL_resolved args h
  | .sequence args _, h => by
    simp only [Rule.all, plain, Bool.true_and] at h
    simpa [Rule.updateRefs, Rule.all, resolved] using updateRefsL_resolved args h
  | .separateBy r b _ _ _, h => by
    simp only [Rule.all, plain, Bool.and_eq_true] at h
    simp only [Rule.updateRefs, Rule.all, resolved, h.1.1, updateRefs_resolved r h.1.2, updateRefs_resolved b h.2,
      Bool.and_self]
  | .repeat_ r _ _, h => by
    simp only [Rule.all, plain, Bool.true_and] at h
    simpa [Rule.updateRefs, Rule.all, resolved] using updateRefs_resolved r h
  | .lines r _ _, h => by
    simp only [Rule.all, plain, Bool.true_and] at h
    simpa [Rule.updateRefs, Rule.all, resolved] using updateRefs_resolved r h
  | .optional r _, h => by
    simp only [Rule.all, plain, Bool.true_and] at h
    simpa [Rule.updateRefs, Rule.all, resolved] using updateRefs_resolved r h
  | .not r _, h => by
    simp only [Rule.all, plain, Bool.true_and] at h
    simpa [Rule.updateRefs, Rule.all, resolved] using updateRefs_resolved r h
theorem updateRefsL_resolved {w : Bool} {names : List Str} : (rs : List Rule) → Rule.allL (plain w) rs = true →
    Rule.allL (resolved w names.length) (Rule.updateRefsL names rs) = true
  | [], _ => rfl
  | r :: rs, h => by
    simp only [Rule.allL, Bool.and_eq_true] at h
    simp only [Rule.updateRefsL, Rule.allL, updateRefs_resolved r h.1, updateRefsL_resolved rs h.2, Bool.and_self]
end

theorem resolved_indexOk {w : Bool} {refs : List Rule} {r : Rule} (h : resolved w refs.length r = true) :
    IndexOk refs r := by
  cases r with
  | node _ _ ix _ =>
    cases ix with
    | none => trivial
    | some k => simpa [resolved, IndexOk] using h
  | fastSelect => simp [resolved] at h
  | _ => trivial

/-! ### Lists that allow a trailing separator -/

/-- Only lists that allow a trailing separator. -/
def trails : Rule → Bool
  | .separateBy _ _ _ t _ => t
  | _ => true

mutual
theorem sim_trails {refs : List Rule} {n : Nat} {Q : Rule → Prop} {r r' : Rule} (h : Sim refs n Q r r') :
    Rule.all trails r = true → Rule.all trails r' = true := by
  match h with
  | .fastSelect h => simpa [Rule.all, trails] using simL_trails h
  | .select h => simpa [Rule.all, trails] using simL_trails h
  | .fast ht hne h => simpa [Rule.all, trails] using simL_trails h
  | .tail ht h0 hu hQ h =>
    intro h1
    have h2 := simL_trails h (by simpa [Rule.all, trails] using h1)
    rw [Rule.allL_iff] at h2
    simp only [Rule.all, trails, Bool.true_and, Rule.allL_iff, List.mem_append, List.mem_singleton]
    rintro x (hx | rfl)
    · exact h2 x (List.mem_of_mem_take hx)
    · simp only [Rule.all, trails, Bool.true_and, Rule.allL_iff]
      exact fun x hx => h2 x (List.mem_of_mem_drop hx)
  | .guarded hg ht h0 hu h =>
    rename_i gs rs rs' id t u
    intro h1
    simp only [Rule.all, trails, Bool.true_and, Rule.allL_iff, hg] at h1
    have h2 := simL_trails h (by
      rw [Rule.allL_iff]
      intro x hx
      rw [← List.take_append_drop u rs] at hx
      rcases List.mem_append.1 hx with hx | hx
      · exact h1 x (List.mem_append_left _ hx)
      · have := h1 (notAtEnd x) (List.mem_append_right _ (List.mem_map_of_mem hx))
        simp only [notAtEnd, Rule.all, Rule.allL, Bool.and_eq_true] at this
        exact this.2.2.1)
    rw [Rule.allL_iff] at h2
    simp only [Rule.all, trails, Bool.true_and, Rule.allL_iff, List.mem_append, List.mem_singleton]
    rintro x (hx | rfl)
    · exact h2 x (List.mem_of_mem_take hx)
    · simp only [Rule.all, trails, Bool.true_and, Rule.allL_iff]
      exact fun x hx => h2 x (List.mem_of_mem_drop hx)
  | .sequence h => simpa [Rule.all, trails] using simL_trails h
  | .separateBy h h' =>
    intro h1
    simp only [Rule.all, trails, Bool.and_eq_true] at h1 ⊢
    exact ⟨⟨h1.1.1, sim_trails h h1.1.2⟩, sim_trails h' h1.2⟩
  | .repeat_ h => simpa [Rule.all, trails] using sim_trails h
  | .lines h => simpa [Rule.all, trails] using sim_trails h
  | .optional h => simpa [Rule.all, trails] using sim_trails h
  | .not h => simpa [Rule.all, trails] using sim_trails h
  | .whitespace | .tag | .untilAny | .untilAnyOrWs | .text | .number | .node => exact id
theorem simL_trails {refs : List Rule} {n : Nat} {Q : Rule → Prop} {rs rs' : List Rule} (h : SimL refs n Q rs rs') :
    Rule.allL trails rs = true → Rule.allL trails rs' = true := by
  match h with
  | .nil => exact id
  | .cons h h' =>
    intro h1
    simp only [Rule.allL, Bool.and_eq_true] at h1 ⊢
    exact ⟨sim_trails h h1.1, simL_trails h' h1.2⟩
end

mutual
theorem Rule.all_imp {p q : Rule → Bool} (h : ∀ r, p r = true → q r = true) : (r : Rule) →
    Rule.all p r = true → Rule.all q r = true
  | .node _ _ _ _, hr => h _ hr
  | .whitespace _ _, hr => h _ hr
  | .tag _ _ _ _ _, hr => h _ hr
  | .untilAny _ _ _ _, hr => h _ hr
  | .untilAnyOrWs _ _ _ _, hr => h _ hr
  | .text _ _ _, hr => h _ hr
  | .number _ _ _, hr => h _ hr
  | .fastSelect _ args _ _, hr => by
    simp only [Rule.all, Bool.and_eq_true] at hr ⊢
    exact ⟨h _ hr.1, Rule.allL_imp h args hr.2⟩
  | .select args _, hr => by
    simp only [Rule.all, Bool.and_eq_true] at hr ⊢
    exact ⟨h _ hr.1, Rule.allL_imp h args hr.2⟩
  | .sequence args _, hr => by
    simp only [Rule.all, Bool.and_eq_true] at hr ⊢
    exact ⟨h _ hr.1, Rule.allL_imp h args hr.2⟩
  | .separateBy r b _ _ _, hr => by
    simp only [Rule.all, Bool.and_eq_true] at hr ⊢
    exact ⟨⟨h _ hr.1.1, Rule.all_imp h r hr.1.2⟩, Rule.all_imp h b hr.2⟩
  | .repeat_ r _ _, hr => by
    simp only [Rule.all, Bool.and_eq_true] at hr ⊢
    exact ⟨h _ hr.1, Rule.all_imp h r hr.2⟩
  | .lines r _ _, hr => by
    simp only [Rule.all, Bool.and_eq_true] at hr ⊢
    exact ⟨h _ hr.1, Rule.all_imp h r hr.2⟩
  | .optional r _, hr => by
    simp only [Rule.all, Bool.and_eq_true] at hr ⊢
    exact ⟨h _ hr.1, Rule.all_imp h r hr.2⟩
  | .not r _, hr => by
    simp only [Rule.all, Bool.and_eq_true] at hr ⊢
    exact ⟨h _ hr.1, Rule.all_imp h r hr.2⟩
theorem Rule.allL_imp {p q : Rule → Bool} (h : ∀ r, p r = true → q r = true) : (rs : List Rule) →
    Rule.allL p rs = true → Rule.allL q rs = true
  | [], _ => rfl
  | r :: rs, hr => by
    simp only [Rule.allL, Bool.and_eq_true] at hr ⊢
    exact ⟨Rule.all_imp h r hr.1, Rule.allL_imp h rs hr.2⟩
end

theorem resolved_trails {m : Nat} {r : Rule} (h : resolved true m r = true) : trails r = true := by
  cases r <;> simp_all [resolved, trails]

end Verif
