import Verif.Proofs.RefsCost
import Verif.Proofs.FileSize
import Verif.Props.ConvertRead
/-
How many rules, references and selects in each other a rule file can have.
-/
namespace Verif
open Spec

variable {L : Lexer}

/-! ### In the text -/

mutual
theorem desc_wide (hL : L.Lawful) : (d : Desc) → ∀ cs, d.Text L cs → 6 * d.wide + 1 ≤ cs.length
  | .whitespace o, cs, h => by
    cases h
    simp [Desc.wide]
  | .untilAnyOrWs any o p, cs, h => by
    obtain ⟨a, b, q, ha, rfl, hq, rfl⟩ := h
    simp [Desc.wide]
  | .untilAny any o p, cs, h => by
    obtain ⟨a, b, q, ha, rfl, hq, rfl⟩ := h
    simp [Desc.wide]
  | .tag neg t inv none, cs, h => by
    obtain ⟨n, a, hn, ha, rfl, rfl⟩ := h
    have h1 := setText_length hL ha
    simp only [Desc.wide, List.length_append]
    omega
  | .tag neg t inv (some v), cs, h => by
    obtain ⟨n, a, i, b, hn, ha, hi, hb, rfl⟩ := h
    have h1 := setText_length hL ha
    simp only [Desc.wide, List.length_append]
    omega
  | .text e p, cs, h => by
    obtain ⟨b, q, rfl, hq, rfl⟩ := h
    simp [Desc.wide]
  | .number u p, cs, h => by
    obtain ⟨n, q, hn, hq, rfl⟩ := h
    simp [Desc.wide]
  | .reference name p, cs, h => by
    obtain ⟨q, ⟨hn, -⟩, -, hq, rfl⟩ := h
    have := List.length_pos_iff.2 hn
    simp only [Desc.wide, List.length_append]
    omega
  | .sequence args, cs, h => by
    obtain ⟨h0, a, ha, rfl⟩ := h
    have := (descL_wide hL args a h0 ha).1
    have := List.length_pos_iff.2 h0
    simp only [Desc.wide, List.length_cons, List.length_append, List.length_nil]
    omega
  | .select args, cs, h => by
    obtain ⟨h0, a, ha, rfl⟩ := h
    have := (descL_wide hL args a h0 ha).1
    have := List.length_pos_iff.2 h0
    simp only [Desc.wide, List.length_cons, List.length_append, List.length_nil]
    split <;> omega
  | .optional d, cs, h => by
    obtain ⟨a, ha, rfl⟩ := h
    have := desc_wide hL d a ha
    simp only [Desc.wide, List.length_cons]
    omega
  | .not d, cs, h => by
    obtain ⟨a, ha, -, -, rfl⟩ := h
    have := desc_wide hL d a ha
    simp only [Desc.wide, List.length_cons]
    omega
  | .separatedBy o t b d, cs, h => by
    obtain ⟨s, n, v, a, w, c, u, rfl, hn, -, ha, -, -, hc, -, rfl⟩ := h
    have h1 := desc_wide hL b a ha
    have h2 := desc_wide hL d c hc
    simp only [Desc.wide, List.length_append, List.length_cons]
    omega
  | .lines i d, cs, h => by
    obtain ⟨n, v, a, u, hn, -, ha, -, rfl⟩ := h
    have h1 := desc_wide hL d a ha
    simp only [Desc.wide, List.length_append, List.length_cons]
    omega
  | .repeat_ o d, cs, h => by
    obtain ⟨a, ha, rfl⟩ := h
    have := desc_wide hL d a ha
    simp only [Desc.wide, List.length_append, List.length_cons]
    omega
theorem descL_wide (hL : L.Lawful) : (ds : List Desc) → ∀ cs, ds ≠ [] → Desc.TextL L ds cs →
    6 * Desc.wideL ds + 2 * ds.length ≤ cs.length + 1 ∧
    ((∃ c, cs.head? = some c ∧ isWs c = true) → 6 * Desc.wideL ds + 2 * ds.length ≤ cs.length)
  | [], cs, h, _ => absurd rfl h
  | d :: ds, cs, _, h => by
    obtain ⟨w, a, u, -, ha, hu, hs, rfl⟩ := h
    have h1 := desc_wide hL d a ha
    have h3 : 6 * Desc.wideL ds + 2 * ds.length ≤ u.length := by
      cases ds with
      | nil => simp [Desc.wideL]
      | cons d' ds => exact (descL_wide hL (d' :: ds) u (by simp) hu).2 (hs (by simp))
    simp only [Desc.wideL, List.length_append, List.length_cons]
    refine ⟨by omega, ?_⟩
    rintro ⟨c, hc, hw⟩
    cases w with
    | nil =>
      obtain ⟨x, t, rfl, hx⟩ := Boot.desc_head hL ha
      simp only [List.nil_append, List.cons_append, List.head?_cons, Option.some.injEq] at hc
      subst hc
      rw [hw] at hx
      cases hx
    | cons x w => simp only [List.length_cons]; omega
end

mutual
theorem desc_links (hL : L.Lawful) : (d : Desc) → ∀ cs, d.Text L cs → 2 * d.links ≤ cs.length + 1
  | .whitespace .., cs, h | .untilAnyOrWs .., cs, h | .untilAny .., cs, h | .tag .., cs, h | .text .., cs, h
  | .number .., cs, h => by simp [Desc.links]
  | .reference name p, cs, h => by
    obtain ⟨q, ⟨hn, -⟩, -, hq, rfl⟩ := h
    have := List.length_pos_iff.2 hn
    simp only [Desc.links, List.length_append]
    omega
  | .sequence args, cs, h => by
    obtain ⟨h0, a, ha, rfl⟩ := h
    have := (descL_links hL args a ha).1
    simp only [Desc.links, List.length_cons, List.length_append, List.length_nil]
    omega
  | .select args, cs, h => by
    obtain ⟨h0, a, ha, rfl⟩ := h
    have := (descL_links hL args a ha).1
    simp only [Desc.links, List.length_cons, List.length_append, List.length_nil]
    omega
  | .optional d, cs, h => by
    obtain ⟨a, ha, rfl⟩ := h
    have := desc_links hL d a ha
    simp only [Desc.links, List.length_cons]
    omega
  | .not d, cs, h => by
    obtain ⟨a, ha, -, -, rfl⟩ := h
    have := desc_links hL d a ha
    simp only [Desc.links, List.length_cons]
    omega
  | .separatedBy o t b d, cs, h => by
    obtain ⟨s, n, v, a, w, c, u, rfl, hn, -, ha, -, -, hc, -, rfl⟩ := h
    have h1 := desc_links hL b a ha
    have h2 := desc_links hL d c hc
    simp only [Desc.links, List.length_append, List.length_cons]
    omega
  | .lines i d, cs, h => by
    obtain ⟨n, v, a, u, hn, -, ha, -, rfl⟩ := h
    have h1 := desc_links hL d a ha
    simp only [Desc.links, List.length_append, List.length_cons]
    omega
  | .repeat_ o d, cs, h => by
    obtain ⟨a, ha, rfl⟩ := h
    have := desc_links hL d a ha
    simp only [Desc.links, List.length_append, List.length_cons]
    omega
theorem descL_links (hL : L.Lawful) : (ds : List Desc) → ∀ cs, Desc.TextL L ds cs →
    2 * Desc.linksL ds ≤ cs.length + 1 ∧
    ((∃ c, cs.head? = some c ∧ isWs c = true) → 2 * Desc.linksL ds ≤ cs.length)
  | [], cs, _ => by simp [Desc.linksL]
  | d :: ds, cs, h => by
    obtain ⟨w, a, u, -, ha, hu, hs, rfl⟩ := h
    have h1 := desc_links hL d a ha
    have h3 : 2 * Desc.linksL ds ≤ u.length := by
      cases ds with
      | nil => simp [Desc.linksL]
      | cons d' ds => exact (descL_links hL (d' :: ds) u hu).2 (hs (by simp))
    simp only [Desc.linksL, List.length_append]
    refine ⟨by omega, ?_⟩
    rintro ⟨c, hc, hw⟩
    cases w with
    | nil =>
      obtain ⟨x, t, rfl, hx⟩ := Boot.desc_head hL ha
      simp only [List.nil_append, List.cons_append, List.head?_cons, Option.some.injEq] at hc
      subst hc
      rw [hw] at hx
      cases hx
    | cons x w => simp only [List.length_cons]; omega
end

/-- What a node needs at least. -/
def Spec.Entry.room : Entry → Nat
  | .node _ _ d => 2 * d.links + 5
  | _ => 0

theorem entry_room (hL : L.Lawful) {e : Entry} {cs rest : Str} (h : e.Text L cs rest) : e.room ≤ cs.length + 1 := by
  cases e with
  | comment => exact Nat.zero_le _
  | string name t => exact Nat.zero_le _
  | node k name d =>
    obtain ⟨n, v, w, x, a, ⟨-, hk, -⟩, -, hv, ⟨hn, -⟩, -, -, hw, -, ha, rfl⟩ := h
    have h1 := (hL.num_some hk).1
    have h2 := List.length_pos_iff.2 hn
    have h3 := List.length_pos_iff.2 hv
    have h4 := List.length_pos_iff.2 hw
    have h5 := desc_links hL d a ha
    simp only [Entry.room, List.length_cons, List.length_append]
    omega

theorem entries_room (hL : L.Lawful) : ∀ {es : List Entry} {first : Bool} {cs : Str}, EntriesText L first es cs →
    (es.map Entry.room).sum ≤ cs.length + 1 ∧ (first = false → (es.map Entry.room).sum ≤ cs.length)
  | [], _, _, _ => by simp
  | e :: es, first, cs, h => by
    obtain ⟨w, a, u, -, hw, he, hes, rfl⟩ := h
    have h1 := entry_room hL he
    have h2 := (entries_room hL hes).2 rfl
    simp only [List.map_cons, List.sum_cons, List.length_append]
    refine ⟨by omega, fun hf => ?_⟩
    have := List.length_pos_of_mem (hw hf)
    omega

theorem strings_room : ∀ {es : List Entry}, (∀ e ∈ es, e.isNode = false) → (es.map Entry.room).sum = 0
  | [], _ => rfl
  | .comment :: es, h => by simpa [Entry.room] using strings_room fun e he => h e (by simp [he])
  | .string n t :: es, h => by
    have := strings_room fun e he => h e (List.mem_cons_of_mem _ he)
    simp [Entry.room, this]
  | .node k n d :: es, h => by cases h (.node k n d) (by simp)

theorem nodes_room : ∀ {es : List Entry}, (∀ e ∈ es, e.isString = false) →
    (es.map Entry.room).sum = ((nodesIn es).map fun n => 2 * n.2.2.links + 5).sum
  | [], _ => rfl
  | .comment :: es, h => by simpa [Entry.room, nodesIn] using nodes_room fun e he => h e (by simp [he])
  | .node k n d :: es, h => by
    have := nodes_room fun e he => h e (List.mem_cons_of_mem _ he)
    simp [Entry.room, nodesIn, this]
  | .string n t :: es, h => by cases h (.string n t) (by simp)

theorem doc_room (hL : L.Lawful) {doc : Doc} {text : Str} (h : doc.Text L text) :
    (doc.nodes.map fun n => 2 * n.2.2.links + 5).sum ≤ text.length + 1 := by
  obtain ⟨es, es', h1, h2, h3, h4, h5⟩ := h
  have h6 := (entries_room hL h3).1
  rwa [List.map_append, List.sum_append, strings_room h1, Nat.zero_add, nodes_room h2, ← h5] at h6

theorem entry_wide (hL : L.Lawful) {k : F64} {name : Str} {d : Desc} {cs rest : Str}
    (h : (Entry.node k name d).Text L cs rest) : 6 * d.wide + 6 ≤ cs.length := by
  obtain ⟨n, v, w, x, a, ⟨-, hk, -⟩, -, hv, ⟨hn, -⟩, -, -, hw, -, ha, rfl⟩ := h
  have h1 := (hL.num_some hk).1
  have h2 := List.length_pos_iff.2 hn
  have h3 := List.length_pos_iff.2 hv
  have h4 := List.length_pos_iff.2 hw
  have h5 := desc_wide hL d a ha
  simp only [List.length_cons, List.length_append]
  omega

theorem entries_wide (hL : L.Lawful) : ∀ {es : List Entry} {first : Bool} {cs : Str}, EntriesText L first es cs →
    ∀ n ∈ nodesIn es, 6 * n.2.2.wide + 6 ≤ cs.length
  | [], _, _, _ => by simp [nodesIn]
  | e :: es, first, cs, h => by
    obtain ⟨w, a, u, -, hw, he, hes, rfl⟩ := h
    have h2 := entries_wide hL hes
    intro n hn
    simp only [List.length_append]
    cases e with
    | comment => have := h2 n hn; omega
    | string => have := h2 n hn; omega
    | node k name d =>
      simp only [nodesIn, List.mem_cons] at hn
      rcases hn with rfl | hn
      · have : 6 * d.wide + 6 ≤ a.length := entry_wide hL he
        show 6 * d.wide + 6 ≤ _
        omega
      · have := h2 n hn; omega

theorem doc_wide (hL : L.Lawful) {doc : Doc} {text : Str} (h : doc.Text L text) :
    ∀ n ∈ doc.nodes, 6 * n.2.2.wide + 6 ≤ text.length := by
  obtain ⟨es, es', h1, h2, h3, h4, h5⟩ := h
  intro n hn
  refine entries_wide hL h3 n ?_
  rw [nodesIn_append, List.mem_append, ← h5]
  exact .inr hn

/-! ### In the rules -/

/-- A rule is no larger than its description. -/
structure Fits (d : Desc) (r : Rule) : Prop where
  size : 4 * outerSize r ≤ d.data.length + 2
  links : (openRefs r).length ≤ d.links
  wide : ∀ refs names, nesting refs (Rule.updateRefs names r) ≤ d.wide

/-- Rules are no larger than their descriptions. -/
structure FitsL (ds : List Desc) (rs : List Rule) : Prop where
  size : 4 * outerSizes rs ≤ (Desc.dataL ds).length
  links : (openRefsL rs).length ≤ Desc.linksL ds
  wide : ∀ refs names, nestings refs (Rule.updateRefsL names rs) ≤ Desc.wideL ds
  length : rs.length ≤ ds.length

theorem twice_length {refs : List Rule} {names : List Str} {rs : List Rule} (h : TriedTwice refs (Rule.updateRefsL names rs)) :
    3 ≤ rs.length := by
  match rs with
  | [] => exact absurd h (by simp [Rule.updateRefsL, TriedTwice])
  | [_] => exact absurd h (by simp [Rule.updateRefsL, TriedTwice])
  | [_, _] => exact absurd h (by simp [Rule.updateRefsL, TriedTwice])
  | _ :: _ :: _ :: _ => simp

mutual
theorem read_fits (s : List (Str × Str)) : (d : Desc) → ∀ i, ∀ r ∈ (d.read s i).1, Fits d r
  | .whitespace o, i, r, h => by
    cases (Option.some.inj h)
    exact ⟨by simp [outerSize, Desc.data, nodeOf_length], by simp [openRefs], by simp [Rule.updateRefs, nesting]⟩
  | .untilAnyOrWs any o p, i, r, h => by
    obtain ⟨t, id, rfl⟩ := needs_some h
    exact ⟨by simp [outerSize, Desc.data, nodeOf_length], by simp [openRefs], by simp [Rule.updateRefs, nesting]⟩
  | .untilAny any o p, i, r, h => by
    obtain ⟨t, id, rfl⟩ := needs_some h
    exact ⟨by simp [outerSize, Desc.data, nodeOf_length], by simp [openRefs], by simp [Rule.updateRefs, nesting]⟩
  | .tag neg t inv p, i, r, h => by
    obtain ⟨t, id, rfl⟩ := needs_some h
    exact ⟨by simp [outerSize, Desc.data, nodeOf_length], by simp [openRefs], by simp [Rule.updateRefs, nesting]⟩
  | .text e p, i, r, h => by
    cases (Option.some.inj h)
    exact ⟨by simp [outerSize, Desc.data, nodeOf_length], by simp [openRefs], by simp [Rule.updateRefs, nesting]⟩
  | .number u p, i, r, h => by
    cases (Option.some.inj h)
    exact ⟨by simp [outerSize, Desc.data, nodeOf_length], by simp [openRefs], by simp [Rule.updateRefs, nesting]⟩
  | .reference name p, i, r, h => by
    cases (Option.some.inj h)
    exact ⟨by simp [outerSize, Desc.data, nodeOf_length], by simp [openRefs, Desc.links], by simp [Rule.updateRefs, nesting]⟩
  | .sequence args, i, r, h => by
    cases (Option.some.inj h)
    have h1 := readL_fits s args i
    refine ⟨?_, h1.links, h1.wide⟩
    have := h1.size
    simp only [outerSize, Desc.data, nodeOf_length]; omega
  | .select args, i, r, h => by
    cases (Option.some.inj h)
    have h1 := readL_fits s args i
    refine ⟨?_, h1.links, fun refs names => ?_⟩
    · have := h1.size
      simp only [outerSize, Desc.data, nodeOf_length]; omega
    · have h2 := h1.wide refs names
      simp only [Rule.updateRefs, nesting, Desc.wide]
      split
      · next h3 =>
        have := twice_length h3
        have := h1.length
        rw [if_pos (by omega)]
        omega
      · omega
  | .optional d, i, r, h => by
    obtain ⟨q, hq, id, rfl⟩ := around_some h
    have h1 := read_fits s d i q hq
    exact ⟨by have := h1.size; simp only [outerSize, Desc.data, nodeOf_length]; omega, h1.links, h1.wide⟩
  | .not d, i, r, h => by
    obtain ⟨q, hq, id, rfl⟩ := around_some h
    have h1 := read_fits s d i q hq
    exact ⟨by have := h1.size; simp only [outerSize, Desc.data, nodeOf_length]; omega, h1.links, h1.wide⟩
  | .lines ind d, i, r, h => by
    obtain ⟨q, hq, id, rfl⟩ := around_some h
    have h1 := read_fits s d i q hq
    exact ⟨by have := h1.size; simp only [outerSize, Desc.data, nodeOf_length, List.length_append]; omega, h1.links, h1.wide⟩
  | .repeat_ o d, i, r, h => by
    obtain ⟨q, hq, id, rfl⟩ := around_some h
    have h1 := read_fits s d i q hq
    exact ⟨by have := h1.size; simp only [outerSize, Desc.data, nodeOf_length, List.length_cons]; omega, h1.links, h1.wide⟩
  | .separatedBy o t b d, i, r, h => by
    simp only [Desc.read] at h
    split at h
    · cases h
    · rename_i b' hb
      obtain ⟨q, hq, id, rfl⟩ := around_some h
      have h1 := read_fits s b i b' hb
      have h2 := read_fits s d _ q hq
      refine ⟨?_, ?_, fun refs names => ?_⟩
      · have := h1.size
        have := h2.size
        simp only [outerSize, Desc.data, nodeOf_length, List.length_append]; omega
      · have := h1.links
        have := h2.links
        simp only [openRefs, Desc.links, List.length_append]; omega
      · have := h1.wide refs names
        have := h2.wide refs names
        simp only [Rule.updateRefs, nesting, Desc.wide]; omega
theorem readL_fits (s : List (Str × Str)) : (ds : List Desc) → ∀ i, FitsL ds (Desc.readL s ds i).1
  | [], i => ⟨by simp [Desc.readL, outerSizes], by simp [Desc.readL, openRefsL], by simp [Desc.readL, Rule.updateRefsL, nestings],
      by simp [Desc.readL]⟩
  | d :: ds, i => by
    have h1 := readL_fits s ds (d.read s i).2.1
    have h2 := read_fits s d i
    simp only [Desc.readL]
    cases hr : (d.read s i).1 with
    | none =>
      refine ⟨?_, ?_, fun refs names => ?_, ?_⟩
      · have := h1.size
        simp only [Option.toList, List.nil_append, Desc.dataL, List.length_append]; omega
      · have := h1.links
        simp only [Option.toList, List.nil_append, Desc.linksL]; omega
      · have := h1.wide refs names
        simp only [Option.toList, List.nil_append, Desc.wideL]; omega
      · have := h1.length
        simp only [Option.toList, List.nil_append, List.length_cons]; omega
    | some r =>
      have h2 := h2 r hr
      refine ⟨?_, ?_, fun refs names => ?_, ?_⟩
      · have := h1.size
        have := h2.size
        simp only [Option.toList, List.cons_append, List.nil_append, Desc.dataL, List.length_append, outerSizes, nodeOf_length]; omega
      · have := h1.links
        have := h2.links
        simp only [Option.toList, List.cons_append, List.nil_append, Desc.linksL, openRefsL, List.length_append]; omega
      · have := h1.wide refs names
        have := h2.wide refs names
        simp only [Option.toList, List.cons_append, List.nil_append, Desc.wideL, Rule.updateRefsL, nestings]; omega
      · have := h1.length
        simp only [Option.toList, List.cons_append, List.nil_append, List.length_cons]; omega
end

/-- The rules of a document. -/
theorem doc_fits (s : List (Str × Str)) : ∀ {ns : List (F64 × Str × Desc)} {rs : List (Str × Rule)}, (Doc.read s ns).1 = some rs →
    rs.length = ns.length ∧
    4 * outerSizes (rs.map (·.2)) + 4 * rs.length ≤ (ns.map fun n => 6 + n.2.2.data.length).sum ∧
    2 * (openRefsL (rs.map (·.2))).length + 5 * rs.length ≤ (ns.map fun n => 2 * n.2.2.links + 5).sum ∧
    ∀ refs names, nestings refs (Rule.updateRefsL names (rs.map (·.2))) ≤ Desc.wideL (ns.map (·.2.2))
  | [], rs, h => by cases h; simp [outerSizes, openRefsL, nestings, Rule.updateRefsL]
  | (k, name, d) :: ns, rs, h => by
    simp only [Doc.read] at h
    split at h
    · cases h
    · rename_i r hr
      obtain ⟨rs', h1, rfl⟩ := Option.map_eq_some_iff.1 h
      obtain ⟨h2, h3, h4, h5⟩ := doc_fits s h1
      have h6 := read_fits s d _ r hr
      refine ⟨by simp [h2], ?_, ?_, fun refs names => ?_⟩
      · have := h6.size
        simp only [List.map_cons, outerSizes, List.length_cons, List.sum_cons]; omega
      · have := h6.links
        simp only [List.map_cons, openRefsL, List.length_cons, List.sum_cons, List.length_append]; omega
      · have := h6.wide refs names
        have := h5 refs names
        simp only [List.map_cons, Rule.updateRefsL, nestings, Desc.wideL]; omega

end Verif
