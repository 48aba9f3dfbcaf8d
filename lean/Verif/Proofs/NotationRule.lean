import Verif.Proofs.Notation
/-
The bootstrap rule `rule` reads the notation of a rule.
-/
namespace Verif
open Spec

namespace Boot

variable {pl : Bool} {E : Env} {cs rest : Str} {ds : List MetaData}

theorem follow_space {u : Str} {c : Char} {s : Str} (hu : Space u) (hc : c = ']' ∨ c = '}' ∨ c = ')') :
    Follow (u ++ c :: s) := by
  intro x hx
  cases u with
  | nil =>
    simp only [List.nil_append, List.head?_cons, Option.some.injEq] at hx
    subst hx
    exact .inr hc
  | cons y t =>
    simp only [List.cons_append, List.head?_cons, Option.some.injEq] at hx
    subst hx
    exact .inl (hu y (by simp))

theorem follow_ws {w : Str} {s : Str} (hw : Space w) (h0 : w ≠ []) : Follow (w ++ s) := by
  intro x hx
  cases w with
  | nil => exact absurd rfl h0
  | cons y t =>
    simp only [List.cons_append, List.head?_cons, Option.some.injEq] at hx
    subst hx
    exact .inl (hw y (by simp))

theorem headWs {a s : Str} (h : ∃ c t, a = c :: t ∧ isWs c = false) :
    ∀ c, (a ++ s).head? = some c → isWs c = false := by
  obtain ⟨c, t, rfl, hc⟩ := h
  intro c' e
  simp only [List.cons_append, List.head?_cons, Option.some.injEq] at e
  exact e ▸ hc

theorem head_app {a s : Str} (h : ∃ c t, a = c :: t ∧ isWs c = false) : ∃ c t, a ++ s = c :: t ∧ isWs c = false := by
  obtain ⟨c, t, rfl, hc⟩ := h
  exact ⟨c, t ++ s, rfl, hc⟩

theorem headWs1 {c : Char} {s : Str} (h : isWs c = false) :
    ∀ c', (c :: s).head? = some c' → isWs c' = false := by
  intro c' e
  simp only [List.head?_cons, Option.some.injEq] at e
  exact e ▸ h

/-- What follows a rule in a list. -/
theorem follow_list {b : Char} (hb : b = ']' ∨ b = '}') {ds : List Desc} {u : Str} (hu : Desc.TextL E.L ds u)
    (h0 : ds ≠ [] → ∃ c, u.head? = some c ∧ isWs c = true) : Follow (u ++ b :: rest) := by
  cases ds with
  | nil => exact follow_space hu (by rcases hb with rfl | rfl <;> simp)
  | cons d ds =>
    obtain ⟨c, e, hc⟩ := h0 (by simp)
    intro x hx
    cases u with
    | nil => cases e
    | cons y t => cases e; cases hx; exact .inl hc

mutual
theorem desc_reads (hE : E.refs = refsOf pl) (hL : E.L.Lawful) : (d : Desc) → (cs rest : Str) →
    (pl = false → d.plain = true) → d.Text E.L cs → Follow rest → Reads E (.rule rule) cs rest d.data
  | .whitespace o, cs, rest, hp, h, hf => by
    cases h
    exact reads_select (reads_here (reads_node (by rw [hE]; rfl) (whitespace_reads hE o)))
  | .untilAnyOrWs any o p, cs, rest, hp, h, hf => by
    obtain ⟨a, b, q, ha, rfl, hq, rfl⟩ := h
    exact reads_select (skip (by rw [hE]; rfl) (by simp)
      (reads_here (reads_node (by rw [hE]; rfl) (untilAnyOrWs_reads hE hL ha hq hf))))
  | .untilAny any o p, cs, rest, hp, h, hf => by
    obtain ⟨a, b, q, ha, rfl, hq, rfl⟩ := h
    exact reads_select (skip (by rw [hE]; rfl) (by simp)
      (reads_next (refuses_node (by rw [hE]; rfl)
        (untilWs_refuses (cs := '.' :: (a ++ sign b :: q) ++ rest) hE hL (by simp) (by simp)))
      (reads_here (reads_node (by rw [hE]; rfl) (untilAny_reads hE hL ha hq hf)))))
  | .text e p, cs, rest, hp, h, hf => by
    obtain ⟨b, q, rfl, hq, rfl⟩ := h
    refine reads_select ?_
    iterate 6 refine skip (by rw [hE]; rfl) (by simp) ?_
    exact reads_here (reads_node (by rw [hE]; rfl) (text_reads hE hL hq hf))
  | .number u p, cs, rest, hp, h, hf => by
    obtain ⟨n, q, hn, hq, rfl⟩ := h
    refine reads_select ?_
    iterate 5 refine skip (by rw [hE]; rfl) (by simp) ?_
    exact reads_here (reads_node (by rw [hE]; rfl) (number_reads hE hL hn hq hf))
  | .lines i d, cs, rest, hp, h, hf => by
    obtain ⟨n, v, a, u, hn, hv, ha, hu, rfl⟩ := h
    have ih := desc_reads hE hL d a (u ++ ')' :: rest) (fun e => (by simpa [Desc.plain] using hp e : _ ∧ _).2) ha
      (follow_space hu (by simp))
    refine reads_select ?_
    iterate 3 refine skip (by rw [hE]; rfl) (by simp) ?_
    cases pl with
    | false =>
      cases i with
      | some b => simp [Desc.plain] at hp
      | none =>
        cases hn
        refine (reads_here (reads_node (cs := c!".l(" ++ (v ++ (a ++ (u ++ [')'])))) (r := linesOf false)
          (by rw [hE]; rfl) (reads_sequence (reads_cons reads_tag (reads_cons
          (reads_ws hv (headWs (head_app (desc_head hL ha))) fun _ => rfl) (reads_cons
          (reads_node (by rw [hE]; rfl) (by simpa using ih)) (reads_cons
          (reads_ws hu (headWs1 (by decide)) fun _ => rfl) (reads_last reads_tag)))))))).cast ?_
        simp [Desc.data, flag]
    | true =>
    refine (reads_here (reads_node (by rw [hE]; rfl) (reads_sequence (reads_cons reads_tag (reads_cons
      (switch_reads hn fun _ => by simp) (reads_cons1 reads_tag (reads_cons
      (reads_ws hv (headWs (head_app (desc_head hL ha))) fun _ => rfl) (reads_cons
      (reads_node (by rw [hE]; rfl) (by simpa using ih)) (reads_cons
      (reads_ws hu (headWs1 (by decide)) fun _ => rfl) (reads_last reads_tag)))))))))).cast ?_
    simp [Desc.data]
  | .repeat_ o d, cs, rest, hp, h, hf => by
    obtain ⟨a, ha, rfl⟩ := h
    have ih := desc_reads hE hL d a (')' :: rest) hp ha (follow_space (u := []) (by simp [Space]) (by simp))
    refine reads_select ?_
    iterate 4 refine skip (by rw [hE]; rfl) (by simp) ?_
    refine (reads_here (reads_node (by rw [hE]; rfl) (reads_sequence (reads_cons reads_tag (reads_cons1
      (reads_nodeNone (by rw [hE]; rfl) (opt_reads o)) (reads_cons1 reads_tag (reads_cons
      (reads_node (by rw [hE]; rfl) ih) (reads_last reads_tag)))))))).cast ?_
    simp [Desc.data]
  | .reference name p, cs, rest, hp, h, hf => by
    obtain ⟨q, hn, h0, hq, rfl⟩ := h
    have hd : ∀ t, ¬ ('.' :: t) <+: name ++ q ++ rest := fun t => not_prefix (by
      obtain ⟨c, t, rfl, hc⟩ := name_cons hn
      simpa using nameChar_ne hc (by decide))
    refine reads_select ?_
    iterate 7 refine skip (by rw [hE]; rfl) (hd _) ?_
    exact reads_here (reads_node (by rw [hE]; rfl) (reference_reads hE hL hn h0 hq hf))
  | .sequence args, cs, rest, hp, h, hf => by
    obtain ⟨h0, a, ha, rfl⟩ := h
    obtain ⟨w, a, rfl, hw, ha, ih⟩ := list_reads hE hL (b := ']') (i := 10006) (j := 10005) (k := 10004) (.inl rfl) args h0 _ rest hp ha
    rw [List.append_assoc]
    refine reads_select ?_
    iterate 7 refine skip (by rw [hE]; rfl) (by simp) ?_
    refine reads_next (refuses_node (by rw [hE]; rfl) (reference_refuses (noName_refs (by decide)))) ?_
    refine (reads_here (reads_node (by rw [hE]; rfl) (reads_sequence (reads_cons1 reads_tag (b := w ++ (a ++ [']']))
      (reads_cons (reads_ws hw (headWs (head_app ha)) fun _ => rfl) (reads_cons ih (reads_last reads_tag))))))).cast ?_
    simp [Desc.data]
  | .select args, cs, rest, hp, h, hf => by
    obtain ⟨h0, a, ha, rfl⟩ := h
    obtain ⟨w, a, rfl, hw, ha, ih⟩ := list_reads hE hL (b := '}') (i := 11006) (j := 11005) (k := 11004) (.inr rfl) args h0 _ rest hp ha
    rw [List.append_assoc]
    refine reads_select ?_
    iterate 7 refine skip (by rw [hE]; rfl) (by simp) ?_
    refine reads_next (refuses_node (by rw [hE]; rfl) (reference_refuses (noName_refs (by decide)))) ?_
    refine skip (by rw [hE]; rfl) (by simp) ?_
    refine (reads_here (reads_node (by rw [hE]; rfl) (reads_sequence (reads_cons1 reads_tag (b := w ++ (a ++ ['}']))
      (reads_cons (reads_ws hw (headWs (head_app ha)) fun _ => rfl) (reads_cons ih (reads_last reads_tag))))))).cast ?_
    simp [Desc.data]
  | .separatedBy o t b d, cs, rest, hp, h, hf => by
    obtain ⟨s, n, v, a, w, c, u, rfl, hn, hv, hb, hw, hw0, hd, hu, rfl⟩ := h
    have ih := desc_reads hE hL b a (w ++ (c ++ (u ++ ')' :: rest))) (fun e => (by simpa [Desc.plain] using hp e : _ ∧ _).1) hb (follow_ws hw hw0)
    have ih' := desc_reads hE hL d c (u ++ ')' :: rest) (fun e => (by simpa [Desc.plain] using hp e : _ ∧ _).2) hd (follow_space hu (by simp))
    refine reads_select ?_
    iterate 7 refine skip (by rw [hE]; rfl) (by simp) ?_
    refine reads_next (refuses_node (by rw [hE]; rfl) (reference_refuses (noName_refs (by decide)))) ?_
    iterate 2 refine skip (by rw [hE]; rfl) (by simp) ?_
    refine (reads_here (reads_node (by rw [hE]; rfl) (reads_sequence (reads_cons reads_tag (reads_cons1
      (reads_nodeNone (by rw [hE]; rfl) (opt_reads s)) (reads_cons
      (switch_reads hn fun _ => by simp) (reads_cons1 reads_tag (reads_cons
      (reads_ws hv (headWs (head_app (desc_head hL hb))) fun _ => rfl) (reads_cons
      (reads_node (by rw [hE]; rfl) (by simpa using ih)) (reads_cons
      (reads_ws hw (headWs (head_app (desc_head hL hd))) fun e => absurd e hw0) (reads_cons
      (reads_node (by rw [hE]; rfl) (by simpa using ih')) (reads_cons
      (reads_ws hu (headWs1 (by decide)) fun _ => rfl) (reads_last reads_tag))))))))))))).cast ?_
    simp [Desc.data, flag]
  | .tag neg t inv none, cs, rest, hp, h, hf => by
    obtain ⟨n, a, hn, ha, rfl, rfl⟩ := h
    have h := tag_select hE hL (r := []) hn ha (ds := flag c!"not" neg ++ t.data c!"text") (rest := rest)
      (by simpa using tag_reads hE hL hn ha hf)
    refine Reads.cast (by simpa using h) ?_
    simp [Desc.data, propData, flag]
  | .tag neg t inv (some v), cs, rest, hp, h, hf => by
    obtain ⟨n, a, i, b, hn, ha, hi, hb, rfl⟩ := h
    refine (tag_select hE hL hn ha (tagProp_reads hE hL hn ha hi hb hf)).cast ?_
    simp [Desc.data, propData]
  | .optional d, cs, rest, hp, h, hf => by
    obtain ⟨a, ha, rfl⟩ := h
    have ih := desc_reads hE hL d a rest hp ha hf
    refine reads_select ?_
    iterate 7 refine skip (by rw [hE]; rfl) (by simp) ?_
    refine reads_next (refuses_node (by rw [hE]; rfl) (reference_refuses (noName_refs (by decide)))) ?_
    iterate 3 refine skip (by rw [hE]; rfl) (by simp) ?_
    refine reads_next (refuses_node (by rw [hE]; rfl) (tag_refuses hE hL (by simp) (by simp) (by simp))) ?_
    exact (reads_here (reads_node (by rw [hE]; rfl) (reads_sequence (reads_cons1 reads_tag
      (reads_last (reads_node (by rw [hE]; rfl) ih)))))).cast rfl
  | .not d, cs, rest, hp, h, hf => by
    obtain ⟨a, ha, h1, h2, rfl⟩ := h
    have ih := desc_reads hE hL d a rest hp ha hf
    obtain ⟨c, t, rfl, -⟩ := desc_head hL ha
    refine reads_select ?_
    iterate 7 refine skip (by rw [hE]; rfl) (by simp) ?_
    refine reads_next (refuses_node (by rw [hE]; rfl) (reference_refuses (noName_refs (by decide)))) ?_
    iterate 3 refine skip (by rw [hE]; rfl) (by simp) ?_
    refine reads_next (refuses_node (by rw [hE]; rfl) (tag_refusesNot hE hL (by simpa using h1) (by simpa using h2))) ?_
    refine skip (by rw [hE]; rfl) (by simp) ?_
    exact (reads_here (reads_node (by rw [hE]; rfl) (reads_sequence (reads_cons1 reads_tag
      (reads_last (reads_node (by rw [hE]; rfl) ih)))))).cast rfl

theorem list_reads (hE : E.refs = refsOf pl) (hL : E.L.Lawful) {b : Char} (hb : b = ']' ∨ b = '}') {i j k : Nat} :
    (ds : List Desc) → ds ≠ [] → (cs rest : Str) → (pl = false → Desc.plainL ds = true) → Desc.TextL E.L ds cs →
    ∃ w a, cs = w ++ a ∧ Space w ∧ (∃ c t, a = c :: t ∧ isWs c = false) ∧
      Reads E (.rule (.separateBy (.node c!"rule" (some c!"rule") (some 21) i) (.whitespace false j) false true k))
        a (b :: rest) (Desc.dataL ds)
  | [], h, _, _, _, _ => absurd rfl h
  | d :: ds, _, cs, rest, hp, h => by
    have hp1 : pl = false → d.plain = true := fun e => (by simpa [Desc.plainL] using hp e : _ ∧ _).1
    have hp2 : pl = false → Desc.plainL ds = true := fun e => (by simpa [Desc.plainL] using hp e : _ ∧ _).2
    obtain ⟨w, a, u, hw, ha, hu, h0, rfl⟩ := h
    obtain ⟨c, t, e, hc⟩ := desc_head hL ha
    refine ⟨w, a ++ u, rfl, hw, ⟨c, t ++ u, by rw [e]; rfl, hc⟩, ?_⟩
    exact (reads_sepFirst (reads_node (by rw [hE]; rfl) (desc_reads hE hL d a _ hp1 ha (follow_list hb hu h0)))
      (tail_reads hE hL hb ds u rest hp2 hu h0)).cast rfl

theorem tail_reads (hE : E.refs = refsOf pl) (hL : E.L.Lawful) {b : Char} (hb : b = ']' ∨ b = '}') {i j : Nat} :
    (ds : List Desc) → (cs rest : Str) → (pl = false → Desc.plainL ds = true) → Desc.TextL E.L ds cs →
    (ds ≠ [] → ∃ c, cs.head? = some c ∧ isWs c = true) →
    Reads E (.sepTail (.node c!"rule" (some c!"rule") (some 21) i) (.whitespace false j) true)
        cs (b :: rest) (Desc.dataL ds)
  | [], cs, rest, _, h, _ => by
    have hw : isWs b = false := by rcases hb with rfl | rfl <;> decide
    by_cases h0 : cs = []
    · subst h0
      exact reads_sepStop (refuses_ws (headWs1 hw))
    · exact reads_sepTrail (reads_ws h (headWs1 hw) fun e => absurd e h0)
        (refuses_node (by rw [hE]; rfl) (rule_refuses hE hL hb))
  | d :: ds, cs, rest, hp, h, hc => by
    have hp1 : pl = false → d.plain = true := fun e => (by simpa [Desc.plainL] using hp e : _ ∧ _).1
    have hp2 : pl = false → Desc.plainL ds = true := fun e => (by simpa [Desc.plainL] using hp e : _ ∧ _).2
    obtain ⟨w, a, u, hw, ha, hu, h0, rfl⟩ := h
    have hw0 : w ≠ [] := by
      rintro rfl
      obtain ⟨c, e, hc'⟩ := hc (by simp)
      obtain ⟨x, t, rfl, hx⟩ := desc_head hL ha
      simp only [List.nil_append, List.cons_append, List.head?_cons, Option.some.injEq] at e
      rw [← e, hx] at hc'
      cases hc'
    exact (reads_sepMore (reads_ws hw (headWs (desc_head hL ha)) fun e => absurd e hw0)
      (reads_node (by rw [hE]; rfl) (desc_reads hE hL d a _ hp1 ha (follow_list hb hu h0)))
      (tail_reads hE hL hb ds u rest hp2 hu h0)).cast rfl
end

end Boot
end Verif
