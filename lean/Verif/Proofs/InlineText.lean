import Verif.Proofs.Inline
import Verif.Proofs.Print
/-
A rule file without strings: there is one for each rule file whose strings are not empty.
-/
namespace Verif
open Spec

variable {L : Lexer} {strings : List (Str × Str)}

theorem lookup_mem {n t : Str} : ∀ {strings : List (Str × Str)}, strings.lookup n = some t → (n, t) ∈ strings
  | [], h => by simp at h
  | (m, s) :: ss, h => by
    simp only [List.lookup_cons] at h
    split at h
    · rename_i e
      cases h
      rw [beq_iff_eq] at e
      simp [e]
    · exact List.mem_cons_of_mem _ (lookup_mem h)

theorem inline_set (hL : L.Lawful) (hs : ∀ s ∈ strings, s.2 ≠ []) {v : SetV} {e : Bool} {a : Str} (h : v.Text L e a) :
    ∃ a', (v.inline strings).Text L e a' ∧ (a.head? = some '_' ∨ a' = a) := by
  cases v with
  | value s => exact ⟨a, h, .inr rfl⟩
  | ref n =>
    simp only [SetV.inline]
    cases e' : strings.lookup n with
    | none => exact ⟨a, h, .inr rfl⟩
    | some t =>
      refine ⟨quoted t, ⟨quoted_lit hL t, fun h => absurd (quoted_empty h) (hs _ (lookup_mem e'))⟩, .inl ?_⟩
      rw [h.2]
      rfl

theorem inline_prop (hL : L.Lawful) (hs : ∀ s ∈ strings, s.2 ≠ []) {p : Option SetV} {a : Str} (h : PropText L p a) :
    ∃ a', PropText L (p.map (·.inline strings)) a' := by
  cases p with
  | none => exact ⟨a, h⟩
  | some v =>
    obtain ⟨b, hb, rfl⟩ := h
    obtain ⟨b', hb', -⟩ := inline_set hL hs hb
    exact ⟨_, b', hb', rfl⟩

theorem inlineL_ne {args : List Desc} (h : args ≠ []) : Desc.inlineL strings args ≠ [] := by
  cases args with
  | nil => exact absurd rfl h
  | cons d ds => simp [Desc.inlineL]

mutual
theorem inline_desc (hL : L.Lawful) (hs : ∀ s ∈ strings, s.2 ≠ []) : (d : Desc) → ∀ {cs : Str}, d.Text L cs →
    ∃ cs', (d.inline strings).Text L cs' ∧ (cs.head? = some '_' ∨ cs'.head? = cs.head?)
  | .whitespace o, cs, h => ⟨cs, h, .inr rfl⟩
  | .untilAnyOrWs any o p, cs, ⟨a, b, q, ha, ho, hq, e⟩ => by
    obtain ⟨a', ha', -⟩ := inline_set hL hs ha
    obtain ⟨q', hq'⟩ := inline_prop hL hs hq
    exact ⟨_, ⟨a', b, q', ha', ho, hq', rfl⟩, .inr (by rw [e]; rfl)⟩
  | .untilAny any o p, cs, ⟨a, b, q, ha, ho, hq, e⟩ => by
    obtain ⟨a', ha', -⟩ := inline_set hL hs ha
    obtain ⟨q', hq'⟩ := inline_prop hL hs hq
    exact ⟨_, ⟨a', b, q', ha', ho, hq', rfl⟩, .inr (by rw [e]; rfl)⟩
  | .tag neg t inv none, cs, ⟨n, a, hn, ha, hi, e⟩ => by
    obtain ⟨a', ha', hh⟩ := inline_set hL hs ha
    refine ⟨_, ⟨n, a', hn, ha', hi, rfl⟩, ?_⟩
    cases neg with
    | none =>
      cases hn
      subst e
      rcases hh with hh | rfl
      · exact .inl hh
      · exact .inr rfl
    | some b => obtain ⟨-, rfl⟩ := hn; subst e; exact .inr rfl
  | .tag neg t inv (some v), cs, ⟨n, a, i, b, hn, ha, hi, hb, e⟩ => by
    obtain ⟨a', ha', hh⟩ := inline_set hL hs ha
    obtain ⟨b', hb', -⟩ := inline_set hL hs hb
    refine ⟨_, ⟨n, a', i, b', hn, ha', hi, hb', rfl⟩, ?_⟩
    cases neg with
    | none =>
      cases hn
      subst e
      obtain ⟨c, s, rfl, -⟩ := Boot.setText_head hL ha
      rcases hh with hh | rfl
      · exact .inl hh
      · exact .inr rfl
    | some b => obtain ⟨-, rfl⟩ := hn; subst e; exact .inr rfl
  | .text em p, cs, ⟨b, q, hb, hq, e⟩ => by
    obtain ⟨q', hq'⟩ := inline_prop hL hs hq
    exact ⟨_, ⟨b, q', hb, hq', rfl⟩, .inr (by rw [e]; rfl)⟩
  | .number u p, cs, ⟨n, q, hn, hq, e⟩ => by
    obtain ⟨q', hq'⟩ := inline_prop hL hs hq
    exact ⟨_, ⟨n, q', hn, hq', rfl⟩, .inr (by rw [e]; rfl)⟩
  | .reference name p, cs, ⟨q, hn, h0, hq, e⟩ => by
    obtain ⟨q', hq'⟩ := inline_prop hL hs hq
    refine ⟨_, ⟨q', hn, h0, hq', rfl⟩, .inr ?_⟩
    rw [e]
    cases name with
    | nil => exact absurd rfl hn.1
    | cons c s => rfl
  | .sequence args, cs, ⟨h0, a, ha, e⟩ => by
    obtain ⟨a', ha'⟩ := inline_descs hL hs args ha
    exact ⟨_, ⟨inlineL_ne h0, _, ha', rfl⟩, .inr (by rw [e]; rfl)⟩
  | .select args, cs, ⟨h0, a, ha, e⟩ => by
    obtain ⟨a', ha'⟩ := inline_descs hL hs args ha
    exact ⟨_, ⟨inlineL_ne h0, _, ha', rfl⟩, .inr (by rw [e]; rfl)⟩
  | .optional d, cs, ⟨a, ha, e⟩ => by
    obtain ⟨a', ha', -⟩ := inline_desc hL hs d ha
    exact ⟨_, ⟨a', ha', rfl⟩, .inr (by rw [e]; rfl)⟩
  | .not d, cs, ⟨a, ha, h1, h2, e⟩ => by
    obtain ⟨a', ha', hh⟩ := inline_desc hL hs d ha
    replace hh := hh.resolve_left h2
    exact ⟨_, ⟨a', ha', by rwa [hh], by rwa [hh], rfl⟩, .inr (by rw [e]; rfl)⟩
  | .separatedBy o t b d, cs, ⟨s, n, v, a, w, c, u, ho, hn, hv, ha, hw, hw0, hc, hu, e⟩ => by
    obtain ⟨a', ha', -⟩ := inline_desc hL hs b ha
    obtain ⟨c', hc', -⟩ := inline_desc hL hs d hc
    exact ⟨_, ⟨s, n, v, a', w, c', u, ho, hn, hv, ha', hw, hw0, hc', hu, rfl⟩, .inr (by rw [e]; rfl)⟩
  | .lines i d, cs, ⟨n, v, a, u, hn, hv, ha, hu, e⟩ => by
    obtain ⟨a', ha', -⟩ := inline_desc hL hs d ha
    exact ⟨_, ⟨n, v, a', u, hn, hv, ha', hu, rfl⟩, .inr (by rw [e]; rfl)⟩
  | .repeat_ o d, cs, ⟨a, ha, e⟩ => by
    obtain ⟨a', ha', -⟩ := inline_desc hL hs d ha
    exact ⟨_, ⟨a', ha', rfl⟩, .inr (by rw [e]; rfl)⟩
theorem inline_descs (hL : L.Lawful) (hs : ∀ s ∈ strings, s.2 ≠ []) : (ds : List Desc) → ∀ {cs : Str}, Desc.TextL L ds cs →
    ∃ cs', Desc.TextL L (Desc.inlineL strings ds) (' ' :: cs')
  | [], cs, h => ⟨[], by simp [Desc.inlineL, Desc.TextL, Space]; decide⟩
  | d :: ds, cs, ⟨w, a, u, hw, ha, hu, _, e⟩ => by
    obtain ⟨a', ha', -⟩ := inline_desc hL hs d ha
    obtain ⟨u', hu'⟩ := inline_descs hL hs ds hu
    exact ⟨_, [' '], a', ' ' :: u', by simp [Space]; decide, ha', hu', fun _ => ⟨' ', rfl, by decide⟩, rfl⟩
end

theorem entry_text {e : Entry} : ∀ {es : List Entry} {f : Bool} {cs : Str}, EntriesText L f es cs → e ∈ es →
    ∃ a rest, e.Text L a rest
  | _ :: _, _, _, ⟨_, _, _, _, _, h, h', _⟩, he => by
    rcases List.mem_cons.1 he with rfl | he
    · exact ⟨_, _, h⟩
    · exact entry_text h' he

theorem mem_nodesIn {x : F64 × Str × Desc} : ∀ {es : List Entry}, x ∈ nodesIn es → Entry.node x.1 x.2.1 x.2.2 ∈ es
  | .node k n d :: es, h => by
    rcases List.mem_cons.1 h with rfl | h
    · simp
    · exact List.mem_cons_of_mem _ (mem_nodesIn h)
  | .comment :: es, h => List.mem_cons_of_mem _ (mem_nodesIn (es := es) h)
  | .string _ _ :: es, h => List.mem_cons_of_mem _ (mem_nodesIn (es := es) h)

/-- Nodes that can be written one by one. -/
theorem nodes_text : (ns : List (F64 × Str × Desc)) → (∀ n ∈ ns, Writable L n.1 ∧ IsName n.2.1 ∧ n.2.1.head? ≠ some '_' ∧
      ∃ cs, n.2.2.Text L cs) →
    ∃ text, EntriesText L false (ns.map fun n => .node n.1 n.2.1 n.2.2) ('\n' :: text) ∧
      EntriesText L true (ns.map fun n => .node n.1 n.2.1 n.2.2) text
  | [], _ => ⟨[], by simp [EntriesText, Space]; decide, by simp [EntriesText, Space]⟩
  | n :: ns, h => by
    obtain ⟨text, ht, -⟩ := nodes_text ns fun n hn => h n (List.mem_cons_of_mem _ hn)
    obtain ⟨⟨digits, hd⟩, h1, h2, cs, hcs⟩ := h n (by simp)
    have hsp : Space [' '] := by simp [Space]; decide
    have he : (Entry.node n.1 n.2.1 n.2.2).Text L (digits ++ ([' '] ++ (n.2.1 ++ ([' '] ++ '=' :: ([' '] ++ cs))))) ('\n' :: text) :=
      ⟨digits, [' '], [' '], [' '], cs, hd _ _ (by decide), hsp, by simp, h1, h2, hsp, by simp, hsp, hcs, rfl⟩
    exact ⟨_, ⟨['\n'], _, _, by simp [Space]; decide, by simp, he, ht, rfl⟩, ⟨[], _, _, by simp [Space], by simp, he, ht, rfl⟩⟩

theorem doc_nodes {doc : Doc} {text : Str} (h : doc.Text L text) {n : F64 × Str × Desc} (hn : n ∈ doc.nodes) :
    IsName n.2.1 ∧ n.2.1.head? ≠ some '_' ∧ ∃ cs, n.2.2.Text L cs := by
  obtain ⟨es, es', -, -, h, -, e⟩ := h
  rw [e] at hn
  obtain ⟨a, rest, he⟩ := entry_text h (List.mem_append_right es (mem_nodesIn hn))
  obtain ⟨_, _, _, _, cs, -, -, -, h1, h2, -, -, -, h3, -⟩ := he
  exact ⟨h1, h2, cs, h3⟩

theorem nodesIn_back (ns : List (F64 × Str × Desc)) : nodesIn (ns.map fun n => .node n.1 n.2.1 n.2.2) = ns := by
  induction ns with
  | nil => rfl
  | cons n ns ih => simp [nodesIn, ih]

theorem doc_of_nodes (ns : List (F64 × Str × Desc)) (h : ∀ n ∈ ns, Writable L n.1 ∧ IsName n.2.1 ∧ n.2.1.head? ≠ some '_' ∧
      ∃ cs, n.2.2.Text L cs) : ∃ text, (⟨[], ns⟩ : Doc).Text L text := by
  obtain ⟨text, -, ht⟩ := nodes_text ns h
  refine ⟨text, [], _, by simp, ?_, ht, rfl, (nodesIn_back ns).symm⟩
  intro e he
  obtain ⟨n, -, rfl⟩ := List.mem_map.1 he
  rfl

theorem inline_doc (hL : L.Lawful) {doc : Doc} {text : Str} (h : doc.Text L text) (hs : ∀ s ∈ doc.strings, s.2 ≠ [])
    (hk : ∀ n ∈ doc.nodes, Writable L n.1) : ∃ text', doc.inline.Text L text' := by
  refine doc_of_nodes _ fun n hn => ?_
  obtain ⟨m, hm, rfl⟩ := List.mem_map.1 hn
  obtain ⟨h1, h2, cs, h3⟩ := doc_nodes h hm
  obtain ⟨cs', h4, -⟩ := inline_desc hL hs _ h3
  exact ⟨hk m hm, h1, h2, cs', h4⟩

end Verif
