import Verif.Proofs.NotationExact
import Verif.Proofs.Sayable
/-
How much data a rule file gives.
-/
namespace Verif
open Spec

variable {L : Lexer}

theorem lit_length (hL : L.Lawful) {s cs : Str} (h : IsLit L s cs) : 2 ≤ cs.length := by
  have := (h []).1
  exact (hL.str_some this).1

theorem setText_length (hL : L.Lawful) {v : SetV} {e : Bool} {cs : Str} (h : v.Text L e cs) : 2 ≤ cs.length := by
  cases v with
  | value s => exact lit_length hL h.1
  | ref n =>
    obtain ⟨⟨hn, -⟩, rfl⟩ := h
    cases n with
    | nil => exact absurd rfl hn
    | cons c n => simp

theorem set_data_length (v : SetV) (p : Str) : (v.data p).length = 3 := by
  cases v <;> rfl

theorem prop_length (hL : L.Lawful) {p : Option SetV} {cs : Str} (h : PropText L p cs) : (propData p).length ≤ cs.length := by
  cases p with
  | none => simp [propData]
  | some v =>
    obtain ⟨a, ha, rfl⟩ := h
    have := setText_length hL ha
    simp only [propData, set_data_length, List.length_cons]
    omega

theorem flag_length {c : Char} {o : Option Bool} {cs p : Str} (h : Switch c o cs) : (flag p o).length = cs.length := by
  cases o with
  | none => subst h; rfl
  | some b => obtain ⟨-, rfl⟩ := h; rfl

theorem nodeOf_length (p : Str) (l : List MetaData) : (nodeOf p l).length = l.length + 2 := by
  simp [nodeOf]

mutual
/-- Of each character of a rule at most four items. -/
theorem desc_length (hL : L.Lawful) : (d : Desc) → ∀ cs, d.Text L cs → d.data.length + 1 ≤ 4 * cs.length
  | .whitespace o, cs, h => by
    cases h
    simp [Desc.data, nodeOf]
  | .untilAnyOrWs any o p, cs, h => by
    obtain ⟨a, b, q, ha, rfl, hq, rfl⟩ := h
    have h1 := setText_length hL ha
    have h2 := prop_length hL hq
    simp [Desc.data, nodeOf_length, set_data_length, flag]
    omega
  | .untilAny any o p, cs, h => by
    obtain ⟨a, b, q, ha, rfl, hq, rfl⟩ := h
    have h1 := setText_length hL ha
    have h2 := prop_length hL hq
    simp [Desc.data, nodeOf_length, set_data_length, flag]
    omega
  | .tag neg t inv none, cs, h => by
    obtain ⟨n, a, hn, ha, rfl, rfl⟩ := h
    have h1 := setText_length hL ha
    have h2 := flag_length (p := c!"not") hn
    simp only [Desc.data, nodeOf_length, set_data_length, propData, List.length_append, h2, List.length_nil,
      show flag c!"inverted" none = [] from rfl]
    omega
  | .tag neg t inv (some v), cs, h => by
    obtain ⟨n, a, i, b, hn, ha, hi, hb, rfl⟩ := h
    have h1 := setText_length hL ha
    have h2 := setText_length hL hb
    have h3 := flag_length (p := c!"not") hn
    have h4 := flag_length (p := c!"inverted") hi
    simp only [Desc.data, nodeOf_length, set_data_length, propData, List.length_append, h3, h4, List.length_cons]
    omega
  | .text e p, cs, h => by
    obtain ⟨b, q, rfl, hq, rfl⟩ := h
    have h2 := prop_length hL hq
    simp [Desc.data, nodeOf_length, flag]
    omega
  | .number u p, cs, h => by
    obtain ⟨n, q, hn, hq, rfl⟩ := h
    have h2 := prop_length hL hq
    have h3 := flag_length (p := c!"underscore") hn
    simp only [Desc.data, nodeOf_length, List.length_append, h3, List.length_cons, List.length_nil]
    omega
  | .reference name p, cs, h => by
    obtain ⟨q, ⟨hn, -⟩, -, hq, rfl⟩ := h
    have h2 := prop_length hL hq
    have := List.length_pos_iff.2 hn
    simp only [Desc.data, nodeOf_length, List.length_append, List.length_cons]
    omega
  | .sequence args, cs, h => by
    obtain ⟨-, a, ha, rfl⟩ := h
    have := (descL_length hL args a ha).1
    simp [Desc.data, nodeOf_length]
    omega
  | .select args, cs, h => by
    obtain ⟨-, a, ha, rfl⟩ := h
    have := (descL_length hL args a ha).1
    simp [Desc.data, nodeOf_length]
    omega
  | .optional d, cs, h => by
    obtain ⟨a, ha, rfl⟩ := h
    have := desc_length hL d a ha
    simp [Desc.data, nodeOf_length]
    omega
  | .not d, cs, h => by
    obtain ⟨a, ha, -, -, rfl⟩ := h
    have := desc_length hL d a ha
    simp [Desc.data, nodeOf_length]
    omega
  | .separatedBy o t b d, cs, h => by
    obtain ⟨s, n, v, a, w, c, u, rfl, hn, -, ha, -, -, hc, -, rfl⟩ := h
    have h1 := desc_length hL b a ha
    have h2 := desc_length hL d c hc
    have h3 := flag_length (p := c!"allow_trail") hn
    simp only [Desc.data, nodeOf_length, List.length_append, h3, List.length_cons, List.length_nil,
      show flag c!"optional" (some s) = [.bool c!"optional" s] from rfl]
    omega
  | .lines i d, cs, h => by
    obtain ⟨n, v, a, u, hn, -, ha, -, rfl⟩ := h
    have h1 := desc_length hL d a ha
    have h3 := flag_length (p := c!"indent") hn
    simp only [Desc.data, nodeOf_length, List.length_append, h3, List.length_cons, List.length_nil]
    omega
  | .repeat_ o d, cs, h => by
    obtain ⟨a, ha, rfl⟩ := h
    have := desc_length hL d a ha
    simp [Desc.data, nodeOf_length]
    omega
theorem descL_length (hL : L.Lawful) : (ds : List Desc) → ∀ cs, Desc.TextL L ds cs →
    (Desc.dataL ds).length ≤ 4 * cs.length + 1 ∧
    ((∃ c, cs.head? = some c ∧ isWs c = true) → (Desc.dataL ds).length ≤ 4 * cs.length)
  | [], cs, h => by simp [Desc.dataL]
  | d :: ds, cs, h => by
    obtain ⟨w, a, u, -, ha, hu, hs, rfl⟩ := h
    have h1 := desc_length hL d a ha
    have h2 := descL_length hL ds u hu
    have h3 : (Desc.dataL ds).length ≤ 4 * u.length := by
      cases ds with
      | nil => simp [Desc.dataL]
      | cons d' ds => exact h2.2 (hs (by simp))
    simp only [Desc.dataL, nodeOf_length, List.length_append]
    refine ⟨by omega, ?_⟩
    rintro ⟨c, hc, hw⟩
    cases w with
    | nil =>
      obtain ⟨x, t, rfl, hx⟩ := Boot.desc_head hL ha
      simp only [List.nil_append, List.cons_append, List.head?_cons, Option.some.injEq] at hc
      subst hc
      rw [hw] at hx
      cases hx
    | cons x w => simp; omega
end

/-- The number of items of an entry. -/
def Spec.Entry.items : Entry → Nat
  | .comment => 0
  | .string _ _ => 4
  | .node _ _ d => 6 + d.data.length

theorem entry_length (hL : L.Lawful) {e : Entry} {cs rest : Str} (h : e.Text L cs rest) : e.items = 0 ∨ e.items + 15 ≤ 4 * cs.length := by
  cases e with
  | comment => exact .inl rfl
  | string name t =>
    obtain ⟨w, a, ⟨hn, -⟩, -, ha, rfl⟩ := h
    have h1 := lit_length hL ha
    have h2 := List.length_pos_iff.2 hn
    right
    simp only [Entry.items, List.length_cons, List.length_append]
    omega
  | node k name d =>
    obtain ⟨n, v, w, x, a, ⟨-, hk, -⟩, -, hv, ⟨hn, -⟩, -, -, hw, -, ha, rfl⟩ := h
    have h1 := (hL.num_some hk).1
    have h2 := List.length_pos_iff.2 hn
    have h3 := List.length_pos_iff.2 hv
    have h4 := List.length_pos_iff.2 hw
    have h5 := desc_length hL d a ha
    right
    simp only [Entry.items, List.length_cons, List.length_append]
    omega

theorem entries_length (hL : L.Lawful) : ∀ {es : List Entry} {first : Bool} {cs : Str}, EntriesText L first es cs →
    (es.map Entry.items).sum = 0 ∨ (es.map Entry.items).sum + 15 ≤ 4 * cs.length
  | [], _, _, _ => .inl rfl
  | e :: es, first, cs, h => by
    obtain ⟨w, a, u, -, -, he, hes, rfl⟩ := h
    have h1 := entry_length hL he
    have h2 := entries_length hL hes
    simp only [List.map_cons, List.sum_cons, List.length_append]
    omega

theorem strings_items : ∀ {es : List Entry}, (∀ e ∈ es, e.isNode = false) → (es.map Entry.items).sum = 4 * (stringsIn es).length
  | [], _ => rfl
  | .comment :: es, h => by simpa [Entry.items, stringsIn] using strings_items fun e he => h e (by simp [he])
  | .string n t :: es, h => by
    have := strings_items fun e he => h e (List.mem_cons_of_mem _ he)
    simp [Entry.items, stringsIn, this]
    omega
  | .node k n d :: es, h => by cases h (.node k n d) (by simp)

theorem nodes_items : ∀ {es : List Entry}, (∀ e ∈ es, e.isString = false) →
    (es.map Entry.items).sum = ((nodesIn es).map fun n => 6 + n.2.2.data.length).sum
  | [], _ => rfl
  | .comment :: es, h => by simpa [Entry.items, nodesIn] using nodes_items fun e he => h e (by simp [he])
  | .node k n d :: es, h => by
    have := nodes_items fun e he => h e (List.mem_cons_of_mem _ he)
    simp [Entry.items, nodesIn, this]
  | .string n t :: es, h => by cases h (.string n t) (by simp)

theorem doc_items (doc : Doc) :
    doc.data.length = 4 * doc.strings.length + (doc.nodes.map fun n => 6 + n.2.2.data.length).sum := by
  obtain ⟨ss, ns⟩ := doc
  have h1 : (ss.flatMap fun s => nodeOf c!"string" [.string c!"name" s.1, .string c!"text" s.2]).length = 4 * ss.length := by
    induction ss with
    | nil => rfl
    | cons s ss ih => simp only [List.flatMap_cons, List.length_append, ih, nodeOf_length, List.length_cons, List.length_nil]; omega
  have h2 : (ns.flatMap fun n => nodeOf c!"node" (.f64 c!"id" n.1 :: .string c!"name" n.2.1 :: nodeOf c!"rule" n.2.2.data)).length =
      (ns.map fun n => 6 + n.2.2.data.length).sum := by
    induction ns with
    | nil => rfl
    | cons s ns ih =>
      simp only [List.flatMap_cons, List.length_append, ih, nodeOf_length, List.length_cons, List.map_cons, List.sum_cons]
      omega
  simp only [Doc.data, List.length_append, h1, h2]

/-- The size of the data of a document. -/
theorem doc_length (hL : L.Lawful) {doc : Doc} {text : Str} (h : doc.Text L text) :
    doc.data = [] ∨ doc.data.length + 15 ≤ 4 * text.length := by
  obtain ⟨es, es', h1, h2, h3, h4, h5⟩ := h
  have h6 := entries_length hL h3
  rw [List.map_append, List.sum_append, strings_items h1, nodes_items h2, ← h4, ← h5, ← doc_items] at h6
  rcases h6 with h6 | h6
  · exact .inl (List.length_eq_zero_iff.1 h6)
  · exact .inr h6

end Verif
