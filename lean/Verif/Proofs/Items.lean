import Verif.Spec.Items
/-
Lists of items.
-/
namespace Verif.Spec

theorem Items.wellNested {ts : List Tok} (h : Items ts) : WellNested (ts.map (·.data)) := by
  induction h with
  | nil => exact .nil
  | value h _ ih => exact .value h ih
  | node _ _ ih₁ ih₂ => simpa using WellNested.node ih₁ ih₂

theorem WellNested.items {ds : List MetaData} (h : WellNested ds) :
    ∀ ts : List Tok, ts.map (·.data) = ds → Items ts := by
  induction h with
  | nil => intro ts e; rw [List.map_eq_nil_iff.1 e]; exact .nil
  | value h _ ih =>
    intro ts e
    obtain ⟨t, ts, rfl, rfl, er⟩ := List.map_eq_cons_iff.1 e
    exact .value h (ih _ er)
  | node _ _ ih₁ ih₂ =>
    intro ts e
    rw [List.cons_append] at e
    obtain ⟨⟨r₁, d₁⟩, ts, rfl, e₁, e⟩ := List.map_eq_cons_iff.1 e
    obtain ⟨body, ts₂, rfl, eb, e⟩ := List.map_eq_append_iff.1 e
    obtain ⟨⟨r₂, d₂⟩, rest, rfl, e₂, er⟩ := List.map_eq_cons_iff.1 e
    simp only at e₁ e₂
    subst e₁ e₂
    exact .node (ih₁ _ eb) (ih₂ _ er)

theorem items_iff {ts : List Tok} : Items ts ↔ WellNested (ts.map (·.data)) :=
  ⟨Items.wellNested, fun h => h.items ts rfl⟩

theorem Items.append {a b : List Tok} (ha : Items a) (hb : Items b) : Items (a ++ b) := by
  induction ha with
  | nil => exact hb
  | value h _ ih => exact .value h ih
  | node h₁ _ _ ih₂ => simpa using Items.node h₁ ih₂

theorem Item.items {a : List Tok} (h : Item a) : Items a := by
  cases h with
  | value h => exact .value h .nil
  | node h => exact .node h .nil

theorem Item.pos {a : List Tok} (h : Item a) : 0 < a.length := by
  cases h <;> simp

/-- Items begin with an item, unless there are none. -/
theorem Items.cases {ts : List Tok} (h : Items ts) :
    ts = [] ∨ ∃ a b, ts = a ++ b ∧ Item a ∧ Items b := by
  cases h with
  | nil => exact .inl rfl
  | value h hr => exact .inr ⟨[_], _, rfl, .value h, hr⟩
  | @node r₁ r₂ name body rest hb hr =>
    exact .inr ⟨⟨r₁, .startNode name⟩ :: body ++ [⟨r₂, .endNode name⟩], rest, by simp, .node hb, hr⟩

/-- Induction over items. -/
@[elab_as_elim] theorem Items.rec_items {P : List Tok → Prop} {ts : List Tok} (h : Items ts)
    (hn : P []) (hc : ∀ a b, Item a → Items b → P b → P (a ++ b)) : P ts := by
  generalize hk : ts.length = k
  induction k using Nat.strongRecOn generalizing ts with
  | ind k ih =>
    rcases h.cases with rfl | ⟨a, b, rfl, ha, hb⟩
    · exact hn
    · have := ha.pos
      exact hc _ _ ha hb (ih b.length (by simp at hk; omega) hb rfl)

/-- An item does not begin by closing a node. -/
theorem Item.head {a : List Tok} (h : Item a) : ∃ t ts, a = t :: ts ∧ ∀ n, t.data ≠ .endNode n := by
  cases h with
  | value h => exact ⟨_, [], rfl, by intro n e; rw [e] at h; exact h trivial⟩
  | node h => exact ⟨_, _, List.cons_append .., by simp⟩

end Verif.Spec
