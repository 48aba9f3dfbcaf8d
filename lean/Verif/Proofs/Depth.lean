import Verif.Proofs.Spans
/-
Nesting depth, and items inside of items.
-/
namespace Verif.Spec

/-- How many more nodes are opened than closed. -/
def depth : List Tok → Int
  | [] => 0
  | t :: ts =>
    (match t.data with
      | .startNode _ => 1
      | .endNode _ => -1
      | _ => 0) + depth ts

theorem depth_append (a b : List Tok) : depth (a ++ b) = depth a + depth b := by
  induction a with
  | nil => simp [depth]
  | cons t a ih => simp only [List.cons_append, depth, ih]; omega

theorem depth_value {t : Tok} (h : ¬ IsNode t.data) (ts : List Tok) : depth (t :: ts) = depth ts := by
  obtain ⟨r, d⟩ := t
  cases d <;> simp_all [depth, IsNode]

theorem depth_start (r : Range) (n : Str) (ts : List Tok) :
    depth (⟨r, .startNode n⟩ :: ts) = 1 + depth ts := rfl

theorem depth_end (r : Range) (n : Str) (ts : List Tok) :
    depth (⟨r, .endNode n⟩ :: ts) = -1 + depth ts := rfl

theorem Items.depth {ts : List Tok} (h : Items ts) : depth ts = 0 := by
  induction h with
  | nil => rfl
  | value h _ ih => rw [depth_value h, ih]
  | node _ _ ih₁ ih₂ =>
    rw [List.cons_append, depth_start, depth_append, depth_end, ih₁, ih₂]; omega

/-- Items never close more nodes than they opened. -/
theorem Items.depth_prefix {ts : List Tok} (h : Items ts) : ∀ a b, ts = a ++ b → 0 ≤ Spec.depth a := by
  induction h with
  | nil =>
    intro a b e
    have := List.append_eq_nil_iff.1 e.symm
    simp [this.1, Spec.depth]
  | value h _ ih =>
    intro a b e
    cases a with
    | nil => simp [Spec.depth]
    | cons t a =>
      simp at e
      obtain ⟨rfl, e⟩ := e
      rw [depth_value h]
      exact ih a b e
  | @node r₁ r₂ name body rest hb hr ih₁ ih₂ =>
    intro a b e
    cases a with
    | nil => simp [Spec.depth]
    | cons t a =>
      simp at e
      obtain ⟨rfl, e⟩ := e
      rw [depth_start]
      rcases List.append_eq_append_iff.1 e with ⟨c, e₁, e₂⟩ | ⟨c, e₁, e₂⟩
      · -- the prefix ends behind the body
        subst e₁
        rw [depth_append, hb.depth]
        cases c with
        | nil => simp [Spec.depth]
        | cons u c =>
          simp at e₂
          obtain ⟨rfl, e₂⟩ := e₂
          rw [depth_end]
          have := ih₂ c b e₂
          omega
      · have := ih₁ a c e₁
        omega

/-- A proper part of an item is open. -/
theorem Item.depth_prefix {ts : List Tok} (h : Item ts) (a b : List Tok) (e : ts = a ++ b)
    (ha : a ≠ []) (hb : b ≠ []) : 1 ≤ depth a := by
  cases h with
  | value h =>
    cases a with
    | nil => exact absurd rfl ha
    | cons t a =>
      simp at e
      exact absurd e.2.2 hb
  | @node r₁ r₂ name body hi =>
    cases a with
    | nil => exact absurd rfl ha
    | cons t a =>
      simp at e
      obtain ⟨rfl, e⟩ := e
      rw [depth_start]
      rcases List.append_eq_append_iff.1 e with ⟨c, e₁, e₂⟩ | ⟨c, e₁, e₂⟩
      · subst e₁
        rw [depth_append, hi.depth]
        cases c with
        | nil => simp [depth]
        | cons u c =>
          simp at e₂
          exact absurd e₂.2.2 hb
      · have := hi.depth_prefix a c e₁
        omega

theorem Item.depth {ts : List Tok} (h : Item ts) : depth ts = 0 := h.items.depth

/-- An item is determined by its beginning. -/
theorem Item.unique {a b : List Tok} (ha : Item a) (hb : Item b) {x y : List Tok}
    (e : a ++ x = b ++ y) : a = b := by
  rcases List.append_eq_append_iff.1 e with ⟨c, e₁, _⟩ | ⟨c, e₁, _⟩
  · by_cases hc : c = []
    · simp [e₁, hc]
    · have h₁ := hb.depth_prefix a c e₁ (fun h => by have := ha.pos; simp [h] at this) hc
      have := ha.depth
      omega
  · by_cases hc : c = []
    · simp [e₁, hc]
    · have h₁ := ha.depth_prefix b c e₁ (fun h => by have := hb.pos; simp [h] at this) hc
      have := hb.depth
      omega

/-- An item anywhere in the data of a match lies in a range of its own. -/
theorem Spans.item {lo hi : Nat} {ts : List Tok} (h : Spans lo hi ts) :
    ∀ pre a post, ts = pre ++ a ++ post → Item a → ∃ lo' hi', Spans lo' hi' a := by
  induction h with
  | nil =>
    intro pre a post e ha
    have := ha.pos
    simp at e
    simp [e.2.1] at this
  | @value t lo hi rest h hl hr ih =>
    intro pre a post e ha
    cases pre with
    | nil =>
      have : a = [t] := Item.unique ha (.value h) (x := post) (y := rest) (by simpa using e.symm)
      subst this
      exact ⟨_, _, .value h hl (.nil (Nat.le_refl _))⟩
    | cons u pre =>
      simp at e
      obtain ⟨rfl, e⟩ := e
      exact ih pre a post (by simpa using e) ha
  | @node name body rest lo hi off len hl hb hr ih₁ ih₂ =>
    intro pre a post e ha
    cases pre with
    | nil =>
      have : a = ⟨⟨off, 0⟩, .startNode name⟩ :: body ++ [⟨⟨off, len⟩, .endNode name⟩] :=
        Item.unique ha (.node hb.items) (x := post) (y := rest) (by simpa using e.symm)
      subst this
      exact ⟨_, _, .node hl hb (.nil (Nat.le_refl _))⟩
    | cons u pre =>
      simp at e
      obtain ⟨rfl, e⟩ := e
      rw [← List.append_assoc] at e
      rcases List.append_eq_append_iff.1 e with ⟨c, e₁, e₂⟩ | ⟨c, e₁, e₂⟩
      · -- `pre ++ a` is longer than the body
        rcases List.append_eq_append_iff.1 e₁ with ⟨d, f₁, f₂⟩ | ⟨d, f₁, f₂⟩
        · -- the item begins inside the body and ends outside, or is all outside
          by_cases hd : d = []
          · -- it begins with the end of the node
            subst hd
            simp at f₁ f₂
            subst f₂
            obtain ⟨t, ts, rfl, hne⟩ := ha.head
            simp at e₂
            exact absurd (by rw [← e₂.1]) (hne name)
          · by_cases hc : c = []
            · subst hc
              simp at f₂ 
              subst f₂
              exact ih₁ pre a [] (by simpa using f₁) ha
            · have h₁ := ha.depth_prefix d c f₂ hd hc
              have h₂ := hb.items.depth
              rw [f₁, depth_append] at h₂
              have := hb.items.depth_prefix pre d f₁
              omega
        · -- `pre` is longer than the body
          cases d with
          | nil =>
            simp at f₂
            subst f₂
            obtain ⟨t, ts, rfl, hne⟩ := ha.head
            simp at e₂
            exact absurd (by rw [← e₂.1]) (hne name)
          | cons v d =>
            subst f₂
            simp at e₂
            exact ih₂ d a post (by simpa using e₂.2) ha
      · exact ih₁ pre a c e₁ ha

end Verif.Spec
