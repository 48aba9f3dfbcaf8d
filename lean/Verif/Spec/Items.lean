import Verif.Spec.Data
/-
Single items of meta data and lists of them, on tokens with their ranges.
-/
namespace Verif.Spec

/-- Tokens whose data is well nested. -/
inductive Items : List Tok → Prop
  | nil : Items []
  | value {t rest} (h : ¬ IsNode t.data) (hr : Items rest) : Items (t :: rest)
  | node {r₁ r₂ name body rest} (hb : Items body) (hr : Items rest) :
      Items (⟨r₁, .startNode name⟩ :: body ++ ⟨r₂, .endNode name⟩ :: rest)

/-- One item: a single value or a whole node. -/
inductive Item : List Tok → Prop
  | value {t} (h : ¬ IsNode t.data) : Item [t]
  | node {r₁ r₂ name body} (hb : Items body) :
      Item (⟨r₁, .startNode name⟩ :: body ++ [⟨r₂, .endNode name⟩])

/-- Items in source order between two offsets.  A node starts with an empty range, ends with the
range of the whole node, and its items lie in that range. -/
inductive Spans : Nat → Nat → List Tok → Prop
  | nil {lo hi} (h : lo ≤ hi) : Spans lo hi []
  | value {t lo hi rest} (h : ¬ IsNode t.data) (hl : lo ≤ t.range.offset)
      (hr : Spans t.range.next hi rest) : Spans lo hi (t :: rest)
  | node {name body rest lo hi off len} (hl : lo ≤ off) (hb : Spans off (off + len) body)
      (hr : Spans (off + len) hi rest) :
      Spans lo hi (⟨⟨off, 0⟩, .startNode name⟩ :: body ++ ⟨⟨off, len⟩, .endNode name⟩ :: rest)

end Verif.Spec
