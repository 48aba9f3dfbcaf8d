import Verif.Spec.Compose
/-
What becomes of the ranges when the text of a node is exchanged.
-/
namespace Verif.Spec

/-- The item with its range further on. -/
def laterTok (d : Nat) (t : Tok) : Tok := ⟨⟨t.range.offset + d, t.range.length⟩, t.data⟩

/-- At `p` a text of length `n` has been exchanged for one of length `m`: what begins after it is moved, and nodes around it end
elsewhere. -/
inductive Moved (p n m : Nat) : List Tok → List Tok → Prop
  | nil : Moved p n m [] []
  | after {off len d ts us} (h : p + n ≤ off + n) (hs : Moved p n m ts us) :
      Moved p n m (⟨⟨off + n, len⟩, d⟩ :: ts) (⟨⟨off + m, len⟩, d⟩ :: us)
  | around {off len nm ts us} (h : off ≤ p) (h' : p ≤ off + len) (hs : Moved p n m ts us) :
      Moved p n m (⟨⟨off, len + n⟩, .endNode nm⟩ :: ts) (⟨⟨off, len + m⟩, .endNode nm⟩ :: us)

end Verif.Spec
