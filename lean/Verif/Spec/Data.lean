import Verif.Spec.Run
/-
What it means for meta data to be well nested and in source order.
-/
namespace Verif.Spec

/-- A node bracket. -/
def IsNode : MetaData → Prop
  | .startNode _ | .endNode _ => True
  | _ => False

/-- Well nested meta data: single values and nodes closed by the name they were opened with. -/
inductive WellNested : List MetaData → Prop
  | nil : WellNested []
  | value {m rest} (h : ¬ IsNode m) (hr : WellNested rest) : WellNested (m :: rest)
  | node {name body rest} (hb : WellNested body) (hr : WellNested rest) :
      WellNested (.startNode name :: body ++ .endNode name :: rest)

/-- Closes a node. -/
def IsEnd (t : Tok) : Prop := ∃ n, t.data = .endNode n

/-- `a` may come before `b`: it does not end later, and unless `b` closes a node it has ended
before `b` starts. -/
def Precedes (a b : Tok) : Prop :=
  a.range.next ≤ b.range.next ∧ (¬ IsEnd b → a.range.next ≤ b.range.offset)

/-- Tokens in source order. -/
def InOrder (ts : List Tok) : Prop := ts.Pairwise Precedes

/-- The range lies between two offsets. -/
def Within (lo hi : Nat) (r : Range) : Prop := lo ≤ r.offset ∧ r.next ≤ hi

/-- The range moved by `d`. -/
def shiftRange (d : Nat) (r : Range) : Range := ⟨r.offset + d, r.length⟩
/-- The tokens moved by `d`. -/
def shiftToks (d : Nat) (ts : List Tok) : List Tok := ts.map fun t => ⟨shiftRange d t.range, t.data⟩
/-- The error moved by `d`. -/
def shiftErr (d : Nat) (e : RErr) : RErr := ⟨shiftRange d e.range, e.err⟩
/-- The errors moved by `d`. -/
def shiftErrs (d : Nat) (tr : List RErr) : List RErr := tr.map (shiftErr d)
/-- The position on the same text moved by `d`. -/
def shiftPos (d : Nat) (p : Pos) : Pos := ⟨p.src, p.off + d⟩
/-- The outcome moved by `d`. -/
def shiftOut (d : Nat) : Outcome → Outcome
  | none => none
  | some (n, ts) => some (n, shiftToks d ts)

end Verif.Spec
