import Verif.Model.Convert
import Verif.Spec.Items
/-
What `convert` does, independent of the cut off.
-/
namespace Verif.Spec

/-- `convert(data, ignored)` returns `r` (Ok or Err) and leaves `ignored'`. -/
def Converts (data : List Tok) (ignored : List Range) (r : Option Syntax) (ignored' : List Range) :
    Prop := ∃ n, convert n data ignored = .ok (r, ignored')

/-- `convert(data, ignored)` panics. -/
def ConvertPanics (data : List Tok) (ignored : List Range) : Prop :=
  ∃ n, convert n data ignored = .panic

/-- `convert(data, ignored)` runs for ever. -/
def ConvertRuns (data : List Tok) (ignored : List Range) : Prop :=
  ∀ n, convert n data ignored = .timeout

/-- No node number is so large that the ids below it overflow when it is multiplied by 1000; there
are at most `L` of them. -/
def NumbersFit (L : Nat) (data : List Tok) : Prop :=
  ∀ t ∈ data, ∀ v, t.data = .f64 c!"id" v → v.toUsize * 1000 + L < 2 ^ 64

end Verif.Spec
