import Verif.Model.ErrorHandler
/-
Messages for sample errors.  These are checks of the model, not proofs of properties.
-/
namespace Verif.Tests

example : splitLines c!"ab\n\nc" = [c!"ab", [], ['c']] := by decide
example : reportErr ⟨fun _ => [], fun _ => []⟩ c!"let x = 1\n\nlet y" ⟨⟨12, 1⟩, .expectedTag c!";" 7⟩ =
    .ok c!"Error #7, Expected: `;`\n1: let x = 1\n2: \n3,2: let y\n3,2:  ^\n" := by decide

end Verif.Tests
