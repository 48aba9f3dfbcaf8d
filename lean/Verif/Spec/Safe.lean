import Verif.Spec.Occurs
/-
Rules whose indices are in range.
-/
namespace Verif.Spec

/-- The indices stored in the rule itself are in range. -/
def IndexOk (refs : List Rule) : Rule → Prop
  | .node _ _ (some i) _ => i < refs.length
  | .fastSelect tb args tail _ =>
    (∀ b, tb b ≠ 255 → (tb b).toNat < args.length) ∧ (tail = true → args ≠ [])
  | _ => True

/-- All indices in the rule and its parts are in range. -/
def RuleOk (refs : List Rule) (r : Rule) : Prop := ∀ x, Occurs x r → IndexOk refs x

/-- All indices in the syntax are in range. -/
def SyntaxOk (syn : Syntax) : Prop := ∀ r ∈ syn.rules, RuleOk syn.rules r

/-- The text is too short to overflow the 32 bits that count columns. -/
def ShortFor (tab : Nat) (text : List Char) : Prop := max 1 tab * text.length + 1 < 2 ^ 32

/-- No rule reads lines with indentation. -/
def NoIndent (refs : List Rule) : Prop := ∀ q ∈ refs, ∀ r id, ¬ Occurs (.lines r true id) q

end Verif.Spec
