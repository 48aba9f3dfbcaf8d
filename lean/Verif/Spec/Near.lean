import Verif.Spec.Occurs
/-
Rules that see no further than where they read or fail.
-/
namespace Verif.Spec

/-- How numbers are read is settled by the characters of the number and the `m` characters after it, or
by the first `m` characters if there is no number. -/
def NearNumbers (L : Lexer) (m : Nat) : Prop := ∀ u src src',
  (L.num u src = none → src'.take m = src.take m → L.num u src' = none) ∧
  ∀ n, L.num u src = some n → src'.take (n + m) = src.take (n + m) →
    L.num u src' = some n ∧ L.parseNum u src' n = L.parseNum u src n

/-- No part of the rule is a text, lines or a `not`, and its tokens have at most `m` characters. -/
structure Near (m : Nat) (r : Rule) : Prop where
  token : ∀ t neg inv prop id, Occurs (.tag t neg inv prop id) r → t.length ≤ m
  text : ∀ empty prop id, ¬ Occurs (.text empty prop id) r
  lines : ∀ x ind id, ¬ Occurs (.lines x ind id) r
  not : ∀ x id, ¬ Occurs (.not x id) r

end Verif.Spec
