import Verif.Spec.Rewriting
/-
The syntaxes whose texts are the histories of rewriting, in rules of a bounded size, and files for them.
-/
namespace Verif.Spec

/-- Rules from the `k`th on, of which the first is the select of these alternatives. -/
def chainFrom : (k : Nat) → List Rule → List Rule
  | _, [] => [.select [] 0]
  | k, a :: as => .select [a, refTo (k + 1)] 0 :: chainFrom (k + 1) as

/-- Such rules for several selects, one after the other. -/
def chainsFrom : (k : Nat) → List (List Rule) → List Rule
  | _, [] => []
  | k, as :: rest => chainFrom k as ++ chainsFrom (k + (as.length + 1)) rest

/-- References to the first rules of these. -/
def headsFrom : (k : Nat) → List (List Rule) → List Rule
  | _, [] => []
  | k, as :: rest => refTo k :: headsFrom (k + (as.length + 1)) rest

/-- The marks. -/
def markAlts (K : Nat) : List Rule := (List.range K).map fun k => lit (spot k)

/-- The alternatives of `same`, `copy`, `step`, `skip`, `found`, with a reference for a mark. -/
def historyAlts (N : Nat) (R : List (List Nat × List Nat)) (F : List (List Nat)) : List (List Rule) :=
  [(List.range N).map (fun a => .sequence [lit (code a), refTo 0, lit (code a)] 0) ++ [lit ['#']],
    (List.range N).map (fun a => .sequence [lit (code a), refTo 1, .optional (refTo 7) 0, lit (code a)] 0) ++ [lit ['#']],
    (List.range N).map (fun a => .sequence [lit (code a), refTo 2, lit (code a)] 0) ++
      R.zipIdx.map (fun q => .sequence [lit (spot q.2), lit (codes q.1.1), refTo 0, lit (codes q.1.2.reverse)] 0),
    [['a'], ['b'], ['c'], ['d']].map (fun t => .sequence [lit t, refTo 3] 0) ++ [lit ['#']],
    F.map (fun f => .sequence [lit (codes f.reverse), restRule] 0) ++
      (List.range N).map fun a => .sequence [lit (code a), refTo 4] 0]

/-- `history`, with a reference for a mark. -/
def smallHistory : Rule :=
  .select [refTo 4, .sequence [ahead (.sequence [refTo 1, .optional (refTo 7) 0, lit ['#']] 0), refTo 3,
    ahead (.sequence [refTo 2, lit ['#']] 0), refTo 3, refTo 5] 0] 0

/-- All rules but the last. -/
def smallRules (N : Nat) (R : List (List Nat × List Nat)) (F : List (List Nat)) (q : Rule) : List Rule :=
  headsFrom (8 + R.length) (historyAlts N R F) ++ [smallHistory, q] ++ chainFrom 7 (markAlts R.length) ++
    chainsFrom (8 + R.length) (historyAlts N R F)

/-- The last. -/
def smallStart (w : List Nat) : Rule := .sequence [ahead (.sequence [lit (codes w.reverse ++ ['#'])] 0), refTo 5, refTo 6] 0

/-- The same as `historySyntax`, where a select has at most two alternatives. -/
def smallSyntax (N : Nat) (R : List (List Nat × List Nat)) (F : List (List Nat)) (q : Rule) (w : List Nat) : Syntax :=
  ⟨smallRules N R F q ++ [smallStart w], []⟩

end Verif.Spec
