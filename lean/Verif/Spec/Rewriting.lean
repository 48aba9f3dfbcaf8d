import Verif.Spec.PegBool
/-
String rewriting, and syntaxes whose texts are the histories of rewriting.
-/
namespace Verif.Spec

/-- Letters are numbers.  A part of the word that is the left hand side of a pair is replaced by the right hand side. -/
def Rewrites (R : List (List Nat × List Nat)) (a b : List Nat) : Prop :=
  ∃ x y u v, (x, y) ∈ R ∧ a = u ++ x ++ v ∧ b = u ++ y ++ v

/-- Any number of times. -/
inductive RewritesTo (R : List (List Nat × List Nat)) : List Nat → List Nat → Prop
  | refl {a} : RewritesTo R a a
  | step {a b c} (h : Rewrites R a b) (h' : RewritesTo R b c) : RewritesTo R a c

/-- From `w` one gets to a word in which a word of `F` stands. -/
def ReachesWord (R : List (List Nat × List Nat)) (F : List (List Nat)) (w : List Nat) : Prop :=
  ∃ w', RewritesTo R w w' ∧ ∃ f ∈ F, f <:+: w'

/-! ### Histories as texts -/

/-- A letter. -/
def code (n : Nat) : Str := List.replicate n 'a' ++ ['b']

/-- A word. -/
def codes (w : List Nat) : Str := w.flatMap code

/-- Says where a word is rewritten, and with which pair. -/
def spot (k : Nat) : Str := List.replicate k 'c' ++ ['d']

/-- A word as a rule. -/
def lit (t : Str) : Rule := .tag t false false none 0

/-- A reference to a rule. -/
def refTo (i : Nat) : Rule := .node [] none (some i) 0

/-- Looks whether `r` can be read: not not `r`. -/
def ahead (r : Rule) : Rule := .not (.not r 0) 0

/-- `same: {[a same a] [b same b] ... "#"}`: a word, `#`, and the word backwards. -/
def sameRule (N : Nat) : Rule :=
  .select ((List.range N).map (fun a => .sequence [lit (code a), refTo 0, lit (code a)] 0) ++ [lit ['#']]) 0

/-- A mark or nothing. -/
def markRule (K : Nat) : Rule := .optional (.select ((List.range K).map fun k => lit (spot k)) 0) 0

/-- `copy: {[a copy ?mark a] [b copy ?mark b] ... "#"}`: a word, `#`, and the word backwards with marks in it. -/
def copyRule (N K : Nat) : Rule :=
  .select ((List.range N).map (fun a => .sequence [lit (code a), refTo 1, markRule K, lit (code a)] 0) ++ [lit ['#']]) 0

/-- `step: {[a step a] [b step b] ... [mark x same y'] ...}`: a word with one mark, `#`, and the rewritten word backwards. -/
def stepRule (N : Nat) (R : List (List Nat × List Nat)) : Rule :=
  .select ((List.range N).map (fun a => .sequence [lit (code a), refTo 2, lit (code a)] 0) ++
    R.zipIdx.map fun q => .sequence [lit (spot q.2), lit (codes q.1.1), refTo 0, lit (codes q.1.2.reverse)] 0) 0

/-- Up to and including the next `#`. -/
def skipRule : Rule :=
  .select ([['a'], ['b'], ['c'], ['d']].map (fun t => .sequence [lit t, refTo 3] 0) ++ [lit ['#']]) 0

/-- `found: {[f' rest] ... [a found] [b found] ...}`: one of the words, backwards, stands in the word. -/
def foundRule (N : Nat) (F : List (List Nat)) : Rule :=
  .select (F.map (fun f => .sequence [lit (codes f.reverse), restRule] 0) ++
    (List.range N).map fun a => .sequence [lit (code a), refTo 4] 0) 0

/-- `history: {found [look(copy ?mark "#") skip look(step "#") skip history]}`. -/
def historyRule (K : Nat) : Rule :=
  .select [refTo 4, .sequence [ahead (.sequence [refTo 1, markRule K, lit ['#']] 0), refTo 3,
    ahead (.sequence [refTo 2, lit ['#']] 0), refTo 3, refTo 5] 0] 0

/-- The texts of this syntax are: the start backwards, the start with a mark, the next word backwards, the next word
with a mark, and so on, up to a word in which one of `F` stands, and then what `q` reads.  The start occurs in one tag only. -/
def historySyntax (N : Nat) (R : List (List Nat × List Nat)) (F : List (List Nat)) (q : Rule) (w : List Nat) : Syntax where
  rules := [sameRule N, copyRule N R.length, stepRule N R, skipRule, foundRule N F, historyRule R.length, q,
    .sequence [ahead (lit (codes w.reverse ++ ['#'])), refTo 5, refTo 6] 0]
  names := [c!"same", c!"copy", c!"step", c!"skip", c!"found", c!"history", c!"end", c!"document"]

/-- Nothing, or whitespace. -/
def nothingRule : Rule := .whitespace true 0

/-- `end: [.w? end]`. -/
def loopRule : Rule := .sequence [nothingRule, refTo 6] 0

end Verif.Spec
