import Verif.Model.Writer
/-
What it means to write a text to a writer that may report errors.
-/
namespace Verif.Spec

/-- A function that writes, for every writer. -/
abbrev Writing := ∀ (σ ε : Type), Writer σ ε → σ → Wrote σ ε

/-- The function gives the text to the writer, in pieces that do not depend on the writer, and
returns when it is done (panics, if `panics` is set).  It stops at the first error, which it
returns. -/
def Delivers (f : Writing) (text : Str) (panics : Bool := false) : Prop :=
  ∃ pieces : List Str, pieces.flatten = text ∧ ∀ (σ ε : Type) (W : Writer σ ε) (s : σ),
    f σ ε W s = (putAll W pieces s).andThen fun s => if panics then .panic s else .ok s

/-- A writer which keeps what it is given: `content` is the text in it.  When it reports an error,
it may have taken the first part of the piece. -/
structure Keeps {σ ε : Type} (W : Writer σ ε) (content : σ → Str) : Prop where
  ok : ∀ s p s', W.put s p = (.ok (), s') → content s' = content s ++ p
  err : ∀ s p e s', W.put s p = (.error e, s') → ∃ q, q <+: p ∧ content s' = content s ++ q

/-- A writer for at most `k` characters, like a disk that is full. -/
def capped (k : Nat) : Writer Str Unit :=
  ⟨fun s p => (if (s ++ p).length ≤ k then .ok () else .error (), (s ++ p).take k)⟩

/-- `Vec<u8>`: never an error. -/
def growing : Writer Str Empty := ⟨fun s p => (.ok (), s ++ p)⟩

/-- A writer that remembers the pieces it has been given, the last one first, and reports an error
at the `k`-th piece counted from 0; the error is its number. -/
def failsAt (k : Nat) : Writer (List Str) Nat :=
  ⟨fun s p => (if s.length = k then .error k else .ok (), p :: s)⟩

end Verif.Spec
