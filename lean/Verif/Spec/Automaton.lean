import Verif.Spec.Run
/-
Finite automata as syntaxes.
-/
namespace Verif.Spec

/-- An automaton that reads the characters of `alphabet`; states are numbers, and `next` gives the state after a character. -/
structure Automaton where
  alphabet : List Char
  states : Nat
  next : Nat → Char → Nat
  final : Nat → Bool
  start : Nat

namespace Automaton

/-- The text is read from the state on and ends in a final state. -/
def Reads (a : Automaton) : Nat → Str → Prop
  | q, [] => a.final q = true
  | q, c :: s => c ∈ a.alphabet ∧ a.Reads (a.next q c) s

/-- `["c" next]`, where the second part refers to the rule of the next state. -/
def arrow (a : Automaton) (q : Nat) (c : Char) : Rule :=
  .sequence [.tag [c] false false none 0, .node [] none (some (a.next q c)) 0] 0

/-- The arrows of a state, which may be missing in a final one: `?{["c" next] …}`. -/
def rule (a : Automaton) (q : Nat) : Rule :=
  if a.final q then .optional (.select (a.alphabet.map (a.arrow q)) 0) 0 else .select (a.alphabet.map (a.arrow q)) 0

/-- The rules of the states, and the one for the first state. -/
def syn (a : Automaton) : Syntax :=
  ⟨(List.range a.states).map a.rule ++ [.node [] none (some a.start) 0], (List.range (a.states + 1)).map fun _ => []⟩

end Automaton

end Verif.Spec
