import Verif.Proofs.EditRanges
import Verif.Props.Edit
/-
C129: what becomes of the ranges when the text of a node is exchanged.
-/
namespace Verif.Props
open Spec

section
variable {L : Lexer} {syn : Syntax} {ind : Indent} {M : Nat → Mark} {N A : Nat → Char → Prop} {K : Char → Prop} {I : Nat}

/-- What a rule reads on its own, at any place. -/
theorem C129_alone (hL : L.Lawful) (hX : L.Exact) (hU : LL1 L M N syn.rules) (hI : ∀ i, (M i).idle ≤ I)
    (hC : Continues L K M A syn.rules) (hs : SyntaxOk syn) {q : Rule} (hq : Part syn.rules q) {text : Str} {ts : List Tok} (off : Nat) :
    Composes (envOf L syn.rules ind) (.rule q) off text ts ↔
      ∃ us, ts = us.map (laterTok off) ∧ ∃ i j tr, Run (envOf L syn.rules ind) (.rule q) ⟨text, 0⟩ i (some (text.length, us)) j tr := by
  constructor
  · intro h
    obtain ⟨us, rfl, h1⟩ := composes_stands h
    have h2 := composes_generates (E := envOf L syn.rules ind) hL hX hU hI hC (h1 0) hq hq [] not_heads_nil
    rw [List.append_nil, show us.map (laterTok 0) = us from List.map_id us] at h2
    obtain ⟨tr, h3⟩ := generates_runs (E := envOf L syn.rules ind) hL hU hI hs h2 hq (by
      simp only [List.drop_length]
      exact not_heads_nil) 0
    exact ⟨us, rfl, 0, 0, tr, h3⟩
  · rintro ⟨us, rfl, i, j, tr, h⟩
    have h1 : Generates (envOf L syn.rules ind) (.rule q) ⟨text, 0⟩ text.length us := runs_generates (plainly_of hU) h hq _ _ rfl
    have h2 := (generates_composes (E := envOf L syn.rules ind) hL hX hU hC h1 hq).2
    rw [List.take_length] at h2
    obtain ⟨vs, e, h3⟩ := composes_stands h2
    have : us = vs := e.trans (List.map_id vs)
    subst this
    exact h3 off

/-- If the text of a node is exchanged, the items before it stay as they are, those of the new text are moved to its place, those after it are
moved, and the nodes around it end elsewhere. -/
theorem C129_ranges (hL : L.Lawful) (hX : L.Exact) (hU : LL1 L M N syn.rules) (hI : ∀ i, (M i).idle ≤ I)
    (hC : Continues L K M A syn.rules) (hs : SyntaxOk syn) {text : Str} {a b : List Tok} {s : Tok} {nm : Str}
    (h : Accepts L syn text ind (a ++ s :: b)) (hn : s.data = .startNode nm) :
    ∃ name ix id q pre y post us b', Part syn.rules (.node name (some nm) (some ix) id) ∧ syn.rules[ix]? = some q ∧
      text = pre ++ y ++ post ∧ s.range = ⟨pre.length, 0⟩ ∧ b = us.map (laterTok pre.length) ++ ⟨⟨pre.length, y.length⟩, .endNode nm⟩ :: b' ∧
      (∃ i j tr, Run (envOf L syn.rules ind) (.rule q) ⟨y, 0⟩ i (some (y.length, us)) j tr) ∧
      ∀ z vs i j tr, Run (envOf L syn.rules ind) (.rule q) ⟨z, 0⟩ i (some (z.length, vs)) j tr →
        ∃ b'', Moved pre.length y.length z.length b' b'' ∧
          Accepts L syn (pre ++ z ++ post) ind (a ++ s :: (vs.map (laterTok pre.length) ++ ⟨⟨pre.length, z.length⟩, .endNode nm⟩ :: b'')) := by
  obtain ⟨r, hr, h1⟩ := (C126_composes hL hX hU hI hC hs).1 h
  have hp : Part syn.rules r := ⟨r, List.mem_of_getLast? hr, .refl⟩
  obtain ⟨name, ix, id, q, pre, y, post, us, b', g1, g2, g3, g4, g5, g6, g7⟩ :=
    composes_editAt (E := envOf L syn.rules ind) h1 hp a s b nm rfl hn
  have hq : Part syn.rules q := ⟨q, List.mem_of_getElem? g2, .refl⟩
  rw [Nat.zero_add] at g4 g5 g6 g7
  obtain ⟨us, rfl, h2⟩ := (C129_alone hL hX hU hI hC hs hq _).1 g6
  refine ⟨name, ix, id, q, pre, y, post, us, b', g1, g2, g3, g4, g5, h2, fun z vs i j tr hz => ?_⟩
  obtain ⟨b'', h3, h4⟩ := g7 z _ ((C129_alone hL hX hU hI hC hs hq _).2 ⟨vs, rfl, i, j, tr, hz⟩)
  exact ⟨b'', h3, (C126_composes hL hX hU hI hC hs).2 ⟨r, hr, h4⟩⟩

end

/-- If the old text was not empty, the new ranges can be told from the old ones. -/
theorem C129_computed {p n m : Nat} (hn : 0 < n) {ts us : List Tok} (h : Moved p n m ts us) :
    us = ts.map fun t => if t.range.offset ≤ p then ⟨⟨t.range.offset, t.range.length - n + m⟩, t.data⟩
      else ⟨⟨t.range.offset - n + m, t.range.length⟩, t.data⟩ := by
  induction h with
  | nil => rfl
  | @after off len d ts us h hs ih =>
    have : ¬ off + n ≤ p := by omega
    simp [this, ← ih]
  | around h h' hs ih => simp [h, ← ih]

/-! ### Examples -/

/-- A sum in brackets may be exchanged for any other sum. -/
theorem C129_sums {ind : Indent} {text : Str} {a b : List Tok} {s : Tok} (h : Accepts stdLexer Sums.syn text ind (a ++ s :: b))
    (hn : s.data = .startNode c!"sum") : ∃ pre y post us b', text = pre ++ y ++ post ∧ s.range = ⟨pre.length, 0⟩ ∧
      b = us.map (laterTok pre.length) ++ ⟨⟨pre.length, y.length⟩, .endNode c!"sum"⟩ :: b' ∧ Accepts stdLexer Sums.syn y ind us ∧
      ∀ z vs, Accepts stdLexer Sums.syn z ind vs → ∃ b'', Moved pre.length y.length z.length b' b'' ∧
        Accepts stdLexer Sums.syn (pre ++ z ++ post) ind
          (a ++ s :: (vs.map (laterTok pre.length) ++ ⟨⟨pre.length, z.length⟩, .endNode c!"sum"⟩ :: b'')) := by
  obtain ⟨M, N, A, K, I, hU, hI, hC⟩ := C126_checked (syn := Sums.syn) (nums := stdNums) (ends := stdEnds) (o := 'z') stdLexer_lawful stdLexer_exact C112_numbers C120_numbers
    (by decide +kernel) (ms := findMarks stdNums Sums.syn.rules 6) (ns := findFurther stdNums Sums.syn.rules (findMarks stdNums Sums.syn.rules 6) 6)
    (gs := findBeyond stdNums stdEnds Sums.syn.rules (findMarks stdNums Sums.syn.rules 6) 6) (by decide +kernel) (by decide +kernel)
  have hs : SyntaxOk Sums.syn := C26_check_sound (by decide +kernel)
  obtain ⟨name, ix, id, q, pre, y, post, us, b', g1, g2, g3, g4, g5, g6, g7⟩ := C129_ranges stdLexer_lawful stdLexer_exact hU hI hC hs h hn
  have hix : ix = 1 := by
    have : ∀ x, Part Sums.syn.rules x → (match x with | .node _ (some _) (some ix) _ => ix = 1 | _ => True) :=
      eachPart_part (P := fun x => match x with | .node _ (some _) (some ix) _ => ix = 1 | _ => True) (by
        simp [EachPart, EachPartOf, Sums.syn, Sums.term, Sums.sum])
    exact this _ g1
  subst hix
  cases g2
  have hq : Part Sums.syn.rules Sums.sum := ⟨_, by simp [Sums.syn], .refl⟩
  have halone : ∀ z vs, (∃ i j tr, Run (envOf stdLexer Sums.syn.rules ind) (.rule Sums.sum) ⟨z, 0⟩ i (some (z.length, vs)) j tr) ↔
      Accepts stdLexer Sums.syn z ind vs := by
    intro z vs
    rw [C126_composes stdLexer_lawful stdLexer_exact hU hI hC hs]
    constructor
    · intro h
      have := (C129_alone stdLexer_lawful stdLexer_exact hU hI hC hs hq 0).2 ⟨vs, rfl, h⟩
      rw [show vs.map (laterTok 0) = vs from List.map_id vs] at this
      exact ⟨_, rfl, this⟩
    · rintro ⟨r, hr, h⟩
      cases hr
      obtain ⟨us, e, h⟩ := (C129_alone stdLexer_lawful stdLexer_exact hU hI hC hs hq 0).1 h
      have : vs = us := e.trans (List.map_id us)
      subst this
      exact h
  refine ⟨pre, y, post, us, b', g3, g4, g5, (halone _ _).1 g6, fun z vs hz => ?_⟩
  obtain ⟨i, j, tr, hz⟩ := (halone _ _).2 hz
  exact g7 z vs i j tr hz

/-- In `((1)+2)+3` the inner `1` is exchanged for `4+5`: the outer brackets become longer, and `2` and `3` move. -/
example : (match parse stdLexer 90 Sums.syn c!"((1)+2)+3" [], parse stdLexer 90 Sums.syn c!"((4+5)+2)+3" [] with
    | .ok ts, .ok us => ts.map (·.range) == [⟨1, 0⟩, ⟨2, 0⟩, ⟨2, 1⟩, ⟨2, 1⟩, ⟨5, 1⟩, ⟨1, 5⟩, ⟨8, 1⟩] &&
        us.map (·.range) == [⟨1, 0⟩, ⟨2, 0⟩, ⟨2, 1⟩, ⟨4, 1⟩, ⟨2, 3⟩, ⟨7, 1⟩, ⟨1, 7⟩, ⟨10, 1⟩]
    | _, _ => false) = true := by decide +kernel

end Verif.Props
