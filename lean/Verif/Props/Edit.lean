import Verif.Proofs.Edit
import Verif.Props.Dead
import Verif.Props.Viable
/-
C126: where what has been read can be continued, the text of a node may be exchanged.
-/
namespace Verif.Props
open Spec

section
variable {L : Lexer} {syn : Syntax} {ind : Indent} {M : Nat → Mark} {N A : Nat → Char → Prop} {K : Char → Prop} {I : Nat}

/-- Accepted texts are put together from texts that are read on their own. -/
theorem C126_composes (hL : L.Lawful) (hX : L.Exact) (hU : LL1 L M N syn.rules) (hI : ∀ i, (M i).idle ≤ I)
    (hC : Continues L K M A syn.rules) (hs : SyntaxOk syn) {text : Str} {ts : List Tok} :
    Accepts L syn text ind ts ↔ ∃ r, syn.rules.getLast? = some r ∧ Composes (envOf L syn.rules ind) (.rule r) 0 text ts := by
  rw [C111_generated hL hU hI hs]
  refine exists_congr fun r => and_congr_right fun hr => ?_
  have hp : Part syn.rules r := ⟨r, List.mem_of_getLast? hr, .refl⟩
  constructor
  · intro h
    have := (generates_composes (E := envOf L syn.rules ind) hL hX hU hC h hp).2
    simpa using this
  · intro h
    have := composes_generates (E := envOf L syn.rules ind) hL hX hU hI hC h hp hp [] not_heads_nil
    simpa using this

/-- What a rule reads on its own is what may stand for it anywhere. -/
theorem C126_alone (hL : L.Lawful) (hX : L.Exact) (hU : LL1 L M N syn.rules) (hI : ∀ i, (M i).idle ≤ I)
    (hC : Continues L K M A syn.rules) (hs : SyntaxOk syn) {q : Rule} (hq : Part syn.rules q) {text : Str} {ds : List MetaData} (off : Nat) :
    ReadsAlone (envOf L syn.rules ind) q text ds ↔
      ∃ ts, Composes (envOf L syn.rules ind) (.rule q) off text ts ∧ ts.map (·.data) = ds := by
  constructor
  · rintro ⟨i, ts, j, tr, h, rfl⟩
    have h1 : Generates (envOf L syn.rules ind) (.rule q) ⟨text, 0⟩ text.length ts := runs_generates (plainly_of hU) h hq _ _ rfl
    have h2 := (generates_composes (E := envOf L syn.rules ind) hL hX hU hC h1 hq).2
    rw [List.take_length] at h2
    exact composes_elsewhere h2 off
  · rintro ⟨ts, h, rfl⟩
    obtain ⟨us, h1, h2⟩ := composes_elsewhere h 0
    have h3 := composes_generates (E := envOf L syn.rules ind) hL hX hU hI hC h1 hq hq [] not_heads_nil
    rw [List.append_nil] at h3
    obtain ⟨tr, h4⟩ := generates_runs (E := envOf L syn.rules ind) hL hU hI hs h3 hq (by
      simp only [List.drop_length]
      exact not_heads_nil) 0
    exact ⟨0, us, 0, tr, h4, h2⟩

/-- The data of a node in an accepted text is what its rule reads from the text at its range, and if this is exchanged for any text that
the rule reads on its own, the whole is accepted and the data of the node is exchanged. -/
theorem C126_edit (hL : L.Lawful) (hX : L.Exact) (hU : LL1 L M N syn.rules) (hI : ∀ i, (M i).idle ≤ I)
    (hC : Continues L K M A syn.rules) (hs : SyntaxOk syn) {text : Str} {a b : List Tok} {s : Tok} {nm : Str}
    (h : Accepts L syn text ind (a ++ s :: b)) (hn : s.data = .startNode nm) :
    ∃ name ix id q pre y post us b', Part syn.rules (.node name (some nm) (some ix) id) ∧ syn.rules[ix]? = some q ∧
      text = pre ++ y ++ post ∧ s.range = ⟨pre.length, 0⟩ ∧ b = us ++ ⟨⟨pre.length, y.length⟩, .endNode nm⟩ :: b' ∧
      ReadsAlone (envOf L syn.rules ind) q y (us.map (·.data)) ∧
      ∀ z ds, ReadsAlone (envOf L syn.rules ind) q z ds → ∃ ts', Accepts L syn (pre ++ z ++ post) ind ts' ∧
        ts'.map (·.data) = a.map (·.data) ++ .startNode nm :: (ds ++ .endNode nm :: b'.map (·.data)) := by
  obtain ⟨r, hr, h1⟩ := (C126_composes hL hX hU hI hC hs).1 h
  have hp : Part syn.rules r := ⟨r, List.mem_of_getLast? hr, .refl⟩
  obtain ⟨name, ix, id, q, pre, y, post, us, b', g1, g2, g3, g4, g5, g6, g7⟩ :=
    composes_edit (E := envOf L syn.rules ind) h1 hp a s b nm rfl hn
  have hq : Part syn.rules q := ⟨q, List.mem_of_getElem? g2, .refl⟩
  rw [Nat.zero_add] at g4 g5
  refine ⟨name, ix, id, q, pre, y, post, us, b', g1, g2, g3, g4, g5, (C126_alone hL hX hU hI hC hs hq _).2 ⟨us, g6, rfl⟩, fun z ds hz => ?_⟩
  obtain ⟨vs, h2, rfl⟩ := (C126_alone hL hX hU hI hC hs hq (0 + pre.length)).1 hz
  obtain ⟨ts', h3, h4⟩ := g7 z vs h2
  exact ⟨ts', (C126_composes hL hX hU hI hC hs).2 ⟨r, hr, h3⟩, h4⟩

variable {nums : Bool → List Char} {ends : List Char} {o : Char}

/-- The conditions are those of the checks. -/
theorem C126_checked (hL : L.Lawful) (hX : L.Exact) (hn : NumbersBegin L nums) (hS : NumbersStop L ends) (ho : o ∉ alphabet nums syn.rules)
    {ms : List Found} {ns gs : List (List (Option Char))} (h : confirmsAll nums syn.rules ms ns = true)
    (h' : confirmsApart nums ends syn.rules ms gs = true) : ∃ M N A K I, LL1 L M N syn.rules ∧ (∀ i, (M i).idle ≤ I) ∧ Continues L K M A syn.rules := by
  obtain ⟨I, hI⟩ := foundAt_idle ms
  obtain ⟨h1, h2⟩ := confirmsAll_lengths h
  exact ⟨_, _, _, _, I, (confirmsAll_iff hn ho h1 h2).1 h, hI, continues_of_apart hn hS ho h'⟩

end

/-! ### Examples -/

namespace Sums

/-- `{.$:"num" ["(" sum:"sum" ")"]}`. -/
def term : Rule := .select [.number (some c!"num") false 1, .sequence [.tag ['('] false false none 2, .node c!"sum" (some c!"sum") (some 1) 3,
  .tag [')'] false false none 4] 5] 6
/-- `.s!("+" term)`. -/
def sum : Rule := .separateBy (.node c!"term" none (some 0) 7) (.tag ['+'] false false none 8) false false 9
def syn : Syntax := ⟨[term, sum], [c!"term", c!"sum"]⟩

end Sums

/-- What stands in brackets in a sum may be exchanged for any other sum. -/
theorem C126_sums {ind : Indent} {text : Str} {a b : List Tok} {s : Tok} (h : Accepts stdLexer Sums.syn text ind (a ++ s :: b))
    (hn : s.data = .startNode c!"sum") : ∃ pre y post us b', text = pre ++ y ++ post ∧ s.range = ⟨pre.length, 0⟩ ∧
      b = us ++ ⟨⟨pre.length, y.length⟩, .endNode c!"sum"⟩ :: b' ∧
      (∃ vs, Accepts stdLexer Sums.syn y ind vs ∧ vs.map (·.data) = us.map (·.data)) ∧
      ∀ z vs, Accepts stdLexer Sums.syn z ind vs → ∃ ts', Accepts stdLexer Sums.syn (pre ++ z ++ post) ind ts' ∧
        ts'.map (·.data) = a.map (·.data) ++ .startNode c!"sum" :: (vs.map (·.data) ++ .endNode c!"sum" :: b'.map (·.data)) := by
  obtain ⟨M, N, A, K, I, hU, hI, hC⟩ := C126_checked (syn := Sums.syn) (nums := stdNums) (ends := stdEnds) (o := 'z') stdLexer_lawful stdLexer_exact C112_numbers C120_numbers
    (by decide +kernel) (ms := findMarks stdNums Sums.syn.rules 6) (ns := findFurther stdNums Sums.syn.rules (findMarks stdNums Sums.syn.rules 6) 6)
    (gs := findBeyond stdNums stdEnds Sums.syn.rules (findMarks stdNums Sums.syn.rules 6) 6) (by decide +kernel) (by decide +kernel)
  have hs : SyntaxOk Sums.syn := C26_check_sound (by decide +kernel)
  obtain ⟨name, ix, id, q, pre, y, post, us, b', g1, g2, g3, g4, g5, g6, g7⟩ := C126_edit stdLexer_lawful stdLexer_exact hU hI hC hs h hn
  have hix : ix = 1 := by
    have : ∀ x, Part Sums.syn.rules x → (match x with | .node _ (some _) (some ix) _ => ix = 1 | _ => True) :=
      eachPart_part (P := fun x => match x with | .node _ (some _) (some ix) _ => ix = 1 | _ => True) (by
        simp [EachPart, EachPartOf, Sums.syn, Sums.term, Sums.sum])
    exact this _ g1
  subst hix
  cases g2
  have hq : Part Sums.syn.rules Sums.sum := ⟨_, by simp [Sums.syn], .refl⟩
  have halone : ∀ z ds, ReadsAlone (envOf stdLexer Sums.syn.rules ind) Sums.sum z ds ↔ ∃ vs, Accepts stdLexer Sums.syn z ind vs ∧ vs.map (·.data) = ds := by
    intro z ds
    rw [C126_alone stdLexer_lawful stdLexer_exact hU hI hC hs hq 0]
    refine exists_congr fun vs => and_congr_left fun _ => ?_
    rw [C126_composes stdLexer_lawful stdLexer_exact hU hI hC hs]
    exact ⟨fun h => ⟨_, rfl, h⟩, fun ⟨r, hr, h⟩ => by cases hr; exact h⟩
  exact ⟨pre, y, post, us, b', g3, g4, g5, (halone _ _).1 g6, fun z vs hz => g7 z _ ((halone _ _).2 ⟨vs, hz, rfl⟩)⟩

/-- In `1+(2+(3))` the brackets hold `2+(3)`, from the third character on. -/
example : (match parse stdLexer 60 Sums.syn c!"1+(2+(3))" [] with
    | .ok (_ :: s :: ts) => s.data == .startNode c!"sum" && s.range.offset == 3 && ts.getLast?.map (·.range) == some ⟨3, 5⟩ && ts.length == 5
    | _ => false) = true := by decide +kernel

namespace LostNode

def syn : Syntax := ⟨[Lost.ab, .sequence [.node c!"ab" (some c!"ab") (some 0) 7, Lost.w] 6], [c!"ab", c!"doc"]⟩

end LostNode

/-- It is not enough that the next character decides: in `b ` the `b` may not be exchanged for `a `. -/
theorem C126_needed {ind : Indent} : (∃ ts, Accepts stdLexer LostNode.syn c!"b " Indent.default ts) ∧
    ReadsAlone (envOf stdLexer LostNode.syn.rules ind) Lost.ab c!"a " [] ∧
    (∃ ns, confirmsAll stdNums LostNode.syn.rules (findMarks stdNums LostNode.syn.rules 6) ns = true) ∧
    ¬ ∃ ts, Accepts stdLexer LostNode.syn c!"a  " Indent.default ts := by
  have h1 : (match parse stdLexer 40 LostNode.syn c!"b " [] with | .ok _ => true | _ => false) = true := by decide +kernel
  have h2 : (match parse stdLexer 40 LostNode.syn c!"a  " [] with | .err _ _ => true | _ => false) = true := by decide +kernel
  refine ⟨?_, ?_, ⟨findFurther stdNums LostNode.syn.rules (findMarks stdNums LostNode.syn.rules 6) 6, by decide +kernel⟩, ?_⟩
  · split at h1
    · rename_i h
      obtain ⟨ts, h2, -⟩ := (C04_ok_iff_meaning stdLexer_lawful (toks := [])).1 ⟨by simp, 40, h⟩
      exact ⟨ts, h2⟩
    · cases h1
  · refine ⟨0, [], 0, _, .select (.sel_next (.tag_fail (by decide)) (.sel_here (x := (2, [])) (.sequence (.seq_cons (o := some (1, [])) (.tag_ok (p := ⟨c!"a ", 0⟩) (t := ['a']) ?_) (.seq_cons (o := some (0, [])) (n := 1) (.ws_ok ⟨?_, ?_, ?_⟩ ?_) .seq_nil))))), rfl⟩
    · decide
    · decide
    · decide
    · decide
    · decide
  · rintro ⟨ts, h⟩
    split at h2
    · rename_i h3
      cases parses_det ((C04_ok_iff_meaning stdLexer_lawful (toks := [])).2 ⟨ts, h, rfl⟩) ⟨by simp, 40, h3⟩
    · cases h2

end Verif.Props
