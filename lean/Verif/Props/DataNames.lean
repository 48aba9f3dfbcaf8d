import Verif.Proofs.DataNames
import Verif.Props.Edit
/-
C128: which names occur in the data can be computed; where the next character decides, exactly.
-/
namespace Verif.Props
open Spec

section
variable {L : Lexer} {syn : Syntax} {ind : Indent} {nm : Str}

/-- A name that the last rule may not give occurs in the data of no text, whatever the syntax. -/
theorem C128_never (hL : L.Lawful) {r : Rule} (hr : syn.rules.getLast? = some r) (h : mayGive nm syn.rules r = false) {text : Str}
    {toks ts : List Tok} (hp : Parses L syn text toks ind (.ok (toks ++ ts))) : ∀ t ∈ ts, dataName t.data ≠ nm := by
  obtain ⟨us, ⟨r', j, tr, hr', h1⟩, he⟩ := (C04_ok_iff_meaning hL).1 hp
  cases hr.symm.trans hr'
  have he := List.append_cancel_left he
  subst he
  intro t ht hn
  have h2 := run_gives (E := envOf L syn.rules ind) findMatches_fixed findGivers_fixed h1 _ _ rfl ⟨t, ht, hn⟩
  simp only [mayGive] at h
  exact absurd (h.symm.trans h2) (by simp)

variable {nums : Bool → List Char} {ends : List Char} {o : Char}

/-- Where the next character decides and nothing may begin with what would have been read before it, the others do occur. -/
theorem C128_exact (hL : L.Lawful) (hX : L.Exact) (hn : NumbersBegin L nums) (hS : NumbersStop L ends) (ho : o ∉ alphabet nums syn.rules)
    {ms : List Found} {ns gs : List (List (Option Char))} (h : confirmsAll nums syn.rules ms ns = true)
    (h' : confirmsApart nums ends syn.rules ms gs = true) (hs : SyntaxOk syn) {r : Rule} (hr : syn.rules.getLast? = some r) :
    (∃ text ts, Accepts L syn text ind ts ∧ ∃ t ∈ ts, dataName t.data = nm) ↔ mayGive nm syn.rules r = true := by
  constructor
  · rintro ⟨text, ts, h1, t, ht, hn⟩
    cases hm : mayGive nm syn.rules r with
    | true => rfl
    | false => exact absurd hn (C128_never (toks := []) hL hr hm ((C04_ok_iff_meaning hL (toks := [])).2 ⟨ts, h1, rfl⟩) t ht)
  · intro hg
    obtain ⟨I, hI⟩ := foundAt_idle ms
    obtain ⟨h1, h2⟩ := confirmsAll_lengths h
    have hU := (confirmsAll_iff hn ho h1 h2).1 h
    have hC := continues_of_apart hn hS ho h'
    have hP := outright_of hU hC
    have hM : ∀ x, Part syn.rules x → canMatch (textAt (findMatches syn.rules syn.rules.length)) x = true →
        HasText (envOf L syn.rules ind) (.rule x) := by
      intro x hx hm
      rw [findMatches_texts hP, canMatch_someText x fun y hy => hP y (by obtain ⟨q, hq, hqx⟩ := hx; exact ⟨q, hq, Occurs.trans hy hqx⟩)] at hm
      obtain ⟨y, ts, hy⟩ := someText_yields (E := envOf L syn.rules ind) hL hX hU hI hC hS ho
        (findTexts_yields (E := envOf L syn.rules ind) hL hX hU hI hC hS ho _) x hx hm
      exact hasText_of (generates_composes (E := envOf L syn.rules ind) hL hX hU hC hy hx).2
    have hT : ∀ i, textAt (findMatches syn.rules syn.rules.length) i = true →
        ∃ q, syn.rules[i]? = some q ∧ HasText (envOf L syn.rules ind) (.rule q) := by
      intro i hi
      rw [findMatches_texts hP] at hi
      obtain ⟨q, hq, y, ts, hy⟩ := findTexts_yields (E := envOf L syn.rules ind) hL hX hU hI hC hS ho _ i hi
      exact ⟨q, hq, hasText_of (generates_composes (E := envOf L syn.rules ind) hL hX hU hC hy ⟨q, List.mem_of_getElem? hq, .refl⟩).2⟩
    have hx : Part syn.rules r := ⟨r, List.mem_of_getLast? hr, .refl⟩
    obtain ⟨y, h3⟩ := gives_provides (E := envOf L syn.rules ind) hP hM hT (findGivers_provides hP hM hT _) r hx hg
    obtain ⟨ts, h4, hn⟩ := h3 0
    exact ⟨y, ts, (C126_composes hL hX hU hI hC hs).2 ⟨r, hr, h4⟩, hn⟩

end

/-! ### Examples -/

namespace Named

/-- `a = ["(" a:"deep" ")"]`: there is no end to the brackets. -/
def a : Rule := .sequence [.tag ['('] false false none 1, .node c!"a" (some c!"deep") (some 0) 2, .tag [')'] false false none 3] 4
/-- `b = [.$:"num" ?"%":"percent"]`. -/
def b : Rule := .sequence [.number (some c!"num") false 5, .optional (.tag ['%'] false false (some c!"percent") 6) 7] 8
/-- `{a:"a" b:"b" ["x":"x" a]}`. -/
def doc : Rule := .select [.node c!"a" (some c!"a") (some 0) 9, .node c!"b" (some c!"b") (some 1) 10,
  .sequence [.tag ['x'] false false (some ['x']) 11, .node c!"a" none (some 0) 12] 13] 14

def syn : Syntax := ⟨[a, b, doc], [c!"a", c!"b", c!"doc"]⟩

end Named

/-- The names that occur are `b`, `num` and `percent`. -/
theorem C128_named {ind : Indent} {nm : Str} : (∃ text ts, Accepts stdLexer Named.syn text ind ts ∧ ∃ t ∈ ts, dataName t.data = nm) ↔
    nm = c!"b" ∨ nm = c!"num" ∨ nm = c!"percent" := by
  rw [C128_exact (syn := Named.syn) (nums := stdNums) (ends := stdEnds) (o := 'z') stdLexer_lawful stdLexer_exact C112_numbers C120_numbers
    (by decide +kernel) (ms := findMarks stdNums Named.syn.rules 6) (ns := findFurther stdNums Named.syn.rules (findMarks stdNums Named.syn.rules 6) 6)
    (gs := findBeyond stdNums stdEnds Named.syn.rules (findMarks stdNums Named.syn.rules 6) 6) (by decide +kernel) (by decide +kernel)
    (C26_check_sound (by decide +kernel)) (r := Named.doc) rfl]
  simp [mayGive, Named.syn, Named.doc, Named.a, Named.b, gives, givesOf, findMatches, canMatch, canMatchAll, canMatchOf, findGivers, textAt]
  constructor
  · rintro ((h | h) | h)
    · exact .inr (.inl h.symm)
    · exact .inr (.inr h.symm)
    · exact .inl h.symm
  · rintro (h | h | h)
    · exact .inr h.symm
    · exact .inl (.inl h.symm)
    · exact .inl (.inr h.symm)

/-- `1%` has all of them. -/
example : (match parse stdLexer 40 Named.syn c!"1%" [] with
    | .ok ts => ts.map (dataName ·.data) == [c!"b", c!"num", c!"percent", c!"b"] | _ => false) = true := by decide +kernel

namespace GreedyNamed

/-- `[..?"b" "a":"x"]`: whatever could be the `a` has been read. -/
def doc : Rule := .sequence [.untilAny ['b'] true none 1, .tag ['a'] false false (some ['x']) 2] 3
def syn : Syntax := ⟨[doc], [c!"doc"]⟩

end GreedyNamed

/-- In general there are other names that do not occur. -/
theorem C128_not_all {L : Lexer} {ind : Indent} : mayGive ['x'] GreedyNamed.syn.rules GreedyNamed.doc = true ∧
    ¬ ∃ text ts, Accepts L GreedyNamed.syn text ind ts ∧ ∃ t ∈ ts, dataName t.data = ['x'] := by
  refine ⟨by decide +kernel, ?_⟩
  rintro ⟨text, ts, ⟨r, j, tr, hr, h⟩, -⟩
  cases hr
  generalize hx : some (text.length, ts) = x at h
  cases h with
  | sequence h =>
    cases h with
    | seq_fail => cases hx
    | seq_cons h h' =>
      cases h with
      | until_ok hl _ =>
        cases h' with
        | seq_fail => cases hx
        | seq_cons h' _ =>
          cases h' with
          | tag_ok h' =>
            obtain ⟨s, hs⟩ := h'
            exact hl.2.2 'a' (by
              have : _ = List.drop _ _ := hs
              rw [← this]
              rfl) (by decide)

end Verif.Props
