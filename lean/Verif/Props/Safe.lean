import Verif.Proofs.Safe
import Verif.Props.Rules
/-
Parsing does not panic: C26.
-/
namespace Verif.Props
open Spec

/-- Parsing with a syntax whose indices are in range never panics. -/
theorem C26_no_panic {L : Lexer} {syn text toks ind} (hs : SyntaxOk syn)
    (ht : ShortFor ind.tabSpaces text ∨ NoIndent syn.rules) : ¬ Parses L syn text toks ind .panic := by
  rintro ⟨_, n, h⟩
  unfold parseWithIndent at h
  split at h
  · simp at h
  · rename_i r hr
    have hmem := List.mem_of_getLast? hr
    have := eval_fine (L := L) (tab := ind.tabSpaces) (P := fun x => ∃ q ∈ syn.rules, Occurs x q)
      ⟨fun q hq => ⟨q, hq, .refl⟩, fun hc ⟨q, hq, hx⟩ => ⟨q, hq, Occurs.trans (.step .refl hc) hx⟩⟩
      (fun x ⟨q, hq, hx⟩ => hs q hq x hx) n r ⟨toks, ind⟩ toks.length (Pos.new text 0)
      ⟨r, hmem, .refl⟩ rfl (ht.imp_right fun ht r id ⟨q, hq, hx⟩ => ht q hq r id hx)
    split at h
    · split at h <;> simp at h
    · simp at h
    · simp at h
    · rename_i he; rw [he] at this; exact this

/-- A rule of such a syntax never panics either, wherever it is tried. -/
theorem C26_rule_no_panic {L : Lexer} {refs r} (hr : RuleOk refs r) (hrefs : ∀ q ∈ refs, RuleOk refs q)
    (n : Nat) (st : St) (s : Nat) (p : Pos) (ht : ShortFor st.ind.tabSpaces p.src) :
    eval L refs n r st s p ≠ .panic := by
  intro h
  have := eval_fine (L := L) (tab := st.ind.tabSpaces) (P := RuleOk refs) (closed_occurs hrefs)
    (fun r h => h r .refl) n r st s p hr rfl (.inl ht)
  rw [h] at this
  exact this

/-- Checks the indices stored in a rule. -/
def indexOk (refs : List Rule) : Rule → Bool
  | .node _ _ (some i) _ => decide (i < refs.length)
  | .fastSelect tb args tail _ =>
    ((List.range 256).all fun b =>
      tb (UInt8.ofNat b) == 255 || decide ((tb (UInt8.ofNat b)).toNat < args.length)) &&
    (!tail || !args.isEmpty)
  | _ => true

theorem indexOk_sound {refs : List Rule} {r : Rule} (h : indexOk refs r = true) : IndexOk refs r := by
  cases r with
  | node name prop index id =>
    cases index with
    | none => trivial
    | some i => simpa [indexOk, IndexOk] using h
  | fastSelect tb args tail id =>
    simp only [indexOk, Bool.and_eq_true] at h
    refine ⟨?_, ?_⟩
    · intro b hb
      have := (List.all_eq_true.1 h.1) b.toNat (by simpa using b.toNat_lt)
      simp [hb] at this
      exact this
    · intro ht
      have := h.2
      subst ht
      simpa using this
  | _ => trivial

/-- Checks all indices of a syntax. -/
def syntaxOk (syn : Syntax) : Bool := syn.rules.all fun r => r.all (indexOk syn.rules)

/-- The check is sound. -/
theorem C26_check_sound {syn : Syntax} (h : syntaxOk syn = true) : SyntaxOk syn := by
  intro r hr x hx
  exact indexOk_sound (Rule.all_occurs hx (List.all_eq_true.1 h r hr))

/-- The hypotheses can be met: the syntax used above, with references, on a text. -/
example : ¬ Parses stdLexer exSyntax c!"(ab,a,)" [] Indent.default .panic :=
  C26_no_panic (C26_check_sound (by decide +kernel)) (.inl (by unfold ShortFor; decide))

/-- The hypothesis about indices is needed: a reference out of range panics... -/
example : Parses stdLexer ⟨[.node c!"a" none (some 7) 1], [c!"a"]⟩ c!"" [] Indent.default .panic :=
  ⟨by simp, 5, by decide +kernel⟩

/-- ...and so is the one about the length: the indentation counter overflows
(with a width of tabs that no `u8` has, to keep the text short). -/
example : Parses stdLexer ⟨[.lines (.tag c!"a" false false none 1) true 2], [c!"a"]⟩ c!"\ta" []
    { Indent.default with tabSpaces := 2 ^ 32 - 1 } .panic :=
  ⟨by simp, 5, by decide +kernel⟩

end Verif.Props
