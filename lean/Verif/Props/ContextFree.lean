import Verif.Proofs.Pumping
import Verif.Proofs.Reads
import Verif.Props.Predictable
import Verif.Props.Regular
/-
C124: Syntaxes that read nothing but tags and are decided by the next character accept a
context-free language.  With a look ahead, syntaxes accept texts that no context-free grammar
generates.
-/
namespace Verif.Props
open Verif Verif.Spec

section
variable {L : Lexer} {syn : Syntax} {ind : Indent}

/-- What the productions generate is what the rules generate. -/
theorem C124_generated (ho : ∀ x, Part syn.rules x → OnlyTags x) {start : Rule} (hs : syn.rules.getLast? = some start) (text : Str) :
    text ∈ (grammarOf syn.rules start).language ↔ ∃ ts, GeneratesText L syn text ind ts := by
  refine (grammarOf_language (E := envOf L syn.rules ind) ho ⟨start, List.mem_of_getLast? hs, .refl⟩ text).trans ⟨?_, ?_⟩
  · rintro ⟨ts, h⟩
    exact ⟨ts, start, hs, h⟩
  · rintro ⟨ts, r, hr, h⟩
    rw [hs] at hr
    cases hr
    exact ⟨ts, h⟩

/-- Decided by the next character, the accepted texts are a context-free language. -/
theorem C124_contextFree {nums : Bool → List Char} {o : Char} (hL : L.Lawful) (hn : NumbersBegin L nums) (hc : o ∉ alphabet nums syn.rules) {ms : List Found}
    {ns : List (List (Option Char))} (h : confirmsAll nums syn.rules ms ns = true) (hs : SyntaxOk syn)
    (ho : ∀ x, Part syn.rules x → OnlyTags x) : Language.IsContextFree {text : Str | ∃ ts, Accepts L syn text ind ts} := by
  cases hr : syn.rules.getLast? with
  | none =>
    refine ⟨⟨Unit, (), ∅⟩, ?_⟩
    ext text
    constructor
    · intro h
      have := derives_becomes ((ContextFreeGrammar.mem_language_iff _ _).1 h)
      generalize hs : [Symbol.nonterminal _] = s at this
      cases this with
      | nil => cases hs
      | term => cases hs
      | prod hr => simp at hr
    · rintro ⟨ts, r, j, tr, h, -⟩
      rw [hr] at h
      cases h
  | some start =>
    refine ⟨grammarOf syn.rules start, ?_⟩
    ext text
    rw [C124_generated (L := L) (ind := ind) ho hr]
    exact exists_congr fun ts => (C112_grammar hL hn hc h hs).symm

end

/-! ### Brackets -/

section
variable {L : Lexer} {ind : Indent}

namespace Brackets

/-- `.r?({["(" brackets ")"] "."})`. -/
def rule : Rule := .repeat_ (.select [.sequence [.tag ['('] false false none 1, .node c!"brackets" none (some 0) 2,
  .tag [')'] false false none 3] 4, .tag ['.'] false false none 5] 6) true 7
def syn : Syntax := ⟨[rule], [c!"brackets"]⟩

end Brackets

/-- Brackets brackets are a context-free language. -/
theorem C124_brackets : Language.IsContextFree {text : Str | ∃ ts, Accepts stdLexer Brackets.syn text ind ts} := by
  refine C124_contextFree (o := 'a') stdLexer_lawful C112_numbers (by decide +kernel)
    (ms := findMarks stdNums Brackets.syn.rules 3) (ns := findFurther stdNums Brackets.syn.rules (findMarks stdNums Brackets.syn.rules 3) 3)
    (by decide +kernel) (C26_check_sound (by decide +kernel)) ?_
  apply eachPart_part
  simp [EachPart, EachPartOf, Brackets.syn, Brackets.rule, OnlyTags]

/-- `(.())` is accepted. -/
example : ∃ ts, Accepts stdLexer Brackets.syn c!"(.())" Indent.default ts := by
  have h : parse stdLexer 40 Brackets.syn c!"(.())" [] = .ok [] := by decide +kernel
  obtain ⟨ts, h1, -⟩ := (C04_ok_iff_meaning stdLexer_lawful (toks := [])).1 ⟨by simp, 40, h⟩
  exact ⟨ts, h1⟩

end

/-! ### Texts that no context-free grammar generates -/

namespace Triples

/-- `?["x" pair "y"]`. -/
def pair (x y : Char) (name : Str) (ix : Nat) : Rule :=
  .optional (.sequence [.tag [x] false false none 1, .node name none (some ix) 2, .tag [y] false false none 3] 4) 5
/-- `[!(!(["a…b" "c"])) ..."bc" "b…c"]`: what is read once looking ahead is read again. -/
def start : Rule := .sequence [.not (.not (.sequence [.node c!"ab" none (some 0) 6, .tag ['c'] false false none 7] 8) 9) 10,
  .untilAny ['b', 'c'] false none 11, .node c!"bc" none (some 1) 12] 13
def syn : Syntax := ⟨[pair 'a' 'b' c!"ab" 0, pair 'b' 'c' c!"bc" 1, start], [c!"ab", c!"bc", c!"start"]⟩

/-- As many `x` as `y`. -/
def couple (x y : Char) (n : Nat) : Str := List.replicate n x ++ List.replicate n y
/-- As many `a` as `b` as `c`. -/
def triple (n : Nat) : Str := List.replicate n 'a' ++ List.replicate n 'b' ++ List.replicate n 'c'

theorem couple_succ (x y : Char) (n : Nat) (rest : Str) : couple x y (n + 1) ++ rest = x :: (couple x y n ++ (y :: rest)) := by
  simp only [couple]
  rw [List.replicate_succ (a := x), List.replicate_succ' (a := y)]
  simp

theorem couple_length (x y : Char) (n : Nat) : (couple x y n).length = 2 * n := by
  simp [couple]
  omega

variable {L : Lexer} {ind : Indent} {x y : Char} {name : Str} {ix : Nat}

theorem reads (hxy : x ≠ y) (hr : syn.rules[ix]? = some (pair x y name ix)) (n : Nat) : ∀ {rest : Str} {off i : Nat}, ¬ [x] <+: rest →
    ∃ tr, Run (envOf L syn.rules ind) (.rule (pair x y name ix)) ⟨couple x y n ++ rest, off⟩ i (some (2 * n, [])) i tr := by
  induction n with
  | zero =>
    intro rest off i h
    exact ⟨_, .optional_none (.sequence (.seq_fail (.tag_fail (by simpa [couple] using h))))⟩
  | succ n ih =>
    intro rest off i h
    rw [couple_succ]
    obtain ⟨tr, h1⟩ := ih (rest := y :: rest) (off := off + 1) (i := i) (by simpa using hxy)
    have h2 : Run (envOf L syn.rules ind) (.rule (.node name none (some ix) 2)) (adv ⟨x :: (couple x y n ++ (y :: rest)), off⟩ 1) i
        (some (2 * n, [])) i tr := .node_ok hr h1
    have h3 : [y] <+: (adv (adv ⟨x :: (couple x y n ++ (y :: rest)), off⟩ 1) (2 * n)).src := by
      simp only [adv, List.drop_succ_cons, List.drop_zero]
      rw [← couple_length x y n, List.drop_left]
      exact ⟨rest, rfl⟩
    have h4 := Run.optional_some (id := 5) (.sequence (id := 4) (.seq_cons (Run.tag_ok (E := envOf L syn.rules ind) (t := [x]) (inv := false) (prop := none)
      (id := 1) (p := ⟨x :: (couple x y n ++ (y :: rest)), off⟩) (i := i) ⟨_, rfl⟩) (.seq_cons h2 (.seq_cons
      (.tag_ok (inv := false) (prop := none) (id := 3) h3) .seq_nil))))
    simp only [named, List.length_cons, List.length_nil, List.append_nil] at h4
    rw [show 0 + 1 + (2 * n + (0 + 1 + 0)) = 2 * (n + 1) by omega] at h4
    exact ⟨_, h4⟩

/-- What is read are as many `x` as `y`. -/
theorem read (hr : syn.rules[ix]? = some (pair x y name ix)) : ∀ (k : Nat) {p : Pos} {i j : Nat} {o : Outcome} {tr : List RErr}, p.src.length ≤ k →
    Run (envOf L syn.rules ind) (.rule (pair x y name ix)) p i o j tr → ∀ m ts, o = some (m, ts) → ∃ n, m = 2 * n ∧ couple x y n <+: p.src := by
  intro k
  induction k with
  | zero =>
    intro p i j o tr hp h m ts ho
    have hp : p.src = [] := List.eq_nil_of_length_eq_zero (by omega)
    cases h with
    | optional_none h =>
      cases ho
      exact ⟨0, rfl, by simp [couple]⟩
    | @optional_some _ _ _ _ z _ _ h =>
      generalize hx : some z = q at h
      cases h with
      | sequence h =>
        cases h with
        | seq_fail => cases hx
        | seq_cons h h' =>
          cases h with
          | tag_ok h => rw [hp] at h; simp at h
  | succ k ih =>
    intro p i j o tr hp h m ts ho
    cases h with
    | optional_none h =>
      cases ho
      exact ⟨0, rfl, by simp [couple]⟩
    | @optional_some _ _ _ _ z _ _ h =>
      generalize hx : some z = q at h
      cases h with
      | sequence h =>
        cases h with
        | seq_fail => cases hx
        | seq_cons h h' =>
          cases h with
          | tag_ok h =>
            cases h' with
            | seq_fail => cases hx
            | seq_cons h1 h2 =>
              cases h1 with
              | node_ok hr' h1 =>
                cases hr.symm.trans hr'
                cases h2 with
                | seq_fail => cases hx
                | seq_cons h2 h3 =>
                  cases h2 with
                  | tag_ok h2 =>
                    cases h3
                    obtain ⟨s, hs⟩ := h
                    have hs' : p.src = x :: s := hs.symm
                    obtain ⟨n, hn, t, ht⟩ := ih (by simp [adv, hs'] at hp ⊢; omega) h1 _ _ rfl
                    have e : s = couple x y n ++ t := by simpa [adv, hs'] using ht.symm
                    obtain ⟨u, hu⟩ := h2
                    have e' : t = y :: u := by
                      simp only [adv, hs', e, List.length_cons, List.length_nil, List.drop_succ_cons, List.drop_zero] at hu
                      rw [hn, ← couple_length x y n, List.drop_left] at hu
                      exact hu.symm
                    refine ⟨n + 1, ?_, u, ?_⟩
                    · cases ho
                      simp only [before] at hx
                      cases hx
                      simp
                      omega
                    · rw [couple_succ, hs', e, e']

theorem triple_couple (n : Nat) : triple n = couple 'a' 'b' n ++ List.replicate n 'c' := rfl

theorem triple_couple' (n : Nat) : triple n = List.replicate n 'a' ++ couple 'b' 'c' n := by
  simp [triple, couple]

theorem longest_a {s : Str} (n : Nat) (hs : s.head? = some 'b') : Longest (fun c => c ∉ ['b', 'c']) (List.replicate n 'a' ++ s) n := by
  have := Boot.longest_append (P := fun c => c ∉ ['b', 'c']) (cs := List.replicate n 'a') (rest := s)
    (by
      intro c hc
      rw [List.eq_of_mem_replicate hc]
      decide)
    (by
      intro c hc
      rw [hs] at hc
      cases hc
      simp)
  simpa using this

/-- The texts that are accepted. -/
theorem accepts_iff {s : Str} : (∃ ts, Accepts L syn s ind ts) ↔ ∃ n, 1 ≤ n ∧ s = triple n := by
  constructor
  · rintro ⟨ts, r, j, tr, hr, h⟩
    cases hr
    cases h with
    | sequence h =>
      generalize hx : some (s.length, ts) = q at h
      cases h with
      | seq_fail => cases hx
      | seq_cons h h' =>
        cases h with
        | not_ok h =>
          cases h with
          | not_fail h =>
            rename_i n1 ts1 _
            generalize hx1 : some (n1, ts1) = q1 at h
            cases h with
            | sequence h =>
              cases h with
              | seq_fail => cases hx1
              | seq_cons h h2 =>
                cases h with
                | node_ok hr h =>
                  cases hr
                  cases h2 with
                  | seq_fail => cases hx1
                  | seq_cons h2 h3 =>
                    cases h2 with
                    | tag_ok h2 =>
                      obtain ⟨n, hn, t, ht⟩ := read rfl _ (Nat.le_refl _) h _ _ rfl
                      have ht : couple 'a' 'b' n ++ t = s := ht
                      obtain ⟨u, hu⟩ := h2
                      have e : t = 'c' :: u := by
                        rw [hn, ← couple_length 'a' 'b' n] at hu
                        simp only [adv, ← ht, List.drop_left] at hu
                        exact hu.symm
                      subst e
                      cases h' with
                      | seq_fail => cases hx
                      | seq_cons h' h'' =>
                        cases h' with
                        | until_ok hl h0 =>
                          cases h'' with
                          | seq_fail => cases hx
                          | seq_cons h4 h5 =>
                            cases h4 with
                            | node_ok hr h4 =>
                              cases hr
                              cases h5
                              obtain ⟨m, hm, v, hv⟩ := read rfl _ (Nat.le_refl _) h4 _ _ rfl
                              cases n with
                              | zero =>
                                subst ht
                                have := longest_unique hl (show Longest (fun c => c ∉ ['b', 'c']) ('c' :: u) 0 from ⟨by simp, by simp, by simp⟩)
                                exact absurd (h0 this) (by simp)
                              | succ n =>
                                have e : s = List.replicate (n + 1) 'a' ++ (List.replicate (n + 1) 'b' ++ 'c' :: u) := by
                                  simpa [couple] using ht.symm
                                have := longest_unique hl (show Longest (fun c => c ∉ ['b', 'c']) s (n + 1) by
                                  rw [e]
                                  exact longest_a _ (by simp [List.replicate_succ]))
                                subst this
                                simp only [before, Nat.zero_add, Option.some.injEq, Prod.mk.injEq] at hx
                                have hv : couple 'b' 'c' m ++ v = List.replicate (n + 1) 'b' ++ 'c' :: u := by
                                  rw [hv]
                                  simp [adv, e]
                                have hv0 : v = [] := by
                                  apply List.eq_nil_of_length_eq_zero
                                  have h1 := congrArg List.length hv
                                  have h2 := congrArg List.length e
                                  simp [couple] at h1 h2
                                  omega
                                subst hv0
                                rw [List.append_nil] at hv
                                have hmn : m = n + 1 := by
                                  have h1 : Longest (· = 'b') (couple 'b' 'c' m) m := by
                                    simpa [couple] using Boot.longest_append (P := (· = 'b')) (cs := List.replicate m 'b') (rest := List.replicate m 'c')
                                      (fun c hc => List.eq_of_mem_replicate hc) (by
                                        intro c hc
                                        rw [List.eq_of_mem_replicate (List.mem_of_head? hc)]
                                        decide)
                                  rw [hv] at h1
                                  have h2 := Boot.longest_append (P := (· = 'b')) (cs := List.replicate (n + 1) 'b') (rest := 'c' :: u)
                                    (fun c hc => List.eq_of_mem_replicate hc) (by simp)
                                  rw [List.length_replicate] at h2
                                  exact longest_unique h1 h2
                                subst hmn
                                exact ⟨n + 1, by omega, by rw [e, ← hv, triple_couple']⟩
  · rintro ⟨n, hn, rfl⟩
    obtain ⟨n, rfl⟩ : ∃ k, n = k + 1 := ⟨n - 1, by omega⟩
    obtain ⟨tr, h⟩ := reads (L := L) (ind := ind) (x := 'a') (y := 'b') (name := c!"ab") (ix := 0) (by decide) rfl (n + 1)
      (rest := List.replicate (n + 1) 'c') (off := 0) (i := ind.indent) (by simp [List.replicate_succ])
    have h1 : ['c'] <+: (adv ⟨triple (n + 1), 0⟩ (2 * (n + 1))).src := by
      simp only [adv, triple_couple]
      rw [← couple_length 'a' 'b' (n + 1), List.drop_left]
      exact ⟨_, rfl⟩
    have h2 := Run.sequence (id := 8) (.seq_cons (Run.node_ok (E := envOf L syn.rules ind) (name := c!"ab") (prop := none) (ix := 0) (id := 6) rfl h)
      (.seq_cons (.tag_ok (inv := false) (prop := none) (id := 7) h1) .seq_nil))
    have h3 := Run.not_ok (id := 10) (.not_fail (id := 9) h2)
    obtain ⟨tr', h4⟩ := reads (L := L) (ind := ind) (x := 'b') (y := 'c') (name := c!"bc") (ix := 1) (by decide) rfl (n + 1)
      (rest := []) (off := n + 1) (i := ind.indent) (by simp)
    have h5 := Run.until_ok (E := envOf L syn.rules ind) (any := ['b', 'c']) (opt := false) (prop := none) (id := 11) (p := ⟨triple (n + 1), 0⟩)
      (i := ind.indent) (n := n + 1) (by
        rw [triple_couple']
        exact longest_a _ (by simp [couple, List.replicate_succ])) (by simp)
    have h6 : Run (envOf L syn.rules ind) (.rule (.node c!"bc" none (some 1) 12)) (adv ⟨triple (n + 1), 0⟩ (n + 1)) ind.indent
        (some (2 * (n + 1), [])) ind.indent tr' := by
      have e : adv ⟨triple (n + 1), 0⟩ (n + 1) = ⟨couple 'b' 'c' (n + 1) ++ [], n + 1⟩ := by
        rw [triple_couple']
        simp only [adv, Nat.zero_add, List.append_nil, Pos.mk.injEq, and_true]
        rw [List.drop_left' (by simp)]
      rw [e]
      exact .node_ok rfl h4
    have h7 := Run.sequence (id := 13) (.seq_cons h3 (.seq_cons h5 (.seq_cons h6 .seq_nil)))
    have e : (triple (n + 1)).length = 0 + (n + 1 + (2 * (n + 1) + 0)) := by simp [triple]; omega
    have h8 := h7
    simp only [before, named, List.append_nil, ← e] at h8
    exact ⟨[], start, _, _, rfl, h8⟩

theorem triple_length (n : Nat) : (triple n).length = 3 * n := by
  simp [triple]
  omega

theorem triple_count {c : Char} (hc : c ∈ ['a', 'b', 'c']) (n : Nat) : (triple n).count c = n := by
  simp only [List.mem_cons, List.not_mem_nil, or_false] at hc
  rcases hc with rfl | rfl | rfl <;> simp [triple, List.count_append, List.count_replicate]

theorem triple_sorted (n : Nat) : (triple n).Pairwise (fun c d => c.toNat ≤ d.toNat) := by
  simp only [triple, List.pairwise_append, List.pairwise_replicate, List.mem_append, List.mem_replicate]
  refine ⟨⟨by simp, by simp, ?_⟩, by simp, ?_⟩
  · rintro _ ⟨-, rfl⟩ _ ⟨-, rfl⟩
    decide
  · rintro _ (⟨-, rfl⟩ | ⟨-, rfl⟩) _ ⟨-, rfl⟩ <;> decide

/-- What is doubled is one letter. -/
theorem doubled_one {n : Nat} {u v z : Str} (h : u ++ (v ++ v) ++ z = triple n) {c d : Char} (hc : c ∈ v) (hd : d ∈ v) : c = d := by
  have h1 := triple_sorted n
  rw [← h] at h1
  have h2 := (List.pairwise_append.1 (List.pairwise_append.1 (List.pairwise_append.1 h1).1).2.1).2.2
  have h3 := Nat.le_antisymm (h2 c hc d hd) (h2 d hd c hc)
  rw [← Char.ofNat_toNat c, h3, Char.ofNat_toNat]

/-- The texts are no context-free language. -/
theorem not_contextFree : ¬ Language.IsContextFree {text : Str | ∃ n, 1 ≤ n ∧ text = triple n} := by
  intro h
  obtain ⟨p, hp⟩ := pumping h
  obtain ⟨u, v, x, y, z, e, hne, m, -, e'⟩ := hp (triple (p + 1)) ⟨p + 1, by omega, rfl⟩ (by rw [triple_length]; omega)
  have hm : p + 1 < m := by
    have h1 := congrArg List.length e
    have h2 := congrArg List.length e'
    rw [triple_length] at h1 h2
    simp only [List.length_append] at h1 h2
    have : 0 < v.length + y.length := by
      rcases hne with h | h
      · have := List.length_pos_iff.2 h
        omega
      · have := List.length_pos_iff.2 h
        omega
    omega
  have hmem : ∀ c ∈ ['a', 'b', 'c'], c ∈ v ∨ c ∈ y := by
    intro c hc
    have h1 := congrArg (List.count c) e
    have h2 := congrArg (List.count c) e'
    rw [triple_count hc] at h1 h2
    simp only [List.count_append] at h1 h2
    by_cases h : c ∈ v
    · exact .inl h
    · refine .inr (List.count_pos_iff.1 ?_)
      have := List.count_eq_zero_of_not_mem h
      omega
  have hv : ∀ {c d : Char}, c ∈ v → d ∈ v → c = d := doubled_one (n := m) (u := u) (z := x ++ (y ++ y) ++ z) (by simpa using e')
  have hy : ∀ {c d : Char}, c ∈ y → d ∈ y → c = d := doubled_one (n := m) (u := u ++ (v ++ v) ++ x) (z := z) (by simpa using e')
  rcases hmem 'a' (by simp), hmem 'b' (by simp), hmem 'c' (by simp) with ⟨ha | ha, hb | hb, hc | hc⟩ <;>
    first
    | exact absurd (hv ha hb) (by decide)
    | exact absurd (hv ha hc) (by decide)
    | exact absurd (hv hb hc) (by decide)
    | exact absurd (hy ha hb) (by decide)
    | exact absurd (hy ha hc) (by decide)
    | exact absurd (hy hb hc) (by decide)

end Triples

/-- A syntax for as many `a` as `b` as `c`. -/
theorem C124_triples (L : Lexer) (text : Str) (ind : Indent) : (∃ ts, Accepts L Triples.syn text ind ts) ↔
    ∃ n, 1 ≤ n ∧ text = List.replicate n 'a' ++ List.replicate n 'b' ++ List.replicate n 'c' :=
  Triples.accepts_iff

/-- Some syntax accepts a language that is not context-free. -/
theorem C124_beyond : SyntaxOk Triples.syn ∧
    ∀ (L : Lexer) (ind : Indent), ¬ Language.IsContextFree {text : Str | ∃ ts, Accepts L Triples.syn text ind ts} := by
  refine ⟨C26_check_sound (by decide +kernel), fun L ind h => Triples.not_contextFree ?_⟩
  have e : {text : Str | ∃ ts, Accepts L Triples.syn text ind ts} = {text : Str | ∃ n, 1 ≤ n ∧ text = Triples.triple n} :=
    Set.ext fun text => Triples.accepts_iff
  rw [e] at h
  exact h

/-- `aabbcc` is accepted and `aabbc` is not. -/
example : (∃ ts, Accepts stdLexer Triples.syn c!"aabbcc" Indent.default ts) ∧ ¬ ∃ ts, Accepts stdLexer Triples.syn c!"aabbc" Indent.default ts := by
  refine ⟨Triples.accepts_iff.2 ⟨2, by decide, rfl⟩, fun h => ?_⟩
  obtain ⟨n, -, h⟩ := Triples.accepts_iff.1 h
  have := congrArg List.length h
  rw [Triples.triple_length] at this
  simp at this
  omega

end Verif.Props
