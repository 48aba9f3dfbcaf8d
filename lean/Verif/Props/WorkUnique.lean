import Verif.Proofs.CountedFuel
import Verif.Props.SyntaxCost
/-
C96, C100, C101: the numbers are determined by the input.
-/
namespace Verif.Props
open Spec

variable {L : Lexer}

theorem convertAll_det {n m : Nat} {data : List Tok} {ignored : List Range} {x y : Option (Syntax × Nat × Nat) × List Range × Nat}
    (h : Counted.convertAll n data ignored = .ok x) (h' : Counted.convertAll m data ignored = .ok y) : x = y := by
  rcases Nat.le_total n m with hn | hn
  · have := convertAll_mono hn (data := data) (ignored := ignored) (by rw [h]; simp)
    rw [h, h'] at this
    cases this
    rfl
  · have := convertAll_mono hn (data := data) (ignored := ignored) (by rw [h']; simp)
    rw [h, h'] at this
    cases this
    rfl

/-- C96: `convert` has one number only. -/
theorem C96_one_number {data : List Tok} {ignored l l' : List Range} {r r' : Option Syntax} {k k' : Nat}
    (h : ConvertsIn data ignored r l k) (h' : ConvertsIn data ignored r' l' k') : r = r' ∧ l = l' ∧ k = k' := by
  have key : ∀ {r l k}, ConvertsIn data ignored r l k →
      ∃ n o, Counted.convertAll n data ignored = .ok (o, l, k) ∧ r = o.map (·.1) := by
    rintro r l k ⟨n, h⟩
    rw [C100_erase] at h
    cases hc : Counted.convertAll n data ignored with
    | panic => rw [hc] at h; cases h
    | timeout => rw [hc] at h; cases h
    | ok x =>
      obtain ⟨o, l', k'⟩ := x
      rw [hc] at h
      cases h
      exact ⟨n, o, hc, rfl⟩
  obtain ⟨n, o, e1, rfl⟩ := key h
  obtain ⟨n', o', e2, rfl⟩ := key h'
  cases convertAll_det e1 e2
  exact ⟨rfl, rfl, rfl⟩

/-- C100: and so does `update_refs` in it. -/
theorem C100_one_number {data : List Tok} {ignored l l' : List Range} {syn syn' : Syntax} {k k' u u' v v' : Nat}
    (h : ResolvesIn data ignored syn l k u v) (h' : ResolvesIn data ignored syn' l' k' u' v') :
    syn = syn' ∧ l = l' ∧ k = k' ∧ u = u' ∧ v = v' := by
  obtain ⟨n, h⟩ := h
  obtain ⟨n', h'⟩ := h'
  cases convertAll_det h h'
  exact ⟨rfl, rfl, rfl, rfl, rfl⟩

/-- C101: `syntax` does one work only for a text. -/
theorem C101_one_work (hL : L.Lawful) {text : Str} {r r' : Except RErr Syntax} {w w' : Work}
    (h : SyntaxWorks L text r w) (h' : SyntaxWorks L text r' w') : r = r' ∧ w = w' := by
  have hr : r = r' := C46_one_outcome.1 _ _ (C101_same.2 ⟨w, h⟩) (C101_same.2 ⟨w', h'⟩)
  subst hr
  refine ⟨rfl, ?_⟩
  obtain ⟨bs, d, hb, hp, h⟩ := C101_parts hL h
  obtain ⟨bs', d', hb', hp', h'⟩ := C101_parts hL h'
  cases C31_deterministic hb hb'
  have e1 := (C70_cost_unique hp hp').1
  suffices w.convert = w'.convert ∧ w.update = w'.update ∧ w.names = w'.names ∧ w.optimize = w'.optimize ∧
      w.bytes = w'.bytes by
    obtain ⟨e2, e3, e4, e5, e6⟩ := this
    cases w
    cases w'
    simp_all
  rcases h with ⟨e, -, ⟨_, _, q⟩, h1, h2, h3, h4, h5⟩ | ⟨data, q, h⟩
  · rcases h' with ⟨e', -, -, h1', h2', h3', h4', h5'⟩ | ⟨data, q', -⟩
    · omega
    · cases parses_det q q'
  · rcases h' with ⟨e', -, ⟨_, _, q'⟩, -⟩ | ⟨data', q', h'⟩
    · cases parses_det q q'
    cases parses_det q q'
    rcases h with ⟨-, ⟨ig, h0⟩, h1, h2, h3, h4⟩ | ⟨syn, syn', ig, h0, -, h1, h2⟩
    · rcases h' with ⟨-, ⟨ig', h0'⟩, h1', h2', h3', h4'⟩ | ⟨syn', syn'', ig', h0', -, h1', h2'⟩
      · have := (C96_one_number h0 h0').2.2
        omega
      · cases (C96_one_number h0 (C100_convert.2 ⟨_, _, h0'⟩)).1
    · rcases h' with ⟨-, ⟨ig', h0'⟩, h1', h2', h3', h4'⟩ | ⟨syn1, syn1', ig', h0', -, h1', h2'⟩
      · cases (C96_one_number h0' (C100_convert.2 ⟨_, _, h0⟩)).1
      · obtain ⟨rfl, -, e2, e3, e4⟩ := C100_one_number h0 h0'
        exact ⟨e2, e3, e4, (C80_calls.1 h1).2.trans (C80_calls.1 h1').2.symm,
          (C93_calls.1 h2).2.trans (C93_calls.1 h2').2.symm⟩

/-- The work for `0 a ={b b {b b b}}` is one number, and `optimize_rule` is called 16 times in it. -/
example {r : Except RErr Syntax} {w : Work} (h : SyntaxWorks stdLexer c!"0 a ={b b {b b b}}" r w) : w.optimize = 16 :=
  ((C101_boxes stdLexer_lawful stdLexer_exact std_readsZero (k := 2) (by decide)).2.2 r w h).2

end Verif.Props
