import Verif.Proofs.FateCycle
import Verif.Spec.Cost
/-
A parser that is cut off has followed a long chain of tries.
-/
namespace Verif
open Spec

/-- There is a chain of `n` tries from the site. -/
inductive Chain (E : Env) : Nat → Site → Prop
  | zero {x} : Chain E 0 x
  | succ {n x y} (h : Tries E x y) (h' : Chain E n y) : Chain E (n + 1) x

theorem Chain.le {E : Env} {n : Nat} {x : Site} (h : Chain E n x) : ∀ {m}, m ≤ n → Chain E m x := by
  induction h with
  | zero => intro m hm; obtain rfl : m = 0 := by omega
            exact .zero
  | succ h _ ih =>
    intro m hm
    cases m with
    | zero => exact .zero
    | succ m => exact .succ h (ih (by omega))

/-- If the run `out` is cut off, there is a chain of `n` tries. -/
def Late (E : Env) (n : Nat) (g : Goal) (p : Pos) (i : Nat) (out : Out) : Prop :=
  out = .timeout → Chain E n ⟨g, p, i⟩

def EvLate (E : Env) (n : Nat) (ev : Ev) : Prop :=
  ∀ r i toks s p, s ≤ toks.length → Late E n (.rule r) p i (ev r ⟨toks, E.ind i⟩ s p)

section
variable {E : Env} {ev : Ev} {n : Nat} (hev : EvSound E ev) (hbl : EvLate E n ev)

theorem Late.step {k : Nat} {g g' : Goal} {p p' : Pos} {i i' : Nat} {out : Out} (h : Late E k g' p' i' out)
    (ht : Tries E ⟨g, p, i⟩ ⟨g', p', i'⟩) : Late E (k + 1) g p i out := fun ho => .succ ht (h ho)

theorem late_done {k : Nat} {g : Goal} {p : Pos} {i : Nat} {out : Out} (h : out.Done) : Late E k g p i out := by
  obtain ⟨_, _, rfl⟩ := h
  nofun

include hev hbl

theorem select_late (id p) : ∀ rs i toks s oe, s ≤ toks.length →
    Late E (n + 1) (.sel rs) p i (evalSelect ev id s p rs oe ⟨toks, E.ind i⟩)
  | [], i, toks, s, none, _ => nofun
  | [], i, toks, s, some e, hs => nofun
  | r :: rs, i, toks, s, oe, hs => by
    simp only [evalSelect]
    split
    · nofun
    · rename_i e st' heq
      obtain ⟨j, tr, h1, h2, h4⟩ := sound_err hev hs heq
      rw [h4]
      exact fun h => ((select_late id p rs j st'.toks s _ h2).step (.sel_next h1) h).le (by omega)
    · rename_i heq
      exact fun _ => .succ .sel (hbl _ _ _ _ _ hs heq)
    · nofun

theorem fastSelect_late (tb args tail id i toks s p) (hs : s ≤ toks.length) :
    Late E (n + 1) (.rule (.fastSelect tb args tail id)) p i
      (evalFastSelect ev tb args tail id ⟨toks, E.ind i⟩ s p) := by
  unfold evalFastSelect
  split
  · nofun
  · rename_i c cs hsrc
    obtain ⟨b, bs, hb⟩ := utf8_ne_nil c
    simp only [firstByte_eq hb]
    cases tail with
    | false =>
      simp only [Bool.false_eq_true, if_false]
      split
      · rename_i ht
        split
        · nofun
        · rename_i r hr
          split
          · nofun
          · nofun
          · rename_i heq
            exact fun _ => .succ (.fast_hit hsrc hb ht hr) (hbl _ _ _ _ _ hs heq)
          · nofun
      · nofun
    | true =>
      simp only [if_true]
      split
      · rename_i ht
        split
        · nofun
        · rename_i r hr
          split
          · nofun
          · rename_i e st' heq
            obtain ⟨j, tr, h1, h2, h4⟩ := sound_err hev hs heq
            rw [h4]
            split
            · nofun
            · rename_i r' hr'
              split
              · nofun
              · nofun
              · rename_i heq
                exact fun _ => .succ (.fast_next hsrc hb ht hr h1 hr') (hbl _ _ _ _ _ h2 heq)
              · nofun
          · rename_i heq
            exact fun _ => .succ (.fast_hit hsrc hb ht hr) (hbl _ _ _ _ _ hs heq)
          · nofun
      · rename_i ht
        have ht' : tb b = 255 := by simpa using ht
        split
        · nofun
        · rename_i r hr
          split
          · nofun
          · nofun
          · rename_i heq
            exact fun _ => .succ (.fast_miss hsrc hb ht' hr) (hbl _ _ _ _ _ hs heq)
          · nofun

theorem sequence_late (start : Pos) : ∀ rs p i toks s oe, s ≤ toks.length →
    Late E (n + 1) (.seq rs) p i (evalSequence ev start rs p s oe ⟨toks, E.ind i⟩)
  | [], p, i, toks, s, oe, hs => nofun
  | r :: rs, p, i, toks, s, oe, hs => by
    simp only [evalSequence]
    split
    · rename_i range s' err st' heq
      obtain ⟨k, ts, j, tr, h1, hlen, h3, h5⟩ := sound_ok hev hs heq
      rw [h5, hlen]
      exact fun h => ((sequence_late start rs (adv p k) j st'.toks s' _ h3).step (.seq_next h1) h).le (by omega)
    · nofun
    · rename_i heq
      exact fun _ => .succ .seq (hbl _ _ _ _ _ hs heq)
    · nofun

theorem rep_late (r opt) (start : Pos) : ∀ fuel first p i toks s oe, s ≤ toks.length →
    Late E (min fuel (n + 1)) (.rep r) p i (evalRepeat ev r opt start fuel first p s oe ⟨toks, E.ind i⟩)
  | 0, _, _, _, _, _, _, _ => fun _ => by rw [Nat.zero_min]; exact .zero
  | fuel + 1, first, p, i, toks, s, oe, hs => by
    simp only [evalRepeat]
    split
    · rename_i range s' err st' heq
      obtain ⟨k, ts, j, tr, h1, hlen, h3, h5⟩ := sound_ok hev hs heq
      rw [h5, hlen]
      exact fun h => ((rep_late r opt start fuel false (adv p k) j st'.toks s' _ h3).step (.rep_next h1) h).le
        (by omega)
    · split <;> nofun
    · rename_i heq
      exact fun _ => (Chain.succ .rep (hbl _ _ _ _ _ hs heq)).le (by omega)
    · nofun

theorem sepTail_late (r b opt trail) (start : Pos) : ∀ fuel p i toks s oe, s ≤ toks.length →
    Late E (min (fuel + 1) (n + 1)) (.sepTail r b trail) p i
      (match ev b ⟨toks, E.ind i⟩ s p with
      | .ret (.err e) st2 => .ret (.ok (p.subtract start) s (errUpdate (some e) oe)) st2
      | .ret (.ok range2 s2 err2) st2 =>
        evalSeparateBy ev r b opt trail start fuel false
          (p.consume range2.length) s2 (errUpdate err2 oe) st2
      | .timeout => .timeout
      | .panic => .panic)
  | fuel, p, i, toks, s, oe, hs => by
    split
    · nofun
    · rename_i range s' err st' heq
      obtain ⟨m, us, j, tr, h1, hlen, h3, h5⟩ := sound_ok hev hs heq
      rw [h5, hlen, consume_eq]
      cases fuel with
      | zero => exact fun _ => (Chain.succ (.tail_item h1) .zero).le (by omega)
      | succ fuel =>
        simp only [evalSeparateBy]
        split
        · split <;> nofun
        · rename_i range2 s2 err2 st2 heq
          obtain ⟨k, ts, l, tr', g1, hlen2, g3, g5⟩ := sound_ok hev h3 heq
          have ih := sepTail_late r b opt trail start fuel (adv p (m + k)) l st2.toks s2
            (errUpdate err2 (errUpdate err oe)) g3
          rw [← g5] at ih
          rw [hlen2, consume_eq, adv_adv]
          exact fun h => (ih.step (.tail_next h1 g1) h).le (by omega)
        · rename_i heq
          exact fun _ => (Chain.succ (.tail_item h1) (hbl _ _ _ _ _ h3 heq)).le (by omega)
        · nofun
    · rename_i heq
      exact fun _ => (Chain.succ .tail (hbl _ _ _ _ _ hs heq)).le (by omega)
    · nofun

theorem separateBy_late (r b opt trail id fuel i toks s p) (hs : s ≤ toks.length) :
    Late E (min (fuel + 1) (n + 1)) (.rule (.separateBy r b opt trail id)) p i
      (evalSeparateBy ev r b opt trail p fuel true p s none ⟨toks, E.ind i⟩) := by
  cases fuel with
  | zero => exact fun _ => (Chain.succ .sep .zero).le (by omega)
  | succ fuel =>
    simp only [evalSeparateBy]
    split
    · split <;> nofun
    · rename_i range s' err st' heq
      obtain ⟨k, ts, j, tr, h1, hlen, h3, h5⟩ := sound_ok hev hs heq
      have ih := sepTail_late hev hbl r b opt trail p fuel (adv p k) j st'.toks s' (errUpdate err none) h3
      rw [← h5] at ih
      rw [hlen, consume_eq]
      exact fun h => (ih.step (.sep_next h1) h).le (by omega)
    · rename_i heq
      exact fun _ => (Chain.succ .sep (hbl _ _ _ _ _ hs heq)).le (by omega)
    · nofun

omit hev in
theorem node_late (name prop index id i toks s p) (hs : s ≤ toks.length) :
    Late E (n + 1) (.rule (.node name prop index id)) p i
      (evalNode ev E.refs prop index id ⟨toks, E.ind i⟩ s p) := by
  unfold evalNode
  cases index with
  | none => nofun
  | some ix =>
    simp only
    cases hr : E.refs[ix]? with
    | none => nofun
    | some r =>
      simp only
      cases prop with
      | none =>
        simp only [pushOpt]
        split
        · nofun
        · nofun
        · rename_i heq
          exact fun _ => .succ (.node hr) (hbl _ _ _ _ _ hs heq)
        · nofun
      | some x =>
        rw [pushOpt_some _ _ _ _ _ hs]
        simp only
        have hs1 : s + 1 ≤ (toks.take s ++ [(⟨p.start, .startNode x⟩ : Tok)]).length := by
          simp; omega
        split
        · nofun
        · nofun
        · rename_i heq
          exact fun _ => .succ (.node hr) (hbl _ _ _ _ _ hs1 heq)
        · nofun

omit hev in
theorem optional_late (r id i toks s p) (hs : s ≤ toks.length) :
    Late E (n + 1) (.rule (.optional r id)) p i (evalOptional ev r ⟨toks, E.ind i⟩ s p) := by
  unfold evalOptional
  split
  · nofun
  · nofun
  · rename_i heq
    exact fun _ => .succ .optional (hbl _ _ _ _ _ hs heq)
  · nofun

omit hev in
theorem not_late (r id i toks s p) (hs : s ≤ toks.length) :
    Late E (n + 1) (.rule (.not r id)) p i (evalNot ev r id ⟨toks, E.ind i⟩ s p) := by
  unfold evalNot
  split
  · nofun
  · nofun
  · rename_i heq
    exact fun _ => .succ .not (hbl _ _ _ _ _ hs heq)
  · nofun

omit hev in
theorem lineClosure_late (r first fl p i toks s oe) (hs : s ≤ toks.length)
    (h : lineClosure ev r ⟨s, oe, fl, ⟨toks, E.ind i⟩⟩ p = .timeout) :
    Chain E (n + 1) ⟨.line r false first, p, i⟩ := by
  unfold lineClosure at h
  split at h
  · cases h
  · cases h
  · rename_i heq
    exact .succ .line_plain (hbl _ _ _ _ _ hs heq)
  · cases h

omit hev in
theorem lineItem_late (r) (p0 p : Pos) (i toks s oe fl) (hs : s ≤ toks.length)
    (h : lineItem ev r ⟨s, oe, fl, ⟨toks, E.ind i⟩⟩ p0 p = .timeout) :
    i + 1 < 2 ^ 32 ∧ Chain E n ⟨.rule r, p, i + 1⟩ := by
  unfold lineItem at h
  simp only at h
  split at h
  · cases h
  · rename_i hi
    simp only [Env.ind] at hi
    have hind : ({ E.ind i with indent := (E.ind i).indent + 1 } : Indent) = E.ind (i + 1) := rfl
    rw [hind] at h
    split at h
    · cases h
    · cases h
    · rename_i heq
      exact ⟨by omega, hbl _ _ _ _ _ hs heq⟩
    · cases h

omit hev in
theorem lineClosureIndent_late (r first fl p i toks s oe) (hs : s ≤ toks.length)
    (hfl : E.align = true → fl = first)
    (h : lineClosureIndent ev r ⟨s, oe, fl, ⟨toks, E.ind i⟩⟩ p = .timeout) :
    Chain E (n + 1) ⟨.line r true first, p, i⟩ := by
  unfold lineClosureIndent at h
  split at h
  · cases h
  · rename_i k he
    have hc : Carries E.tab i p.src k := eatIndent_some _ _ _ _ he
    simp only at h
    split at h
    · rename_i hcond
      have ha : E.align = true := hcond.2
      have hf : first = true := by rw [← hfl ha]; exact hcond.1
      subst hf
      obtain ⟨hm, hw⟩ := eatAlign_spec E.tab (p.src.drop k)
      have e1 : (E.ind i).tabSpaces = E.tab := rfl
      simp only [e1, consume_eq, adv_adv] at h
      split at h
      · cases h
      · have := lineItem_late hbl r p (adv p (k + (eatAlign E.tab (p.src.drop k)).1))
          (i + (eatAlign E.tab (p.src.drop k)).2) toks s oe false hs h
        rw [hw] at this
        exact .succ (.line_align ha hc hm this.1) this.2
    · rename_i hcond
      have ha : ¬ (first = true ∧ E.align = true) := by
        rintro ⟨h1, h2⟩
        exact hcond ⟨by rw [hfl h2]; exact h1, h2⟩
      split at h
      · cases h
      · rename_i ht
        have hd : (p.src.drop k).head? ≠ some ' ' := by
          intro h
          apply tag_none ht
          have : (p.consume k).src = p.src.drop k := rfl
          rw [this]
          cases hq : p.src.drop k with
          | nil => rw [hq] at h; simp at h
          | cons c cs => rw [hq] at h; simp at h; subst h; exact ⟨cs, rfl⟩
        have := lineItem_late hbl r p (p.consume k) i toks s oe fl hs h
        exact .succ (.line_body ha hc hd this.1) this.2

theorem lines_late (r indent id) (start : Pos) : ∀ fuel first item p i toks s oe fl,
    s ≤ toks.length → (indent = true → E.align = true → fl = first) →
    Late E (min fuel (n + 1)) (.lines r indent id first item) p i
      (evalLines E.L (if indent then lineClosureIndent ev r else lineClosure ev r) id start
        fuel first item p ⟨s, oe, fl, ⟨toks, E.ind i⟩⟩)
  | 0, _, _, _, _, _, _, _, _, _, _ => fun _ => by rw [Nat.zero_min]; exact .zero
  | fuel + 1, first, item, p, i, toks, s, oe, fl, hs, hfl => by
    simp only [evalLines]
    split
    · nofun
    · nofun
    · rename_i k h
      rw [consume_eq]
      have hg : GoodLine E r indent first (adv p k) i toks s oe
          ((if indent then lineClosureIndent ev r else lineClosure ev r)
            ⟨s, oe, fl, ⟨toks, E.ind i⟩⟩ (adv p k)) := by
        cases indent with
        | true => exact lineClosureIndent_good hev r first fl _ i toks s oe hs (hfl rfl)
        | false => exact lineClosure_good hev r first fl _ i toks s oe hs
      split
      · nofun
      · rename_i range x' heq
        rw [heq] at hg
        obtain ⟨m, ts, j, tr, h1, h2, h3, h4, h5, h6, h7⟩ := hg
        rw [h2, consume_eq, adv_adv]
        have hx : x' = ⟨x'.s, errUpdate (best tr) oe, x'.first, ⟨x'.st.toks, E.ind j⟩⟩ := by
          cases x'; simp at *; simp [← h6, ← h5]
        rw [hx]
        exact fun ho => ((lines_late r indent id start fuel false _ (adv p (k + m)) j x'.st.toks x'.s _
          x'.first h3 h7).step (.lines_next h h1) ho).le (by omega)
      · rename_i heq
        refine fun _ => (Chain.succ (n := n + 1) (.lines_line h) ?_).le (by omega)
        cases indent with
        | true => exact lineClosureIndent_late hbl r first fl _ i toks s oe hs (hfl rfl) heq
        | false => exact lineClosure_late hbl r first fl _ i toks s oe hs heq
      · nofun

theorem step_late : EvLate E (n + 1) (step E.L E.refs ev n) := by
  intro r i toks s p hs
  cases r with
  | whitespace => exact late_done (done_whitespace _ _ _ _ _)
  | tag => exact late_done (done_tag _ _ _ _ _ _ _ _)
  | untilAny => exact late_done (done_untilAny _ _ _ _ _ _ _)
  | untilAnyOrWs => exact late_done (done_untilAnyOrWs _ _ _ _ _ _ _)
  | text => exact late_done (done_text _ _ _ _ _ _ _)
  | number => exact late_done (done_number _ _ _ _ _ _ _)
  | select args id =>
    exact fun h => ((select_late hev hbl id p args i toks s none hs).step .select h).le (by omega)
  | fastSelect => exact fastSelect_late hev hbl _ _ _ _ _ _ _ _ hs
  | sequence args id =>
    exact fun h => ((sequence_late hev hbl p args p i toks s none hs).step .sequence h).le (by omega)
  | separateBy =>
    exact fun h => (separateBy_late hev hbl _ _ _ _ _ _ _ _ _ _ hs h).le (by omega)
  | repeat_ r opt id =>
    exact fun h => ((rep_late hev hbl r opt p n true p i toks s none hs).step .repeat_ h).le (by omega)
  | lines r indent id =>
    exact fun h => ((lines_late hev hbl r indent id p n true [] p i toks s none true hs (fun _ _ => rfl)).step
      .lines h).le (by omega)
  | node => exact node_late hbl _ _ _ _ _ _ _ _ hs
  | optional => exact optional_late hbl _ _ _ _ _ _ hs
  | not => exact not_late hbl _ _ _ _ _ _ hs

end

/-- A parser cut off at depth `n` has followed a chain of `n` tries. -/
theorem eval_late (E : Env) : ∀ n, EvLate E n (eval E.L E.refs n)
  | 0 => fun _ _ _ _ _ _ _ => .zero
  | n + 1 => step_late (eval_sound E n) (eval_late E n)

theorem ht_chain {E : Env} : ∀ {n : Nat} {x : Site}, Ht (fun y x => Tries E x y) n x → ¬ Chain E (n + 1) x
  | 0, _, h, .succ h' _ => h _ h'
  | _ + 1, _, h, .succ h' h'' => ht_chain (h _ h') h''

/-- A chain of as many tries as there are sites comes back. -/
theorem chain_cycle {E : Env} {x : Site} {l : List Site} (hl : ∀ y, Reaches E x y → y ∈ l) {n : Nat}
    (hn : l.length ≤ n) (h : Chain E n x) : ∃ y z, Reaches E x y ∧ Tries E y z ∧ Reaches E z y := by
  refine Classical.byContradiction fun hc => ht_chain (ht_sites hl hc) (h.le ?_)
  have := List.length_pos_of_mem (hl x .here)
  omega

/-! ### The number of sites -/

theorem sum_const {α : Type} (k : Nat) : ∀ l : List α, (l.map fun _ => k).sum = l.length * k
  | [] => by simp
  | _ :: l => by simp [sum_const k l, Nat.add_mul, Nat.add_comm]

theorem pieces_length (text : Str) : (pieces text).length = (text.length + 1) * (text.length + 1) := by
  unfold pieces
  rw [List.length_flatMap]
  simp [sum_const]

theorem sitesOf_length (gs : List Goal) (text : Str) (is : List Nat) :
    (sitesOf gs text is).length = gs.length * ((text.length + 1) * is.length) := by
  unfold sitesOf
  simp [List.length_flatMap, sum_const]

section
variable (items : List Str)

mutual
theorem goals_parts : ∀ r : Rule, ((r.parts).flatMap (goalsOf items)).length + 1 ≤ (2 * items.length + 3) * ruleSize r
  | .select args _ => by
    have := goals_partsL args
    simp [Rule.parts, ruleSize, goalsOf, Nat.mul_add] at this ⊢
    omega
  | .fastSelect _ args _ _ => by
    have := goals_partsL args
    simp [Rule.parts, ruleSize, goalsOf, Nat.mul_add] at this ⊢
    omega
  | .sequence args _ => by
    have := goals_partsL args
    simp [Rule.parts, ruleSize, goalsOf, Nat.mul_add] at this ⊢
    omega
  | .separateBy r b _ _ _ => by
    have := goals_parts r
    have := goals_parts b
    simp [Rule.parts, ruleSize, goalsOf, Nat.mul_add] at *
    omega
  | .repeat_ r _ _ => by
    have := goals_parts r
    simp [Rule.parts, ruleSize, goalsOf, Nat.mul_add] at *
    omega
  | .lines r _ _ => by
    have := goals_parts r
    simp [Rule.parts, ruleSize, goalsOf, Nat.mul_add] at *
    omega
  | .optional r _ => by
    have := goals_parts r
    simp [Rule.parts, ruleSize, goalsOf, Nat.mul_add] at *
    omega
  | .not r _ => by
    have := goals_parts r
    simp [Rule.parts, ruleSize, goalsOf, Nat.mul_add] at *
    omega
  | .whitespace .. | .tag .. | .untilAny .. | .untilAnyOrWs .. | .text .. | .number .. | .node .. => by
    simp [Rule.parts, ruleSize, goalsOf]
theorem goals_partsL : ∀ rs : List Rule,
    ((Rule.partsL rs).flatMap (goalsOf items)).length + rs.length ≤ (2 * items.length + 3) * rulesSize rs
  | [] => by simp [Rule.partsL]
  | r :: rs => by
    have := goals_parts r
    have := goals_partsL rs
    simp [Rule.partsL, rulesSize, Nat.mul_add] at *
    omega
end
end

theorem goalsIn_length (refs : List Rule) (text : Str) :
    (goalsIn refs text).length ≤ (2 * (text.length + 1) ^ 2 + 3) * rulesSize refs := by
  have := goals_partsL (pieces text) refs
  rw [pieces_length] at this
  rw [Nat.pow_two]
  exact Nat.le_trans (Nat.le_add_right _ _) this

/-- If the parser is cut off at a depth of as many levels as there are sites, it runs for ever. -/
theorem late_endless {E : Env} (hL : E.L.Lawful) {r : Rule} (hr : Part E.refs r) {text : Str} {i n : Nat}
    {toks : List Tok} {s : Nat} (hs : s ≤ toks.length)
    (hn : (2 * (text.length + 1) ^ 2 + 3) * rulesSize E.refs * ((text.length + 1) * (max i (2 ^ 32) + 1)) ≤ n)
    (h : eval E.L E.refs n r ⟨toks, E.ind i⟩ s ⟨text, 0⟩ = .timeout) : Endless E ⟨.rule r, ⟨text, 0⟩, i⟩ := by
  rw [endless_iff_cycle hL hr]
  refine chain_cycle (l := sitesOf (goalsIn E.refs text) text (List.range (max i (2 ^ 32) + 1))) ?_ ?_
    (eval_late E n r i toks s _ hs h)
  · intro y hy
    have := triable_reaches hL (by omega) hy (triable_start hr text i)
    exact triable_mem this (by have := this.ind; simp only [List.mem_range]; omega)
  · refine Nat.le_trans ?_ hn
    rw [sitesOf_length, List.length_range]
    exact Nat.mul_le_mul_right _ (goalsIn_length _ _)

theorem late_endless_plain {E : Env} (hL : E.L.Lawful) (hi : NoIndent E.refs) {r : Rule} (hr : Part E.refs r)
    {text : Str} {i n : Nat} {toks : List Tok} {s : Nat} (hs : s ≤ toks.length)
    (hn : (2 * (text.length + 1) ^ 2 + 3) * rulesSize E.refs * (text.length + 1) ≤ n)
    (h : eval E.L E.refs n r ⟨toks, E.ind i⟩ s ⟨text, 0⟩ = .timeout) : Endless E ⟨.rule r, ⟨text, 0⟩, i⟩ := by
  rw [endless_iff_cycle hL hr]
  refine chain_cycle (l := sitesOf (goalsIn E.refs text) text [i]) ?_ ?_ (eval_late E n r i toks s _ hs h)
  · intro y hy
    have := triable_reaches hL (by omega) hy (triable_start hr text i)
    exact triable_mem this (by rw [reaches_plain hi hy hr]; simp)
  · refine Nat.le_trans ?_ hn
    rw [sitesOf_length, List.length_singleton, Nat.mul_one]
    exact Nat.mul_le_mul_right _ (goalsIn_length _ _)

end Verif
