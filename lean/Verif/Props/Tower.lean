import Verif.Props.Time
import Verif.Spec.Tower
/-
C107: syntaxes that are not recursive take polynomial time of any degree.
-/
namespace Verif.Props
open Spec

namespace Tower
variable {L : Lexer} {refs : List Rule}

/-- `k` times `a`. -/
abbrev as (k : Nat) : Str := List.replicate k 'a'

/-- `r` reads one `a` and fails at the end, with this many calls, at most so deep. -/
structure Eats (L : Lexer) (refs : List Rule) (n : Nat) (r : Rule) (C : Nat → Nat) (D : Nat) (k : Nat) : Prop where
  ok : ∀ j, j < k → ∀ off s st, ∃ oe, eval L refs n r st s ⟨as (j + 1), off⟩ = .ret (.ok ⟨off, 1⟩ s oe) st
  err : ∀ off s st, ∃ e, eval L refs n r st s ⟨[], off⟩ = .ret (.err e) st
  count : ∀ j, j ≤ k → ∀ off s st, callCount L refs n ⟨r, st, s, ⟨as j, off⟩⟩ = C j
  depth : ∀ j, j ≤ k → ∀ off s st, callDepth L refs n ⟨r, st, s, ⟨as j, off⟩⟩ = D

theorem eat (k off : Nat) : Pos.consume ⟨as (k + 1), off⟩ 1 = ⟨as k, off + 1⟩ := by
  simp [Pos.consume, List.replicate_succ]

section
variable {n : Nat} {r : Rule} {C : Nat → Nat} {D k : Nat} (h : Eats L refs n r C D k)
include h

theorem loop (start) : ∀ (j fuel : Nat) (first off s oe st), j ≤ k → j < fuel →
    ∃ oe', evalRepeat (eval L refs n) r true start fuel first ⟨as j, off⟩ s oe st =
      .ret (.ok (Pos.subtract ⟨[], off + j⟩ start) s oe') st
  | _, 0, _, _, _, _, _, _, hf => by omega
  | 0, fuel + 1, first, off, s, oe, st, _, _ => by
    obtain ⟨e, he⟩ := h.err off s st
    have : as 0 = [] := rfl
    rw [this, evalRepeat, he]
    cases first <;> exact ⟨_, rfl⟩
  | j + 1, fuel + 1, first, off, s, oe, st, hj, hf => by
    obtain ⟨e, he⟩ := h.ok j (by omega) off s st
    obtain ⟨oe', h1⟩ := loop start j fuel false (off + 1) s (errUpdate e oe) st (by omega) (by omega)
    refine ⟨oe', ?_⟩
    rw [evalRepeat, he]
    simp only [eat, h1]
    rw [show off + 1 + j = off + (j + 1) by omega]

theorem loop_calls : ∀ (j fuel : Nat) (off s st), j ≤ k → j < fuel →
    ((repeatCalls (eval L refs n) r fuel ⟨as j, off⟩ s st).map (callCount L refs n)).sum = ((List.range (j + 1)).map C).sum ∧
      ((repeatCalls (eval L refs n) r fuel ⟨as j, off⟩ s st).map (callDepth L refs n)).foldr max 0 = D
  | _, 0, _, _, _, _, hf => by omega
  | 0, fuel + 1, off, s, st, _, _ => by
    obtain ⟨e, he⟩ := h.err off s st
    have hc := h.count 0 (by omega) off s st
    have hd := h.depth 0 (by omega) off s st
    have : as 0 = [] := rfl
    rw [this] at hc hd ⊢
    rw [repeatCalls, he]
    simp [hc, hd]
  | j + 1, fuel + 1, off, s, st, hj, hf => by
    obtain ⟨e, he⟩ := h.ok j (by omega) off s st
    have hc := h.count (j + 1) hj off s st
    have hd := h.depth (j + 1) hj off s st
    obtain ⟨h1, h2⟩ := loop_calls j fuel (off + 1) s st (by omega) (by omega)
    rw [repeatCalls, he]
    simp only [eat, List.map_cons, List.sum_cons, List.foldr_cons, hc, hd, h1, h2]
    rw [List.range_succ (n := j + 1)]
    simp
    omega

end

theorem a_eats (n k : Nat) : Eats L refs (n + 1) (.tag ['a'] false false none 0) (fun _ => 1) 1 k where
  ok j _ off s st := ⟨none, by simp [eval, step, evalTag, Pos.tag, List.replicate_succ, emitOpt, Pos.peek, pushOpt]⟩
  err off s st := ⟨_, by simp [eval, step, evalTag, Pos.tag, Pos.start]; rfl⟩
  count j _ off s st := by simp [callCount, subcalls]
  depth j _ off s st := by simp [callDepth, subcalls]

theorem b_count (n st s p) : callCount L refs (n + 1) ⟨.tag ['b'] false false none 0, st, s, p⟩ = 1 := by simp [callCount, subcalls]

theorem b_depth (n st s p) : callDepth L refs (n + 1) ⟨.tag ['b'] false false none 0, st, s, p⟩ = 1 := by simp [callDepth, subcalls]

/-- What the `d`th does with `k` times `a`. -/
theorem tower_all : ∀ (d k n : Nat), k + 3 * d + 2 ≤ n → ∀ off s st,
    (∃ oe, eval L refs n (tower d) st s ⟨as k, off⟩ = .ret (.ok ⟨off, k⟩ s oe) st) ∧
      callCount L refs n ⟨tower d, st, s, ⟨as k, off⟩⟩ = towerCost d k ∧
      callDepth L refs n ⟨tower d, st, s, ⟨as k, off⟩⟩ = 3 * d + 2
  | 0, k, n, hn, off, s, st => by
    obtain ⟨n, rfl⟩ : ∃ m, n = m + 2 := ⟨n - 2, by omega⟩
    have he := a_eats (L := L) (refs := refs) n k
    obtain ⟨oe, h1⟩ := loop he ⟨as k, off⟩ k (n + 1) true off s none st (Nat.le_refl _) (by omega)
    obtain ⟨h2, h3⟩ := loop_calls he k (n + 1) off s st (Nat.le_refl _) (by omega)
    refine ⟨⟨oe, ?_⟩, ?_, ?_⟩
    · have : eval L refs (n + 2) (tower 0) st s ⟨as k, off⟩ = _ := h1
      rw [this]
      simp [Pos.subtract]
    · rw [callCount]
      simp only [subcalls, tower, h2, towerCost]
      rw [show ∀ j : Nat, ((List.range j).map fun _ => 1).sum = j from fun j => by simp [List.map_const', List.sum_replicate_nat]]
      omega
    · rw [callDepth]
      simp only [subcalls, tower, h3]
  | d + 1, k, n, hn, off, s, st => by
    obtain ⟨n, rfl⟩ : ∃ m, n = m + 4 := ⟨n - 4, by omega⟩
    have ih : ∀ j, j ≤ k → ∀ off s st, _ := fun j hj => tower_all d j (n + 1) (by omega)
    have ha := a_eats (L := L) (refs := refs) (n + 1) k
    have hseq : ∀ j, j ≤ k → ∀ off s st, (∃ e, eval L refs (n + 2) (.sequence [tower d, .tag ['b'] false false none 0] 0) st s
          ⟨as j, off⟩ = .ret (.err e) st) ∧
        callCount L refs (n + 2) ⟨.sequence [tower d, .tag ['b'] false false none 0] 0, st, s, ⟨as j, off⟩⟩ = towerCost d j + 2 ∧
        callDepth L refs (n + 2) ⟨.sequence [tower d, .tag ['b'] false false none 0] 0, st, s, ⟨as j, off⟩⟩ = 3 * d + 3 := by
      intro j hj off s st
      obtain ⟨⟨oe, h1⟩, h2, h3⟩ := ih j hj off s st
      have hp : Pos.consume ⟨as j, off⟩ j = ⟨[], off + j⟩ := by simp [Pos.consume]
      refine ⟨?_, ?_, ?_⟩
      · have h4 : eval L refs (n + 2) (.sequence [tower d, .tag ['b'] false false none 0] 0) st s ⟨as j, off⟩ =
          evalSequence (eval L refs (n + 1)) ⟨as j, off⟩ [tower d, .tag ['b'] false false none 0] ⟨as j, off⟩ s none st := rfl
        rw [h4, evalSequence, h1]
        simp only [hp]
        rw [evalSequence]
        exact ⟨_, by simp [eval, step, evalTag, Pos.tag]; rfl⟩
      · rw [callCount]
        simp only [subcalls, sequenceCalls, h1, hp]
        simp only [List.map_cons, List.sum_cons, h2]
        simp [eval, step, evalTag, Pos.tag, b_count]
        omega
      · rw [callDepth]
        simp only [subcalls, sequenceCalls, h1, hp]
        simp only [List.map_cons, List.foldr_cons, h3]
        simp [eval, step, evalTag, Pos.tag, b_depth]
        omega
    have he : Eats L refs (n + 3) (.select [.sequence [tower d, .tag ['b'] false false none 0] 0, .tag ['a'] false false none 0] 0)
        (fun j => towerCost d j + 4) (3 * d + 4) k := by
      constructor
      · intro j hj off s st
        obtain ⟨⟨e, h1⟩, -⟩ := hseq (j + 1) (by omega) off s st
        obtain ⟨oe, h2⟩ := ha.ok j hj off s st
        have h3 : eval L refs (n + 3) (.select [.sequence [tower d, .tag ['b'] false false none 0] 0, .tag ['a'] false false none 0] 0)
          st s ⟨as (j + 1), off⟩ = evalSelect (eval L refs (n + 2)) 0 s ⟨as (j + 1), off⟩
            [.sequence [tower d, .tag ['b'] false false none 0] 0, .tag ['a'] false false none 0] none st := rfl
        rw [h3, evalSelect, h1]
        simp only
        rw [evalSelect, h2]
        exact ⟨_, rfl⟩
      · intro off s st
        obtain ⟨⟨e, h1⟩, -⟩ := hseq 0 (by omega) off s st
        obtain ⟨e', h2⟩ := ha.err off s st
        have h3 : eval L refs (n + 3) (.select [.sequence [tower d, .tag ['b'] false false none 0] 0, .tag ['a'] false false none 0] 0)
          st s ⟨[], off⟩ = evalSelect (eval L refs (n + 2)) 0 s ⟨[], off⟩
            [.sequence [tower d, .tag ['b'] false false none 0] 0, .tag ['a'] false false none 0] none st := rfl
        have h4 : as 0 = [] := rfl
        rw [h4] at h1
        rw [h3, evalSelect, h1]
        simp only
        rw [evalSelect, h2]
        simp only
        cases errUpdate (some e') (errUpdate (some e) none) <;> exact ⟨_, rfl⟩
      · intro j hj off s st
        obtain ⟨⟨e, h1⟩, h2, -⟩ := hseq j hj off s st
        have h3 := ha.count j hj off s st
        rw [callCount]
        simp only [subcalls, selectCalls, h1, List.map_cons, List.sum_cons, h2, h3]
        split <;> simp <;> omega
      · intro j hj off s st
        obtain ⟨⟨e, h1⟩, -, h2⟩ := hseq j hj off s st
        have h3 := ha.depth j hj off s st
        rw [callDepth]
        simp only [subcalls, selectCalls, h1, List.map_cons, List.foldr_cons, h2, h3]
        split <;> simp <;> omega
    obtain ⟨oe, h1⟩ := loop he ⟨as k, off⟩ k (n + 3) true off s none st (Nat.le_refl _) (by omega)
    obtain ⟨h2, h3⟩ := loop_calls he k (n + 3) off s st (Nat.le_refl _) (by omega)
    refine ⟨⟨oe, ?_⟩, ?_, ?_⟩
    · have : eval L refs (n + 4) (tower (d + 1)) st s ⟨as k, off⟩ = _ := h1
      rw [this]
      simp [Pos.subtract]
    · rw [callCount]
      simp only [subcalls, tower, h2, towerCost]
    · rw [callDepth]
      simp only [subcalls, tower, h3]
      omega

theorem tower_noNode : ∀ (d : Nat), Rule.all (fun r => match r with | .node .. => false | _ => true) (tower d) = true
  | 0 => rfl
  | d + 1 => by simp [tower, Rule.all, Rule.allL, tower_noNode d]

theorem tower_nonRecursive (d : Nat) : NonRecursive (towerSyntax d).rules := by
  refine C87_backward ?_
  intro i q hq name prop ix id ho
  have : q = tower d := by
    cases i with
    | zero => simpa [towerSyntax] using hq.symm
    | succ i => simp [towerSyntax] at hq
  rw [this] at ho
  exact absurd (Rule.all_occurs ho (tower_noNode d)) (by simp)

theorem tag_reads {E : Env} {c : Char} {p i n ts j tr} (h : Run E (.rule (.tag [c] false false none 0)) p i (some (n, ts)) j tr) :
    n ≠ 0 := by
  cases h with
  | tag_ok => simp

theorem pair_reads {E : Env} {r : Rule} {c : Char} {p i ts j tr} :
    ¬ Run E (.seq [r, .tag [c] false false none 0]) p i (some (0, ts)) j tr := by
  intro h
  generalize ho : (some (0, ts) : Outcome) = o at h
  cases h with
  | seq_fail => simp at ho
  | @seq_cons _ _ _ _ _ _ _ _ o' _ _ h1 h2 =>
    cases o' with
    | none => simp [before] at ho
    | some x =>
      obtain ⟨m, us⟩ := x
      simp only [before, Option.some.injEq, Prod.mk.injEq] at ho
      have hm : m = 0 := by omega
      subst hm
      generalize ho' : (some (0, us) : Outcome) = o at h2
      cases h2 with
      | seq_fail => simp at ho'
      | @seq_cons _ _ _ _ _ _ _ _ o' _ _ h1 h2 =>
        have := tag_reads h1
        cases o' with
        | none => simp [before] at ho'
        | some x => simp only [before, Option.some.injEq, Prod.mk.injEq] at ho'; omega

theorem tower_loops (E : Env) : ∀ (d : Nat) {x : Rule}, Occurs x (tower d) → LoopOk E x
  | 0, x, h => by
    cases h with
    | refl =>
      rintro ⟨p, i, ts, j, tr, h⟩
      exact tag_reads h rfl
    | step h hc =>
      cases hc
      cases h with
      | refl => trivial
      | step _ hc => cases hc
  | d + 1, x, h => by
    cases h with
    | refl =>
      rintro ⟨p, i, ts, j, tr, h⟩
      cases h with
      | select h =>
        cases h with
        | sel_here h =>
          cases h with
          | sequence h =>
            exact pair_reads h
        | sel_next _ h =>
          cases h with
          | sel_here h => exact tag_reads h rfl
          | sel_next _ h => cases h
    | step h hc =>
      cases hc
      cases h with
      | refl => trivial
      | step h hc =>
        cases hc with
        | select hm =>
          simp only [List.mem_cons, List.not_mem_nil, or_false] at hm
          rcases hm with rfl | rfl
          · cases h with
            | refl => trivial
            | step h hc =>
              cases hc with
              | sequence hm =>
                simp only [List.mem_cons, List.not_mem_nil, or_false] at hm
                rcases hm with rfl | rfl
                · exact tower_loops E d h
                · cases h with
                  | refl => trivial
                  | step _ hc => cases hc
          · cases h with
            | refl => trivial
            | step _ hc => cases hc

theorem tower_wellFormed (L : Lexer) (ind : Indent) (d : Nat) : WellFormed (envOf L (towerSyntax d).rules ind) := by
  refine C87_wellFormed (tower_nonRecursive d) ?_
  rintro r ⟨q, hq, ho⟩
  simp only [towerSyntax, List.mem_singleton] at hq
  exact tower_loops _ d (hq ▸ ho)

theorem tower_size : ∀ d : Nat, ruleSize (tower d) = 5 * d + 2
  | 0 => rfl
  | d + 1 => by simp only [tower, ruleSize, rulesSize, tower_size d]; omega

/-! ### How fast the costs grow -/

theorem pow_step (k : Nat) : ∀ e, (k + 1) ^ (e + 1) ≤ k ^ (e + 1) + (e + 1) * (k + 1) ^ e
  | 0 => by simp
  | e + 1 => by
    have ih := Nat.mul_le_mul_left (k + 1) (pow_step k e)
    have h1 : (k + 1) * (k + 1) ^ (e + 1) = (k + 1) ^ (e + 2) := by rw [Nat.pow_succ (n := k + 1) (m := e + 1), Nat.mul_comm]
    have h2 : (k + 1) * (k ^ (e + 1) + (e + 1) * (k + 1) ^ e) = k ^ (e + 2) + k ^ (e + 1) + (e + 1) * (k + 1) ^ (e + 1) := by
      rw [Nat.mul_add, Nat.add_mul, Nat.one_mul, Nat.pow_succ (n := k) (m := e + 1), Nat.mul_comm k]
      congr 1
      rw [Nat.pow_succ (n := k + 1) (m := e)]
      ac_rfl
    rw [show e + 1 + 1 = e + 2 from rfl]
    rw [h1, h2] at ih
    have h3 : k ^ (e + 1) ≤ (k + 1) ^ (e + 1) := Nat.pow_le_pow_left (Nat.le_succ k) _
    have h4 : (e + 2) * (k + 1) ^ (e + 1) = (e + 1) * (k + 1) ^ (e + 1) + (k + 1) ^ (e + 1) := by
      rw [show e + 2 = e + 1 + 1 from rfl, Nat.add_mul (e + 1) 1, Nat.one_mul]
    omega

theorem pow_sum (e : Nat) : ∀ k, (k + 1) ^ (e + 1) ≤ (e + 1) * ((List.range (k + 1)).map fun j => (j + 1) ^ e).sum
  | 0 => by simp
  | k + 1 => by
    have ih := pow_sum e k
    have h1 := pow_step (k + 1) e
    rw [List.range_succ, List.map_append, List.sum_append, Nat.mul_add]
    simp only [List.map_cons, List.map_nil, List.sum_cons, List.sum_nil, Nat.add_zero]
    omega

theorem sum_le {f g : Nat → Nat} : ∀ l : List Nat, (∀ j ∈ l, f j ≤ g j) → (l.map f).sum ≤ (l.map g).sum
  | [], _ => by simp
  | a :: l, h => by
    have := sum_le l fun j hj => h j (by simp [hj])
    have := h a (by simp)
    simp only [List.map_cons, List.sum_cons]
    omega

theorem sum_mul (c : Nat) (f : Nat → Nat) : ∀ l : List Nat, (l.map fun j => c * f j).sum = c * (l.map f).sum
  | [] => by simp
  | a :: l => by simp [sum_mul c f l, Nat.mul_add]

def fact : Nat → Nat
  | 0 => 1
  | n + 1 => (n + 1) * fact n

theorem cost_grows : ∀ d k : Nat, (k + 1) ^ (d + 1) ≤ fact (d + 1) * towerCost d k
  | 0, k => by simp [towerCost, fact]
  | d + 1, k => by
    have h1 := pow_sum (d + 1) k
    have h2 := sum_le (f := fun j => (j + 1) ^ (d + 1)) (g := fun j => fact (d + 1) * (towerCost d j + 4)) (List.range (k + 1))
      fun j _ => Nat.le_trans (cost_grows d j) (Nat.mul_le_mul_left _ (by omega))
    rw [sum_mul] at h2
    refine Nat.le_trans h1 (Nat.le_trans (Nat.mul_le_mul_left _ h2) ?_)
    rw [← Nat.mul_assoc, fact]
    refine Nat.mul_le_mul_left _ ?_
    rw [towerCost]
    omega

end Tower

variable {L : Lexer}

/-- C107: the `d`th of these syntaxes is well-formed, not recursive and has `5 * d + 2` rules in it; it accepts `k` times `a`, with
`towerCost d k` calls, at most `3 * d + 2` of them open at the same time. -/
theorem C107_cost (d k : Nat) (toks : List Tok) (ind : Indent) :
    WellFormed (envOf L (towerSyntax d).rules ind) ∧ NonRecursive (towerSyntax d).rules ∧
    rulesSize (towerSyntax d).rules = 5 * d + 2 ∧ Parses L (towerSyntax d) (List.replicate k 'a') toks ind (.ok toks) ∧
    Costs L (towerSyntax d) (List.replicate k 'a') toks ind (towerCost d k) (3 * d + 2) := by
  obtain ⟨⟨oe, h1⟩, h2, h3⟩ := Tower.tower_all (L := L) (refs := (towerSyntax d).rules) d k (k + 3 * d + 2) (Nat.le_refl _) 0
    toks.length ⟨toks, ind⟩
  refine ⟨Tower.tower_wellFormed L ind d, Tower.tower_nonRecursive d, by simp [towerSyntax, rulesSize, Tower.tower_size], ⟨by simp, k + 3 * d + 2, ?_⟩,
    k + 3 * d + 2, _, rfl, ?_, h2, h3⟩
  · unfold parseWithIndent
    have : (towerSyntax d).rules.getLast? = some (tower d) := rfl
    simp only [this, Pos.new, h1]
    simp [Range.next]
  · change eval L (towerSyntax d).rules _ (tower d) ⟨toks, ind⟩ toks.length ⟨Tower.as k, 0⟩ ≠ _
    rw [h1]
    simp

/-- C107: that is at least a polynomial of degree `d + 1` in the length of the text. -/
theorem C107_degree (d k : Nat) : (k + 1) ^ (d + 1) ≤ Tower.fact (d + 1) * towerCost d k := Tower.cost_grows d k

/-- C107: so no polynomial of a fixed degree bounds the costs of the syntaxes that are not recursive, not even with a
factor that depends on the syntax. -/
theorem C107_no_degree (ind : Indent) : ¬ ∃ e, ∀ syn : Syntax, NonRecursive syn.rules → WellFormed (envOf L syn.rules ind) →
    ∃ b, ∀ text m d, Costs L syn text [] ind m d → m ≤ b * (text.length + 1) ^ e := by
  rintro ⟨e, h⟩
  obtain ⟨b, hb⟩ := h (towerSyntax e) (Tower.tower_nonRecursive e) (Tower.tower_wellFormed L ind e)
  have h1 := hb _ _ _ (C107_cost e (Tower.fact (e + 1) * b) [] ind).2.2.2.2
  rw [List.length_replicate] at h1
  have h2 := C107_degree e (Tower.fact (e + 1) * b)
  have h3 := Nat.mul_le_mul_left (Tower.fact (e + 1)) h1
  rw [← Nat.mul_assoc] at h3
  rw [Nat.pow_succ, Nat.mul_comm] at h2
  have h4 : 0 < (Tower.fact (e + 1) * b + 1) ^ e := Nat.pow_pos (by omega)
  have h5 := Nat.le_of_mul_le_mul_right (Nat.le_trans h2 h3) h4
  omega

/-- Three levels, five times `a`: 192 calls, 8 deep. -/
example : Costs stdLexer (towerSyntax 2) (List.replicate 5 'a') [] Indent.default 192 8 := (C107_cost 2 5 [] Indent.default).2.2.2.2

end Verif.Props
