import Verif.Proofs.CallCount
import Verif.Props.Cost
import Verif.Props.KeyValue
/-
C87: parsing takes at most exponential time, polynomial time without recursion.
-/
namespace Verif.Props
open Spec

/-! ### The size of a rule and its parts -/

theorem ruleSize_mem {r : Rule} : ∀ {rs : List Rule}, r ∈ rs → ruleSize r ≤ rulesSize rs
  | [], h => by simp at h
  | a :: rs, h => by
    simp only [rulesSize]
    rcases List.mem_cons.1 h with rfl | h
    · omega
    · have := ruleSize_mem h; omega

theorem ruleSize_child {c r : Rule} (h : Child c r) : ruleSize c < ruleSize r := by
  cases h with
  | select h => have := ruleSize_mem h; simp only [ruleSize]; omega
  | fast h => have := ruleSize_mem h; simp only [ruleSize]; omega
  | sequence h => have := ruleSize_mem h; simp only [ruleSize]; omega
  | item => simp only [ruleSize]; omega
  | sep => simp only [ruleSize]; omega
  | repeat_ => simp only [ruleSize]; omega
  | lines => simp only [ruleSize]; omega
  | optional => simp only [ruleSize]; omega
  | not => simp only [ruleSize]; omega

theorem ruleSize_occurs {x r : Rule} (h : Occurs x r) : ruleSize x ≤ ruleSize r := by
  induction h with
  | refl => exact Nat.le_refl _
  | step _ h ih => exact Nat.le_trans ih (Nat.le_of_lt (ruleSize_child h))

theorem ruleSize_pos : ∀ r : Rule, 1 ≤ ruleSize r := by
  intro r
  cases r <;> simp only [ruleSize] <;> omega

theorem length_rulesSize : ∀ rs : List Rule, rs.length ≤ rulesSize rs
  | [] => Nat.le_refl _
  | r :: rs => by
    have h1 := ruleSize_pos r
    have h2 := length_rulesSize rs
    simp only [List.length_cons, rulesSize]
    omega

theorem width_le {refs : List Rule} {r : Rule} (h : Part refs r) : width r ≤ rulesSize refs + 1 := by
  obtain ⟨q, hq, ho⟩ := h
  have h1 := ruleSize_mem hq
  have h2 := ruleSize_occurs ho
  have h3 := ruleSize_pos r
  cases r <;> simp only [width] <;> try omega
  · rename_i args id
    have h4 := length_rulesSize args
    simp only [ruleSize] at h2
    omega
  · rename_i args id
    have h4 := length_rulesSize args
    simp only [ruleSize] at h2
    omega

/-! ### C87: at most exponential -/

/-- C87: with a well-formed syntax of `M` rules (inner ones included), a text of `n` characters takes at most
`(3 * M + 5) ^ ((M + 1) * (n + 1))` calls: a constant to the power of the length. -/
theorem C87_exponential {L : Lexer} (hL : L.Lawful) {syn : Syntax} {ind : Indent}
    (hw : WellFormed (envOf L syn.rules ind)) {text : Str} {toks : List Tok} {m d : Nat}
    (h : Costs L syn text toks ind m d) :
    m ≤ (3 * rulesSize syn.rules + 5) ^ ((rulesSize syn.rules + 1) * (text.length + 1)) := by
  obtain ⟨n, c, hc, -, rfl, -⟩ := h
  simp only [firstCall, Option.map_eq_some_iff] at hc
  obtain ⟨r, hr, rfl⟩ := hc
  have hp : Part (envOf L syn.rules ind).refs r := ⟨r, List.mem_of_getLast? hr, .refl⟩
  have hM : (Rule.partsL (envOf L syn.rules ind).refs).length = rulesSize syn.rules := partsL_length _
  have hH : ∀ r, Part (envOf L syn.rules ind).refs r → Ht (Calls (envOf L syn.rules ind)) (rulesSize syn.rules) r :=
    fun r hr => hM ▸ wellFormed_ht hw hr
  have h : callCount L syn.rules n ⟨r, ⟨toks, ind⟩, toks.length, Pos.new text 0⟩ ≤
      (3 * (rulesSize syn.rules + 1) + 2) ^ ((rulesSize syn.rules + 1) * text.length + rulesSize syn.rules + 1) :=
    callCount_le (E := envOf L syn.rules ind) hL hH (fun r hr => width_le hr) hw.loops n _
      ⟨r, ⟨toks, ind⟩, toks.length, Pos.new text 0⟩ ⟨⟨ind.indent, rfl⟩, Nat.le_refl _⟩ hp (hH r hp)
  have h1 : 3 * (rulesSize syn.rules + 1) + 2 = 3 * rulesSize syn.rules + 5 := by omega
  have h2 : (rulesSize syn.rules + 1) * (text.length + 1) =
      (rulesSize syn.rules + 1) * text.length + rulesSize syn.rules + 1 := by rw [Nat.mul_add]; omega
  rw [h2, ← h1]
  exact h

/-- C87: for the hard-coded rules exponential is right, from below (C71) and from above: in the worst case a rule file of
`3 * k` characters takes between `2 ^ k` and `545 ^ (181 * (3 * k + 1))` calls. -/
theorem C87_bootstrap {L : Lexer} (hL : L.Lawful) (ind : Indent) (toks : List Tok) :
    (∀ text m d, Costs L bootstrapRules text toks ind m d → m ≤ 545 ^ (181 * (text.length + 1))) ∧
      ∀ k, k ≠ 0 → ∃ text : Str, text.length = 3 * k ∧ ∃ m d, Costs L bootstrapRules text toks ind m d ∧ 2 ^ k ≤ m := by
  constructor
  · intro text m d h
    have hsize : rulesSize bootstrapRules.rules = 180 := by decide +kernel
    have := C87_exponential hL (C25_check_sound hL ind boot_wellFormed) h
    rwa [hsize] at this
  · intro k hk
    obtain ⟨text, h1, m, d, h2, h3, -⟩ := C71_short_file hL k hk toks ind
    exact ⟨text, h1, m, d, h2, h3⟩

/-! ### C87: without recursion polynomial, and the stack is bounded -/

/-- A syntax that is not recursive need not be checked for rules that lead back to themselves without reading. -/
theorem C87_wellFormed {L : Lexer} {refs : List Rule} {ind : Indent} (hn : NonRecursive refs)
    (hl : ∀ r, Part refs r → LoopOk (envOf L refs ind) r) : WellFormed (envOf L refs ind) := by
  refine ⟨?_, hl⟩
  intro x hx ht
  have : ∀ {y z}, Relation.TransGen (Calls (envOf L refs ind)) y z → Relation.TransGen (Leads refs) y z := by
    intro y z h
    induction h with
    | single h => exact .single (calls_leads h)
    | tail _ h ih => exact .tail ih (calls_leads h)
  exact hn x hx (this ht)

/-- C87: if no rule leads back to itself, the number of calls is bounded by a polynomial in the length of the text, and
the depth of the recursion does not depend on the text. -/
theorem C87_polynomial {L : Lexer} (hL : L.Lawful) {syn : Syntax} {ind : Indent} (hn : NonRecursive syn.rules)
    (hl : ∀ r, Part syn.rules r → LoopOk (envOf L syn.rules ind) r) {text : Str} {toks : List Tok} {m d : Nat}
    (h : Costs L syn text toks ind m d) :
    m ≤ ((rulesSize syn.rules + 1) * (text.length + 1) + 1) ^ (rulesSize syn.rules + 1) ∧
      d ≤ rulesSize syn.rules + 1 := by
  obtain ⟨n, c, hc, -, rfl, rfl⟩ := h
  simp only [firstCall, Option.map_eq_some_iff] at hc
  obtain ⟨r, hr, rfl⟩ := hc
  have hp : Part (envOf L syn.rules ind).refs r := ⟨r, List.mem_of_getLast? hr, .refl⟩
  have hM : (Rule.partsL (envOf L syn.rules ind).refs).length = rulesSize syn.rules := partsL_length _
  have hH : Ht (Leads (envOf L syn.rules ind).refs) (rulesSize syn.rules) r := hM ▸ nonRecursive_ht hn hp
  have h := callCount_flat (E := envOf L syn.rules ind) hL (N := text.length) (fun r hr => width_le hr) hl n _
    ⟨r, ⟨toks, ind⟩, toks.length, Pos.new text 0⟩ ⟨⟨ind.indent, rfl⟩, Nat.le_refl _⟩ (Nat.le_refl _) hp hH
  exact ⟨h.1, h.2 _ hH⟩

/-- C87: references to rules further up only are never recursive. -/
theorem C87_backward {refs : List Rule} (h : ∀ (i : Nat) q, refs[i]? = some q → ∀ name prop ix id,
    Occurs (.node name prop (some ix) id) q → ix < i) : NonRecursive refs := by
  have key : ∀ {x y}, Relation.TransGen (Leads refs) x y → ∀ (i : Nat) q, refs[i]? = some q → Occurs y q →
      ∃ j q', refs[j]? = some q' ∧ Occurs x q' ∧ (j < i ∨ j = i ∧ ruleSize x < ruleSize y) := by
    intro x y ht
    induction ht with
    | single hl =>
      intro i q hi ho
      cases hl with
      | child hc => exact ⟨i, q, hi, Occurs.trans (.step .refl hc) ho, .inr ⟨rfl, ruleSize_child hc⟩⟩
      | node hx => exact ⟨_, _, hx, .refl, .inl (h i q hi _ _ _ _ ho)⟩
    | tail _ hl ih =>
      intro i q hi ho
      cases hl with
      | child hc =>
        obtain ⟨j, q', hj, ho', hlt⟩ := ih i q hi (Occurs.trans (.step .refl hc) ho)
        have := ruleSize_child hc
        exact ⟨j, q', hj, ho', by omega⟩
      | node hx =>
        have := h i q hi _ _ _ _ ho
        obtain ⟨j, q', hj, ho', hlt⟩ := ih _ _ hx .refl
        exact ⟨j, q', hj, ho', by omega⟩
  rintro x ⟨q, hq, ho⟩ ht
  obtain ⟨i, hi⟩ := List.getElem?_of_mem hq
  have : ∀ (i : Nat) q, refs[i]? = some q → Occurs x q → False := by
    intro i
    induction i using Nat.strongRecOn with
    | _ i ih =>
      intro q hi ho
      obtain ⟨j, q', hj, ho', hlt | ⟨rfl, hlt⟩⟩ := key ht i q hi ho
      · exact ih j hlt q' hj ho'
      · omega
  exact this i q hi ho

/-- The check of the references as a program. -/
def backward (refs : List Rule) : Bool :=
  refs.zipIdx.all fun x => x.1.all fun
    | .node _ _ (some ix) _ => ix < x.2
    | _ => true

theorem backward_sound {refs : List Rule} (h : backward refs = true) : NonRecursive refs := by
  refine C87_backward ?_
  intro i q hi name prop ix id ho
  have h1 := List.all_eq_true.1 h (q, i) (List.mk_mem_zipIdx_iff_getElem?.2 hi)
  have h2 := Rule.all_occurs ho h1
  simpa using h2

/-- The syntax of examples/key-values.rs is not recursive. -/
example {L : Lexer} (hL : L.Lawful) {text : Str} {m d : Nat} (h : Costs L kvSyntax text [] Indent.default m d) :
    m ≤ (21 * (text.length + 1) + 1) ^ 21 ∧ d ≤ 21 := by
  have hs : rulesSize kvSyntax.rules = 20 := by decide +kernel
  have := C87_polynomial hL (backward_sound (by decide +kernel))
    (C25_check_sound hL Indent.default (refs := kvSyntax.rules) (by decide +kernel)).loops h
  rwa [hs] at this

/-! ### C87: polynomial is not linear -/

namespace Quad

/-- `"a"`. -/
def a : Rule := .tag ['a'] false false none 1
/-- `[.r!("a") "b"]`. -/
def run : Rule := .sequence [.repeat_ a false 2, .tag ['b'] false false none 3] 4
/-- `{[.r!("a") "b"] "a"}`. -/
def either : Rule := .select [run, a] 5
/-- `.r?({[.r!("a") "b"] "a"})`. -/
def syn : Syntax := ⟨[.repeat_ either true 6], [['x']]⟩

/-- `aaa…`. -/
def as (k : Nat) : Str := List.replicate k 'a'

variable {L : Lexer} {refs : List Rule}

theorem a_ok (n k off s st) : eval L refs (n + 1) a st s ⟨as (k + 1), off⟩ = .ret (.ok ⟨off, 1⟩ s none) st := by
  simp [eval, step, a, as, evalTag, Pos.tag, List.replicate_succ, emitOpt, Pos.peek, pushOpt]

theorem a_end (n off s st) : eval L refs (n + 1) a st s ⟨[], off⟩ = .ret (.err ⟨⟨off, 0⟩, .expectedTag ['a'] 1⟩) st := by
  simp [eval, step, a, evalTag, Pos.tag, Pos.start]

theorem eat (k off : Nat) : Pos.consume ⟨as (k + 1), off⟩ 1 = ⟨as k, off + 1⟩ := by
  simp [Pos.consume, as, List.replicate_succ]

/-- `.r!("a")` reads to the end. -/
theorem many (n opt start) : ∀ (k fuel : Nat) (first off s oe st), k < fuel → (first = true → k ≠ 0) →
    ∃ oe', evalRepeat (eval L refs (n + 1)) a opt start fuel first ⟨as k, off⟩ s oe st =
      .ret (.ok (Pos.subtract ⟨[], off + k⟩ start) s oe') st
  | _, 0, _, _, _, _, _, h, _ => by omega
  | 0, fuel + 1, first, off, s, oe, st, _, hf => by
    have : as 0 = [] := rfl
    rw [this, evalRepeat, a_end]
    cases first with
    | true => exact absurd rfl (hf rfl)
    | false => exact ⟨_, rfl⟩
  | k + 1, fuel + 1, first, off, s, oe, st, h, _ => by
    obtain ⟨oe', h1⟩ := many n opt start k fuel false (off + 1) s (errUpdate none oe) st (by omega) (by simp)
    refine ⟨oe', ?_⟩
    rw [evalRepeat, a_ok]
    simp only [eat, h1]
    rw [show off + 1 + k = off + (k + 1) by omega]

/-- It takes a call for each character, and one more. -/
theorem many_calls (n : Nat) : ∀ (k fuel : Nat) (off s st), k < fuel →
    k + 1 ≤ ((repeatCalls (eval L refs (n + 1)) a fuel ⟨as k, off⟩ s st).map (callCount L refs (n + 1))).sum
  | _, 0, _, _, _, h => by omega
  | 0, fuel + 1, off, s, st, _ => by
    simp only [repeatCalls, List.map_cons, List.sum_cons, callCount]
    omega
  | k + 1, fuel + 1, off, s, st, h => by
    have h1 := many_calls n k fuel (off + 1) s st (by omega)
    rw [repeatCalls, a_ok]
    simp only [eat, List.map_cons, List.sum_cons]
    have : 1 ≤ callCount L refs (n + 1) ⟨a, st, s, ⟨as (k + 1), off⟩⟩ := by simp only [callCount]; omega
    omega

/-- `[.r!("a") "b"]` reads everything and is refused. -/
theorem run_err (n k off s st) (h : k + 1 < n + 1) : ∃ e,
    eval L refs (n + 3) run st s ⟨as (k + 1), off⟩ = .ret (.err e) st := by
  obtain ⟨oe, h1⟩ := many (L := L) (refs := refs) n false ⟨as (k + 1), off⟩ (k + 1) (n + 1) true off s none st h (by simp)
  have h2 : eval L refs (n + 2) (.repeat_ a false 2) st s ⟨as (k + 1), off⟩ =
      .ret (.ok (Pos.subtract ⟨[], off + (k + 1)⟩ ⟨as (k + 1), off⟩) s oe) st := h1
  have h3 : eval L refs (n + 3) run st s ⟨as (k + 1), off⟩ = evalSequence (eval L refs (n + 2)) ⟨as (k + 1), off⟩
    [.repeat_ a false 2, .tag ['b'] false false none 3] ⟨as (k + 1), off⟩ s none st := rfl
  have h4 : (Pos.subtract ⟨[], off + (k + 1)⟩ ⟨as (k + 1), off⟩).length = k + 1 := by
    simp [Pos.subtract]
  have h5 : Pos.consume ⟨as (k + 1), off⟩ (k + 1) = ⟨[], off + (k + 1)⟩ := by simp [Pos.consume, as]
  rw [h3, evalSequence, h2]
  simp only [h4, h5]
  rw [evalSequence]
  exact ⟨_, by simp [eval, step, evalTag, Pos.tag]; rfl⟩

theorem either_ok (n k off s st) (h : k + 1 < n + 1) : ∃ oe,
    eval L refs (n + 4) either st s ⟨as (k + 1), off⟩ = .ret (.ok ⟨off, 1⟩ s oe) st := by
  obtain ⟨e, h1⟩ := run_err (L := L) (refs := refs) n k off s st h
  have h2 : eval L refs (n + 4) either st s ⟨as (k + 1), off⟩ =
    evalSelect (eval L refs (n + 3)) 5 s ⟨as (k + 1), off⟩ [run, a] none st := rfl
  rw [h2, evalSelect, h1]
  simp only
  rw [evalSelect, a_ok]
  exact ⟨_, rfl⟩

theorem either_calls (n k off s st) (h : k + 1 < n + 1) :
    k + 1 ≤ callCount L refs (n + 4) ⟨either, st, s, ⟨as (k + 1), off⟩⟩ := by
  have h1 := many_calls (L := L) (refs := refs) n (k + 1) (n + 1) off s st h
  have h2 : k + 1 ≤ callCount L refs (n + 2) ⟨.repeat_ a false 2, st, s, ⟨as (k + 1), off⟩⟩ := by
    rw [callCount]
    simp only [subcalls]
    omega
  have h3 : k + 1 ≤ callCount L refs (n + 3) ⟨run, st, s, ⟨as (k + 1), off⟩⟩ := by
    rw [callCount]
    simp only [subcalls, run, sequenceCalls, List.map_cons, List.sum_cons]
    omega
  rw [callCount]
  simp only [subcalls, either, selectCalls, List.map_cons, List.sum_cons]
  omega

theorem syn_calls (n : Nat) : ∀ (k fuel : Nat) (off s st), k < fuel → k < n + 1 →
    k * k ≤ 2 * ((repeatCalls (eval L refs (n + 4)) either fuel ⟨as k, off⟩ s st).map (callCount L refs (n + 4))).sum
  | _, 0, _, _, _, h, _ => by omega
  | 0, fuel + 1, off, s, st, _, _ => by simp
  | k + 1, fuel + 1, off, s, st, h, hn => by
    have h1 := syn_calls n k fuel (off + 1) s st (by omega) (by omega)
    obtain ⟨oe, h2⟩ := either_ok (L := L) (refs := refs) n k off s st hn
    have h3 := either_calls (L := L) (refs := refs) n k off s st hn
    rw [repeatCalls, h2]
    simp only [eat, List.map_cons, List.sum_cons]
    rw [Nat.add_mul, Nat.mul_add]
    omega

theorem wellFormed : Verif.wellFormed syn.rules = true := by decide +kernel

end Quad

/-- C87: `k` times `a` takes at least `k * k / 2` calls with `x = .r?({[.r!("a") "b"] "a"})`, which is not recursive. -/
theorem C87_quadratic {L : Lexer} (hL : L.Lawful) (k : Nat) (toks : List Tok) (ind : Indent) :
    NonRecursive Quad.syn.rules ∧ ∃ m d, Costs L Quad.syn (Quad.as k) toks ind m d ∧ k * k ≤ 2 * m := by
  refine ⟨backward_sound (by decide +kernel), ?_⟩
  have hw := C25_check_sound hL ind Quad.wellFormed
  have hp := C70_fuel_bound (L := L) hL hw (Quad.as k) toks (Nat.le_refl _)
  obtain ⟨m, d, n, c, h1, h2, h3, h4⟩ := (C70_cost_defined (L := L) (syn := Quad.syn) (by simp [Quad.syn])).1 ⟨_, hp⟩
  refine ⟨m, d, ⟨n, c, h1, h2, h3, h4⟩, ?_⟩
  have h5 := callCount_stable (L := L) (refs := Quad.syn.rules) (n := n) (m := n + (k + 5)) (by omega) h2
  obtain rfl : (⟨.repeat_ Quad.either true 6, ⟨toks, ind⟩, toks.length, ⟨Quad.as k, 0⟩⟩ : Call) = c := by
    simpa [firstCall, Quad.syn, Pos.new] using h1
  have h6 := Quad.syn_calls (L := L) (refs := Quad.syn.rules) (n + k) k (n + k + 4) 0 toks.length ⟨toks, ind⟩
    (by omega) (by omega)
  rw [← h3, ← h5, show n + (k + 5) = n + k + 4 + 1 by omega, callCount]
  simp only [subcalls]
  omega

/-- C87: so for syntaxes that are not recursive there is no linear bound. -/
theorem C87_linear_refuted {L : Lexer} (hL : L.Lawful) : ¬ ∀ syn : Syntax, NonRecursive syn.rules →
    WellFormed (envOf L syn.rules Indent.default) →
    ∃ b, ∀ text m d, Costs L syn text [] Indent.default m d → m ≤ b * (text.length + 1) := by
  intro h
  have hw := C25_check_sound hL Indent.default Quad.wellFormed
  obtain ⟨b, hb⟩ := h Quad.syn (C87_quadratic hL 0 [] Indent.default).1 hw
  obtain ⟨-, m, d, hc, hm⟩ := C87_quadratic hL (2 * b + 2) [] Indent.default
  have h1 := hb _ _ _ hc
  simp only [Quad.as, List.length_replicate] at h1
  have h2 : (2 * b + 2) * (2 * b + 2) = 2 * (b * (2 * b + 2 + 1)) + (2 * b + 4) := by
    simp only [Nat.add_mul, Nat.mul_add, Nat.mul_assoc, Nat.mul_left_comm b 2]
    omega
  omega

end Verif.Props
