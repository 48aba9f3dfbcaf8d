import Verif.Proofs.PredictiveRun
import Verif.Props.Tower
import Verif.Props.OptFewer
/-
C110: syntaxes decided by the next character are parsed in linear time.
-/
namespace Verif.Props
open Spec

section
variable {L : Lexer} {M : Nat → Mark} {refs : List Rule} {I : Nat}

mutual
theorem markOf_idle (hI : ∀ i, (M i).idle ≤ I) : ∀ r : Rule, (markOf L M r).idle ≤ ruleSize r * (I + 1)
  | .whitespace _ _ | .tag _ _ _ _ _ | .untilAny _ _ _ _ | .untilAnyOrWs _ _ _ _ | .text _ _ _ | .number _ _ _ => by
    simp [markOf, Mark.leaf, ruleSize]
  | .node _ _ none _ => by simp [markOf, Mark.leaf, ruleSize]
  | .node _ _ (some i) _ => by
    have := hI i
    simp only [markOf, Mark.called, ruleSize]
    omega
  | .fastSelect _ _ _ _ => by
    simp only [markOf, Mark.leaf, ruleSize, Nat.add_mul]
    omega
  | .select rs _ => by
    have := (markList_idle hI rs).2
    simp only [markOf, Mark.called, ruleSize, Nat.add_mul 1]
    omega
  | .sequence rs _ => by
    have := (markList_idle hI rs).1
    simp only [markOf, Mark.called, ruleSize, Nat.add_mul 1]
    omega
  | .separateBy r b _ _ _ => by
    have h1 := markOf_idle hI r
    have h2 := markOf_idle hI b
    simp only [markOf, Mark.called, Mark.turns, ruleSize, Nat.add_mul 1, Nat.add_mul (ruleSize r)]
    split <;> omega
  | .repeat_ r _ _ => by
    have h1 := markOf_idle hI r
    simp only [markOf, Mark.called, Mark.loop, ruleSize, Nat.add_mul 1]
    omega
  | .lines r _ _ => by
    have h1 := markOf_idle hI r
    simp only [markOf, Mark.called, Mark.lines, ruleSize, Nat.add_mul 1]
    omega
  | .optional r _ => by
    have h1 := markOf_idle hI r
    simp only [markOf, Mark.called, Mark.else_, Mark.nothing, ruleSize, Nat.add_mul 1]
    omega
  | .not r _ => by
    have h1 : 1 * (I + 1) ≤ ruleSize r * (I + 1) := Nat.mul_le_mul_right _ (ruleSize_pos r)
    simp only [markOf, Mark.called, Mark.leaf, ruleSize, Nat.add_mul 1]
    omega
theorem markList_idle (hI : ∀ i, (M i).idle ≤ I) : ∀ rs : List Rule,
    (markSequence L M rs).idle ≤ rulesSize rs * (I + 1) ∧ (markSelect L M rs).idle ≤ rulesSize rs * (I + 1)
  | [] => by simp [markSequence, markSelect, Mark.nothing, Mark.fail]
  | r :: rs => by
    have h1 := markOf_idle hI r
    have h2 := markList_idle hI rs
    simp only [markSequence, markSelect, Mark.then_, Mark.else_, rulesSize, Nat.add_mul (ruleSize r)]
    constructor
    · split <;> omega
    · omega
end

/-- How many calls there may be for each character, if there are at most `w` parts and `B` calls without reading. -/
def callsPerChar (w B : Nat) : Nat := ((w + 3) * B + 1) * (B + 1) + 1

/-- The lists of alternatives and of parts are not longer than `w`. -/
def Narrow (refs : List Rule) (w : Nat) : Prop :=
  ∀ rs id, Part refs (.sequence rs id) ∨ Part refs (.select rs id) → rs.length ≤ w

theorem pays {w B : Nat} (hB : ∀ x, Part refs x → (markOf L M x).idle ≤ B) (hw : Narrow refs w) :
    Pays L M refs (fun i => ((w + 3) * B + 1) * (B + 1 - i)) (callsPerChar w B) B w where
  anti i j h := Nat.mul_le_mul_left _ (by omega)
  idle := hB
  width := hw
  step i h := by
    generalize (w + 3) * B = X at *
    rw [show B + 1 - i = B + 1 - (1 + i) + 1 by omega, Nat.mul_add (X + 1)]
    omega
  char := by
    simp only [callsPerChar, Nat.sub_zero]
    omega

theorem part_size {x : Rule} (h : Part refs x) : ruleSize x ≤ rulesSize refs := by
  obtain ⟨q, hq, ho⟩ := h
  have h1 := ruleSize_occurs ho
  have h2 := ruleSize_mem hq
  omega

theorem part_idle (hI : ∀ i, (M i).idle ≤ I) (x : Rule) (hx : Part refs x) : (markOf L M x).idle ≤ rulesSize refs * (I + 1) :=
  Nat.le_trans (markOf_idle hI x) (Nat.mul_le_mul_right _ (part_size hx))

theorem part_narrow : Narrow refs (rulesSize refs) := by
  intro rs id h
  have h3 := length_rulesSize rs
  rcases h with h | h <;>
    (have := part_size h
     simp only [ruleSize] at this
     omega)

theorem predictive_noIndent (hP : Predictive L M refs) : NoIndent refs := by
  intro q hq r id ho
  have := hP.decided _ ⟨q, hq, ho⟩
  cases this.1

/-- What can match without reading is marked so. -/
theorem predictive_empty (hL : L.Lawful) (hP : Predictive L M refs) (hI : ∀ i, (M i).idle ≤ I) {ind : Indent} {r : Rule}
    (hr : Part refs r) (h : CanBeEmpty (envOf L refs ind) r) : (markOf L M r).empty = true := by
  obtain ⟨p, i, ts, j, tr, h⟩ := h
  obtain ⟨N, s', toks', -, -, h1⟩ := run_some_eval h [] 0 (Nat.le_refl _)
  have h1 := h1 N (Nat.le_refl _)
  obtain ⟨k, e, h2⟩ := below_predictive hL hP (pays (part_idle hI) part_narrow) (N + 1) r hr N (by omega) _ _ _ _ _ h1
  obtain ⟨h3, h4⟩ := h2.ok 0 rfl
  exact h4 h3.symm

theorem markSequence_calls {c : Rule} {post : List Rule} : ∀ {pre : List Rule}, (∀ x ∈ pre, (markOf L M x).empty = true) →
    (markOf L M c).idle ≤ (markSequence L M (pre ++ c :: post)).idle
  | [], _ => Nat.le_add_right _ _
  | x :: pre, h => by
    have h1 := markSequence_calls (c := c) (post := post) (pre := pre) fun y hy => h y (by simp [hy])
    simp only [List.cons_append, markSequence, Mark.then_, h x (by simp), if_true]
    omega

theorem markSelect_calls {c : Rule} : ∀ {rs : List Rule}, c ∈ rs → (markOf L M c).idle ≤ (markSelect L M rs).idle
  | r :: rs, h => by
    simp only [markSelect, Mark.else_]
    rcases List.mem_cons.1 h with rfl | h
    · omega
    · have := markSelect_calls h
      omega

theorem predictive_calls (hL : L.Lawful) (hP : Predictive L M refs) (hI : ∀ i, (M i).idle ≤ I) {ind : Indent} {c r : Rule}
    (hr : Part refs r) (h : Calls (envOf L refs ind) c r) : (markOf L M c).idle < (markOf L M r).idle := by
  have hd := hP.decided r hr
  cases h with
  | select h =>
    have := markSelect_calls (L := L) (M := M) h
    simp only [markOf, Mark.called]
    omega
  | fast h => exact hd.elim
  | @sequence pre _ post id h =>
    have := markSequence_calls (L := L) (M := M) (c := c) (post := post) (pre := pre) fun x hx => predictive_empty hL hP hI (decided_part hr (.sequence (by simp [hx]))) (h x hx)
    simp only [markOf, Mark.called]
    exact Nat.lt_of_le_of_lt this (by omega)
  | item => simp only [markOf, Mark.called, Mark.turns]; omega
  | sep h =>
    have := predictive_empty hL hP hI (decided_part hr .item) h
    simp only [markOf, Mark.called, Mark.turns, this, if_true]
    omega
  | repeat_ => simp only [markOf, Mark.called, Mark.loop]; omega
  | lines => simp only [markOf, Mark.called, Mark.lines]; omega
  | optional => simp only [markOf, Mark.called, Mark.else_]; omega
  | not =>
    simp only [markOf, Mark.called, Mark.leaf]
    cases c <;> simp_all [Decided, CallsNone, markOf, Mark.leaf]
  | node h =>
    have := (hP.covers _ _ h).idle
    simp only [markOf, Mark.called]
    omega

/-- Such a syntax is well-formed: no rule leads back to itself without reading, and all loops read something. -/
theorem C110_wellFormed (hL : L.Lawful) (hP : Predictive L M refs) (hI : ∀ i, (M i).idle ≤ I) (ind : Indent) :
    WellFormed (envOf L refs ind) := by
  constructor
  · intro x hx ht
    have : ∀ {y z}, Relation.TransGen (Calls (envOf L refs ind)) y z → Part refs z → (markOf L M y).idle < (markOf L M z).idle ∧ Part refs y := by
      intro y z h
      induction h with
      | single h => exact fun hz => ⟨predictive_calls hL hP hI hz h, calls_part h hz⟩
      | tail _ h ih =>
        intro hz
        have h1 := ih (calls_part h hz)
        exact ⟨Nat.lt_trans h1.1 (predictive_calls hL hP hI hz h), h1.2⟩
    exact Nat.lt_irrefl _ (this ht hx).1
  · intro x hx
    have hd := hP.decided x hx
    cases x with
    | repeat_ r opt id =>
      intro h
      have := predictive_empty hL hP hI (decided_part hx .repeat_) h
      rw [hd.1] at this
      cases this
    | separateBy r b opt trail id =>
      rintro ⟨h, h'⟩
      have h1 := predictive_empty hL hP hI (decided_part hx .item) h
      have h2 := predictive_empty hL hP hI (decided_part hx .sep) h'
      have h3 := hd.1
      rw [h1, h2] at h3
      cases h3
    | _ => trivial

end

section
variable {L : Lexer} {M : Nat → Mark} {syn : Syntax} {I : Nat}

/-- Every text is accepted or rejected. -/
theorem C110_returns (hL : L.Lawful) (hP : Predictive L M syn.rules) (hI : ∀ i, (M i).idle ≤ I) (hs : SyntaxOk syn)
    (text : Str) (toks : List Tok) (ind : Indent) :
    (∃ toks', Parses L syn text toks ind (.ok toks')) ∨ ∃ e toks', Parses L syn text toks ind (.err e toks') :=
  C25_returns hL (C110_wellFormed hL hP hI ind) hs text (.inr (predictive_noIndent hP)) toks

/-- The number of calls is at most proportional to the length of the text. -/
theorem C110_linear (hL : L.Lawful) (hP : Predictive L M syn.rules) {w B : Nat}
    (hB : ∀ x, Part syn.rules x → (markOf L M x).idle ≤ B) (hw : Narrow syn.rules w) (hs : SyntaxOk syn)
    {text : Str} {toks : List Tok} {ind : Indent} {m d : Nat} (h : Costs L syn text toks ind m d) :
    m ≤ callsPerChar w B * text.length + B := by
  have hp : ¬ Parses L syn text toks ind .panic := C26_no_panic hs (.inr (predictive_noIndent hP))
  obtain ⟨n, c, hc, hne, rfl, rfl⟩ := h
  obtain ⟨o, st, ho⟩ := first_returns hp hc hne
  simp only [firstCall, Option.map_eq_some_iff] at hc
  obtain ⟨r, hr, rfl⟩ := hc
  have hr : Part syn.rules r := ⟨r, List.mem_of_getLast? hr, .refl⟩
  obtain ⟨k, e, h⟩ := below_predictive hL hP (pays hB hw) (n + 1) r hr n (by omega) _ _ _ _ _ ho
  have h1 := h.le
  have h2 := h.idle
  have h3 := h.cost
  dsimp only [Pos.new] at h1 h2 h3 ⊢
  have h4 := hB r hr
  have h5 : callsPerChar w B * (k + e) ≤ callsPerChar w B * text.length := Nat.mul_le_mul_left _ h1
  rw [Nat.mul_add] at h5
  omega

/-- There is such a bound for every syntax of this kind. -/
theorem C110_linear_any (hL : L.Lawful) (hP : Predictive L M syn.rules) (hI : ∀ i, (M i).idle ≤ I) (hs : SyntaxOk syn) :
    ∃ A B, ∀ (text : Str) (toks : List Tok) (ind : Indent) (m d : Nat), Costs L syn text toks ind m d → m ≤ A * text.length + B :=
  ⟨_, _, fun _ _ _ _ _ h => C110_linear hL hP (part_idle hI) part_narrow hs h⟩

/-- So it is for the optimized syntax. -/
theorem C110_optimized (hL : L.Lawful) (hP : Predictive L M syn.rules) (hI : ∀ i, (M i).idle ≤ I) {w B : Nat}
    (hB : ∀ x, Part syn.rules x → (markOf L M x).idle ≤ B) (hw : Narrow syn.rules w) (hs : SyntaxOk syn)
    {syn' : Syntax} (ho : Optimizes syn syn') {text : Str} {toks : List Tok} {ind : Indent}
    (ht : TailsRefused (envOf L syn.rules ind)) {m d : Nat} (h : Costs L syn' text toks ind m d) :
    m ≤ callsPerChar w B * text.length + B := by
  have hp : ¬ Parses L syn text toks ind .panic := C26_no_panic hs (.inr (predictive_noIndent hP))
  have hne : syn.rules ≠ [] := by
    intro h0
    obtain ⟨n, c, hc, -⟩ := h
    obtain ⟨k, ho⟩ := ho
    obtain ⟨rules, h1, h2⟩ := Comp.bind_ok.1 ho
    cases h2
    rw [h0] at h1
    cases h1
    cases hc
  have hr : ∃ o, Parses L syn text toks ind o := by
    rcases C110_returns hL hP hI hs text toks ind with ⟨_, h⟩ | ⟨_, _, h⟩ <;> exact ⟨_, h⟩
  obtain ⟨m', d', h'⟩ := (C70_cost_defined hne).1 hr
  exact Nat.le_trans (C88_no_slower hL ho ht hp h' h).1 (C110_linear hL hP hB hw hs h')

end

mutual
/-- The parts of a rule have a property. -/
def EachPart (P : Rule → Prop) : Rule → Prop
  | .select rs id => P (.select rs id) ∧ EachPartOf P rs
  | .fastSelect t rs tail id => P (.fastSelect t rs tail id) ∧ EachPartOf P rs
  | .sequence rs id => P (.sequence rs id) ∧ EachPartOf P rs
  | .separateBy r b opt trail id => P (.separateBy r b opt trail id) ∧ EachPart P r ∧ EachPart P b
  | .repeat_ r opt id => P (.repeat_ r opt id) ∧ EachPart P r
  | .lines r ind id => P (.lines r ind id) ∧ EachPart P r
  | .optional r id => P (.optional r id) ∧ EachPart P r
  | .not r id => P (.not r id) ∧ EachPart P r
  | r => P r
/-- The parts of all. -/
def EachPartOf (P : Rule → Prop) : List Rule → Prop
  | [] => True
  | r :: rs => EachPart P r ∧ EachPartOf P rs
end

theorem eachPartOf_mem {P : Rule → Prop} : ∀ {rs : List Rule}, EachPartOf P rs → ∀ r ∈ rs, EachPart P r
  | _ :: _, h, r, hr => by
    rcases List.mem_cons.1 hr with rfl | hr
    · exact h.1
    · exact eachPartOf_mem h.2 r hr

theorem eachPart_self {P : Rule → Prop} {r : Rule} (h : EachPart P r) : P r := by
  cases r <;> first | exact h | exact h.1

theorem eachPart_child {P : Rule → Prop} {c r : Rule} (hc : Child c r) (h : EachPart P r) : EachPart P c := by
  cases hc with
  | select hm => exact eachPartOf_mem h.2 _ hm
  | fast hm => exact eachPartOf_mem h.2 _ hm
  | sequence hm => exact eachPartOf_mem h.2 _ hm
  | item => exact h.2.1
  | sep => exact h.2.2
  | _ => exact h.2

theorem eachPart_occurs {P : Rule → Prop} {x r : Rule} (hx : Occurs x r) : EachPart P r → P x := by
  induction hx with
  | refl => exact eachPart_self
  | step _ hc ih => exact fun h => ih (eachPart_child hc h)

theorem eachPart_part {P : Rule → Prop} {refs : List Rule} (h : EachPartOf P refs) (x : Rule) : Part refs x → P x :=
  fun ⟨q, hq, ho⟩ => eachPart_occurs ho (eachPartOf_mem h q hq)

namespace Nested

/-- `.w?`. -/
def w (id : DebugId) : Rule := .whitespace true id
/-- A character. -/
def c (x : Char) (id : DebugId) : Rule := .tag [x] false false none id
/-- `.s?.(["," .w?] r)` between brackets. -/
def list (l r : Char) (x : Rule) : Rule :=
  .sequence [c l 1, w 2, .separateBy x (.sequence [c ',' 3, w 4] 5) true true 6, c r 7] 8
/-- Texts, lists of values and lists of texts with values. -/
def value : Rule :=
  .select [.text true (some ['s']) 10, list '[' ']' (.node ['i'] none (some 1) 11), list '{' '}' (.node ['e'] none (some 2) 12)] 13
/-- `[value .w?]`. -/
def item : Rule := .sequence [.node ['v'] (some ['v']) (some 0) 14, w 15] 16
/-- `[.t .w? ":" .w? item]`. -/
def entry : Rule := .sequence [.text true (some ['k']) 17, w 18, c ':' 19, w 20, .node ['i'] none (some 1) 21] 22
/-- `[.w? item]`. -/
def doc : Rule := .sequence [w 23, .node ['i'] none (some 1) 24] 25
def syn : Syntax := ⟨[value, item, entry, doc], [['v'], ['i'], ['e'], ['d']]⟩

/-- What a value begins with. -/
def starts (x : Char) : Prop := x = '"' ∨ x = '[' ∨ x = '{'

def marks : Nat → Mark
  | 0 => ⟨starts, fun _ => False, false, false, false, 8⟩
  | 1 => ⟨starts, fun _ => False, false, false, false, 10⟩
  | 2 => ⟨fun x => x = '"', fun _ => False, false, false, false, 2⟩
  | _ => ⟨fun x => isWs x ∨ starts x, fun _ => False, false, false, false, 13⟩

theorem predictive (L : Lexer) : Predictive L marks syn.rules where
  decided := by
    apply eachPart_part
    simp [EachPart, EachPartOf, Decided, DecidedSelect, DecidedSequence, syn, value, item, entry, doc, list, w, c, markOf, markSelect,
      markSequence, Mark.leaf, Mark.then_, Mark.else_, Mark.called, Mark.turns, Mark.nothing, Mark.fail, Mark.left, marks, NoShared, starts]
  covers i q h := by
    match i, h with
    | 0, h | 1, h | 2, h | 3, h =>
      cases h
      constructor <;> simp [value, item, entry, doc, list, w, c, markOf, markSelect, markSequence, Mark.leaf, Mark.then_, Mark.else_,
        Mark.called, Mark.turns, Mark.nothing, Mark.fail, Mark.left, marks, starts]
      try (rintro a (h | h) <;> simp [← h])

theorem idle (L : Lexer) : ∀ x, Part syn.rules x → (markOf L marks x).idle ≤ 13 := by
  apply eachPart_part
  simp [EachPart, EachPartOf, syn, value, item, entry, doc, list, w, c, markOf, markSelect, markSequence, Mark.leaf, Mark.then_, Mark.else_,
    Mark.called, Mark.turns, Mark.nothing, Mark.fail, Mark.left, marks, starts]

theorem narrow : Narrow syn.rules 5 := by
  intro rs id h
  have : ∀ x, Part syn.rules x → match x with | .sequence rs _ => rs.length ≤ 5 | .select rs _ => rs.length ≤ 5 | _ => True := by
    apply eachPart_part
    simp [EachPart, EachPartOf, syn, value, item, entry, doc, list, w, c]
  rcases h with h | h <;> exact this _ h

theorem syntaxOk : SyntaxOk syn := C26_check_sound (by decide +kernel)

end Nested

/-- Texts, lists and tables within each other are read in linear time. -/
theorem C110_nested {L : Lexer} (hL : L.Lawful) (text : Str) (toks : List Tok) (ind : Indent) :
    ∃ m d, Costs L Nested.syn text toks ind m d ∧ m ≤ 1471 * text.length + 13 := by
  have hI : ∀ i, (Nested.marks i).idle ≤ 13 := by
    intro i
    match i with
    | 0 | 1 | 2 | i + 3 => simp [Nested.marks]
  have hr : ∃ o, Parses L Nested.syn text toks ind o := by
    rcases C110_returns hL (Nested.predictive L) hI Nested.syntaxOk text toks ind with ⟨_, h⟩ | ⟨_, _, h⟩ <;> exact ⟨_, h⟩
  obtain ⟨m, d, h⟩ := (C70_cost_defined (by simp [Nested.syn])).1 hr
  exact ⟨m, d, h, C110_linear hL (Nested.predictive L) (Nested.idle L) Nested.narrow Nested.syntaxOk h⟩

/-- 22 calls for `[]`. -/
example : callCount stdLexer Nested.syn.rules 14 ⟨Nested.doc, ⟨[], ⟨0, true, 4⟩⟩, 0, ⟨c!"[]", 0⟩⟩ = 22 := by decide +kernel

/-- The rule that tries two ways is not decided by the next character, whatever is claimed about it. -/
theorem C110_quadratic {L : Lexer} (hL : L.Lawful) {M : Nat → Mark} {I : Nat} (hI : ∀ i, (M i).idle ≤ I) :
    ¬ Predictive L M Quad.syn.rules := by
  intro hP
  obtain ⟨A, B, h⟩ := C110_linear_any (syn := Quad.syn) hL hP hI (C26_check_sound (by decide +kernel))
  obtain ⟨-, m, d, hc, hm⟩ := C87_quadratic hL (2 * A + 2 * B + 1) [] ⟨0, true, 4⟩
  have h1 := h _ _ _ _ _ hc
  rw [show (Quad.as (2 * A + 2 * B + 1)).length = 2 * A + 2 * B + 1 by simp [Quad.as]] at h1
  rw [Nat.add_mul (2 * A + 2 * B), Nat.add_mul (2 * A), Nat.mul_assoc 2 A, Nat.mul_assoc 2 B] at hm
  have h2 : B * 1 ≤ B * (2 * A + 2 * B + 1) := Nat.mul_le_mul_left _ (by omega)
  omega

theorem pow_large (c : Nat) : c * (3 * c + 25) + 40 ≤ 256 * 2 ^ c := by
  induction c with
  | zero => simp
  | succ c ih =>
    rw [Nat.pow_succ]
    have : (c + 1) * (3 * (c + 1) + 25) = c * (3 * c + 25) + (6 * c + 28) := by
      simp only [Nat.add_mul, Nat.mul_add]
      omega
    have h2 : c * 25 ≤ c * (3 * c + 25) := Nat.mul_le_mul_left _ (by omega)
    omega

/-- Neither are the rules of the meta language. -/
theorem C110_bootstrap {L : Lexer} (hL : L.Lawful) {M : Nat → Mark} {I : Nat} (hI : ∀ i, (M i).idle ≤ I) :
    ¬ Predictive L M bootstrapRules.rules := by
  intro hP
  obtain ⟨A, B, h⟩ := C110_linear_any (syn := bootstrapRules) hL hP hI boot_ok
  obtain ⟨text, ht, m, d, hc, hm, -⟩ := C71_short_file hL (A + B + 8) (by omega) [] ⟨0, true, 4⟩
  have h1 := h _ _ _ _ _ hc
  rw [ht] at h1
  have h2 := pow_large (A + B)
  rw [Nat.pow_add] at hm
  have h3 : A * (3 * (A + B + 8)) + B * (3 * (A + B + 8)) ≤ (A + B) * (3 * (A + B) + 25) := by
    rw [← Nat.add_mul]
    exact Nat.mul_le_mul_left _ (by omega)
  have h4 : B * 1 ≤ B * (3 * (A + B + 8)) := Nat.mul_le_mul_left _ (by omega)
  omega

end Verif.Props
