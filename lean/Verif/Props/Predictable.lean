import Verif.Proofs.PredictableSteps
import Verif.Props.Generates
import Verif.Props.KeyValue
import Verif.Props.Hello
/-
C112: marks can be computed.
-/
namespace Verif.Props
open Spec

section
variable {L : Lexer} {nums : Bool → List Char} {syn : Syntax} {o : Char}

theorem foundAt_idle (ms : List Found) : ∃ I, ∀ i, (foundAt ms i).idle ≤ I := by
  induction ms with
  | nil => exact ⟨0, fun i => by simp [foundAt, Found.start]⟩
  | cons m ms ih =>
    obtain ⟨I, h⟩ := ih
    refine ⟨m.idle + I, fun i => ?_⟩
    cases i with
    | zero => simp [foundAt]
    | succ i =>
      have := h i
      simp only [foundAt, List.getElem?_cons_succ] at this ⊢
      omega

theorem confirms_length {ms : List Found} {refs : List Rule} (h : confirms nums refs ms = true) : ms.length = refs.length := by
  simp only [confirms, Bool.and_eq_true, beq_iff_eq] at h
  exact h.1.1

/-- What the check confirms are marks. -/
theorem C112_sound (hn : NumbersBegin L nums) (ho : o ∉ alphabet nums syn.rules) {ms : List Found}
    (h : confirms nums syn.rules ms = true) : ∃ M I, (∀ i, (M i).idle ≤ I) ∧ Predictive L M syn.rules := by
  obtain ⟨I, hI⟩ := foundAt_idle ms
  exact ⟨_, I, hI, (confirms_iff hn ho (confirms_length h)).1 h⟩

/-- So every text is parsed by linearly many calls. -/
theorem C112_linear (hL : L.Lawful) (hn : NumbersBegin L nums) (ho : o ∉ alphabet nums syn.rules) {ms : List Found}
    (h : confirms nums syn.rules ms = true) (hs : SyntaxOk syn) :
    ∃ A B, ∀ (text : Str) (toks : List Tok) (ind : Indent),
      ((∃ toks', Parses L syn text toks ind (.ok toks')) ∨ ∃ e toks', Parses L syn text toks ind (.err e toks')) ∧
      ∀ m d, Costs L syn text toks ind m d → m ≤ A * text.length + B := by
  obtain ⟨M, I, hI, hP⟩ := C112_sound hn ho h
  obtain ⟨A, B, hAB⟩ := C110_linear_any hL hP hI hs
  exact ⟨A, B, fun text toks ind => ⟨C110_returns hL hP hI hs text toks ind, fun m d => hAB text toks ind m d⟩⟩

/-- If there are marks, they are found and confirmed, after a number of steps that depends on the number of rules, of characters and
of the calls that are made without reading. -/
theorem C112_found (hn : NumbersBegin L nums) (ho : o ∉ alphabet nums syn.rules) {M : Nat → Mark} {I : Nat}
    (hI : ∀ i, (M i).idle ≤ I) (hP : Predictive L M syn.rules) :
    ∃ k ≤ syn.rules.length * (2 * (alphabet nums syn.rules).length + 5 + I), confirms nums syn.rules (findMarks nums syn.rules k) = true := by
  obtain ⟨k, hk, h⟩ := findMarks_stops hn ho hI hP.covers
  refine ⟨k, hk, (confirms_iff hn ho (findMarks_length k)).2 ⟨fun x hx => ?_, h⟩⟩
  exact decided_mono (stepMark_least hn hP.covers k) (hP.decided x hx)

/-- There are marks exactly if some are found. -/
theorem C112_exact (hn : NumbersBegin L nums) (ho : o ∉ alphabet nums syn.rules) :
    (∃ M I, (∀ i, (M i).idle ≤ I) ∧ Predictive L M syn.rules) ↔ ∃ k, confirms nums syn.rules (findMarks nums syn.rules k) = true :=
  ⟨fun ⟨_, _, hI, hP⟩ => have ⟨k, _, h⟩ := C112_found hn ho hI hP; ⟨k, h⟩, fun ⟨_, h⟩ => C112_sound hn ho h⟩

/-- If nothing changes any more and the marks are not confirmed, there are none. -/
theorem C112_refuted (hn : NumbersBegin L nums) (ho : o ∉ alphabet nums syn.rules) {k : Nat}
    (hk : findMarks nums syn.rules (k + 1) = findMarks nums syn.rules k)
    (h : confirms nums syn.rules (findMarks nums syn.rules k) = false) (M : Nat → Mark) : ¬ Predictive L M syn.rules := by
  intro hP
  have : confirms nums syn.rules (findMarks nums syn.rules k) = true := by
    refine (confirms_iff hn ho (findMarks_length k)).2 ⟨fun x hx => decided_mono (stepMark_least hn hP.covers k) (hP.decided x hx),
      fun i q hq => ?_⟩
    rw [← stepMark_succ hn hq, stepMark, hk]
    exact covers_refl _
  rw [h] at this
  cases this

theorem confirmsAll_lengths {ms : List Found} {ns : List (List (Option Char))} {refs : List Rule} (h : confirmsAll nums refs ms ns = true) :
    ms.length = refs.length ∧ ns.length = refs.length := by
  simp only [confirmsAll, Bool.and_eq_true, beq_iff_eq] at h
  exact ⟨confirms_length h.1.1.1, h.1.1.2⟩

/-- What the second check confirms may be read as a grammar. -/
theorem C112_grammar (hL : L.Lawful) (hn : NumbersBegin L nums) (ho : o ∉ alphabet nums syn.rules) {ms : List Found}
    {ns : List (List (Option Char))} (h : confirmsAll nums syn.rules ms ns = true) (hs : SyntaxOk syn) {text : Str} {ind : Indent}
    {ts : List Tok} : Accepts L syn text ind ts ↔ GeneratesText L syn text ind ts := by
  obtain ⟨I, hI⟩ := foundAt_idle ms
  obtain ⟨h1, h2⟩ := confirmsAll_lengths h
  exact C111_generated hL ((confirmsAll_iff hn ho h1 h2).1 h) hI hs

/-- There are marks for it exactly if some are found. -/
theorem C112_grammar_exact (hn : NumbersBegin L nums) (ho : o ∉ alphabet nums syn.rules) :
    (∃ M N I, (∀ i, (M i).idle ≤ I) ∧ LL1 L M N syn.rules) ↔
      ∃ k j, confirmsAll nums syn.rules (findMarks nums syn.rules k) (findFurther nums syn.rules (findMarks nums syn.rules k) j) = true := by
  constructor
  · rintro ⟨M, N, I, hI, hU⟩
    obtain ⟨k, -, hk⟩ := C112_found hn ho hI hU.toPredictive
    obtain ⟨j, -, hj⟩ := findFurther_stops (L := L) hn ho (findMarks nums syn.rules k)
    have hM := stepMark_least hn hU.covers k
    refine ⟨k, j, (confirmsAll_iff hn ho (findMarks_length k) (findFurther_length _ j)).2
      ⟨(confirms_iff hn ho (findMarks_length k)).1 hk, fun x hx => ?_, hj⟩⟩
    exact oneWay_mono hM (stepMore_least hn hM hU.more j) (hU.oneWay x hx)
  · rintro ⟨k, j, h⟩
    obtain ⟨I, hI⟩ := foundAt_idle (findMarks nums syn.rules k)
    exact ⟨_, _, I, hI, (confirmsAll_iff hn ho (findMarks_length k) (findFurther_length _ j)).1 h⟩

end

/-- Numbers begin with a digit or a minus. -/
def stdNums : Bool → List Char := fun _ => c!"-0123456789"

theorem C112_numbers : NumbersBegin stdLexer stdNums := by
  intro us c
  have hd : ∀ c : Char, Std.isDigit c = true ↔ c ∈ c!"0123456789" := by
    intro c
    have hc : ∀ d : Char, c = d ↔ c.toNat = d.toNat := fun d => ⟨fun h => h ▸ rfl, fun h => by
      rw [← Char.ofNat_toNat c, h, Char.ofNat_toNat]⟩
    simp only [Std.isDigit, Bool.and_eq_true, decide_eq_true_eq, List.mem_cons, List.not_mem_nil, or_false, hc]
    show _ ↔ (_ = 48 ∨ _ = 49 ∨ _ = 50 ∨ _ = 51 ∨ _ = 52 ∨ _ = 53 ∨ _ = 54 ∨ _ = 55 ∨ _ = 56 ∨ _ = 57)
    omega
  show _ ↔ c ∈ '-' :: c!"0123456789"
  rw [List.mem_cons, ← hd]
  constructor
  · rintro ⟨s, n, h⟩
    by_cases hc : c = '-'
    · exact .inl hc
    · have hsign : Std.numSign (c :: s) = 0 := by
        unfold Std.numSign
        split
        · rename_i h1; cases h1; exact absurd rfl hc
        · rfl
      simp only [stdLexer, Std.num, hsign, List.drop_zero, List.head?_cons, Option.map_some, Option.getD_some] at h
      split at h
      · exact .inr ‹_›
      · cases h
  · rintro (rfl | h)
    · cases us
      · exact ⟨['0'], 2, by decide +kernel⟩
      · exact ⟨['0'], 2, by decide +kernel⟩
    · have hsign : Std.numSign [c] = 0 := by
        unfold Std.numSign
        split
        · rename_i h1; cases h1; exact absurd h (by decide)
        · rfl
      simp only [stdLexer, Std.num]
      refine ⟨[], ?_⟩
      simp only [hsign, List.drop_zero, List.head?_cons, Option.map_some, Option.getD_some, h, if_true]
      exact ⟨_, rfl⟩

/-! ### Examples -/

/-- The syntax of C110 has marks that are found in three steps, and may be read as a grammar. -/
theorem C112_nested : confirmsAll stdNums Nested.syn.rules (findMarks stdNums Nested.syn.rules 3)
    (findFurther stdNums Nested.syn.rules (findMarks stdNums Nested.syn.rules 3) 0) = true := by
  decide +kernel

namespace Calc

/-- `.w?`. -/
def w (id : DebugId) : Rule := .whitespace true id
/-- A character. -/
def c (x : Char) (id : DebugId) : Rule := .tag [x] false false none id
/-- `{.$:"num" ["(" .w? sum ")"]}`. -/
def value : Rule := .select [.number (some c!"num") false 1, .sequence [c '(' 2, w 3, .node c!"sum" (some c!"sum") (some 2) 4, c ')' 5] 6] 7
/-- `[value .w? .r?(["*" .w? value .w?])]`. -/
def product : Rule := .sequence [.node c!"value" none (some 0) 8, w 9,
  .repeat_ (.sequence [.tag ['*'] false true (some c!"times") 10, w 11, .node c!"value" none (some 0) 12, w 13] 14) true 15] 16
/-- `[product .r?([{"+" "-"} .w? product])]`. -/
def sum : Rule := .sequence [.node c!"product" (some c!"product") (some 1) 17,
  .repeat_ (.sequence [.select [.tag ['+'] false true (some c!"plus") 18, .tag ['-'] false true (some c!"minus") 19] 20, w 21,
    .node c!"product" (some c!"product") (some 1) 22] 23) true 24] 25
/-- `[.w? sum]`. -/
def doc : Rule := .sequence [w 26, .node c!"sum" (some c!"sum") (some 2) 27] 28
def syn : Syntax := ⟨[value, product, sum, doc], [c!"value", c!"product", c!"sum", c!"doc"]⟩

end Calc

/-- Sums, products and brackets: every text is parsed by linearly many calls, and is accepted exactly if the rules generate it. -/
theorem C112_calc : (∃ A B, ∀ (text : Str) (toks : List Tok) (ind : Indent),
      ((∃ toks', Parses stdLexer Calc.syn text toks ind (.ok toks')) ∨ ∃ e toks', Parses stdLexer Calc.syn text toks ind (.err e toks')) ∧
      ∀ m d, Costs stdLexer Calc.syn text toks ind m d → m ≤ A * text.length + B) ∧
    ∀ (text : Str) (ind : Indent) (ts : List Tok), Accepts stdLexer Calc.syn text ind ts ↔ GeneratesText stdLexer Calc.syn text ind ts := by
  have hs : SyntaxOk Calc.syn := C26_check_sound (by decide +kernel)
  have ho : 'a' ∉ alphabet stdNums Calc.syn.rules := by decide +kernel
  have h : confirmsAll stdNums Calc.syn.rules (findMarks stdNums Calc.syn.rules 6)
      (findFurther stdNums Calc.syn.rules (findMarks stdNums Calc.syn.rules 6) 4) = true := by decide +kernel
  exact ⟨C112_linear stdLexer_lawful C112_numbers ho (by
    simp only [confirmsAll, Bool.and_eq_true] at h
    exact h.1.1.1) hs, fun text ind ts => C112_grammar stdLexer_lawful C112_numbers ho h hs⟩

/-- `1+` is not generated. -/
example : ¬ ∃ ts, GeneratesText stdLexer Calc.syn c!"1+" Indent.default ts := by
  rintro ⟨ts, h⟩
  have h1 := (C04_ok_iff_meaning stdLexer_lawful (toks := [])).2 ⟨ts, (C112_calc.2 _ _ _).2 h, rfl⟩
  have h3 : (match parse stdLexer 20 Calc.syn c!"1+" [] with | .err _ _ => true | _ => false) = true := by decide +kernel
  split at h3
  · rename_i h2
    cases parses_det h1 ⟨by simp, 20, h2⟩
  · cases h3

/-- The rules of examples/hello_world.rs before they are optimized. -/
def helloPlain : Syntax := ⟨[.sequence [.tag c!"hi" false false none 1001, .whitespace true 1002,
    .select [.tag c!"James" false false (some c!"james") 1003, .tag c!"Peter" false false (some c!"peter") 1004] 1005,
    .tag c!"!" false false none 1006] 1007,
  .node c!"say_hi" none (some 0) 2001], [c!"say_hi", c!"document"]⟩

/-- They may be read as a grammar. -/
theorem C112_hello : Optimizes helloPlain helloSyntax ∧ ∀ (text : Str) (ind : Indent) (ts : List Tok),
    Accepts stdLexer helloPlain text ind ts ↔ GeneratesText stdLexer helloPlain text ind ts := by
  refine ⟨⟨20, by rfl⟩, fun text ind ts => C112_grammar (o := 'a') stdLexer_lawful C112_numbers (by decide +kernel)
    (ms := findMarks stdNums helloPlain.rules 3) (ns := findFurther stdNums helloPlain.rules (findMarks stdNums helloPlain.rules 3) 2)
    (by decide +kernel) (C26_check_sound (by decide +kernel))⟩

/-- The rules of examples/key_value.rs have no marks: both a comment and a pair may begin with whitespace. -/
theorem C112_keyValue (M : Nat → Mark) : ¬ Predictive stdLexer M kvSyntax.rules :=
  C112_refuted (o := 'a') (k := 3) C112_numbers (by decide +kernel) (by decide +kernel) (by decide +kernel) M

/-- Without look ahead it cannot be told which of two `a` is meant. -/
theorem C112_greedy : confirms stdNums Greedy.twice.rules (findMarks stdNums Greedy.twice.rules 2) = true ∧
    ∀ M N I, (∀ i, (M i).idle ≤ I) → ¬ LL1 stdLexer M N Greedy.twice.rules := by
  refine ⟨by decide +kernel, fun M N I hI hU => ?_⟩
  obtain ⟨h1, e, toks', h2⟩ := C111_rejected_generated
  exact (C111_rejects stdLexer_lawful hU hI (C26_check_sound (by decide +kernel))).1 ⟨e, toks', h2⟩ ⟨_, h1⟩

end Verif.Props
