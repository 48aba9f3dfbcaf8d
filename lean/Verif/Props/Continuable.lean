import Verif.Proofs.ContinuableFind
import Verif.Props.Boundary
/-
C120: whether the text before an error can be continued can be computed from the rules.
-/
namespace Verif.Props
open Spec

section
variable {L : Lexer} {K K' : Char → Prop} {M : Nat → Mark} {B : Nat → Char → Prop}

mutual
theorem afterOf_weaken (h : ∀ c, K c → K' c) (c : Char) : ∀ r : Rule, afterOf L K' M B r c → afterOf L K M B r c
  | .whitespace _ _, hc => by unfold afterOf at hc ⊢; exact hc
  | .tag _ _ _ _ _, hc => by unfold afterOf at hc ⊢; exact hc
  | .untilAny _ _ _ _, hc => by unfold afterOf at hc ⊢; exact hc
  | .untilAnyOrWs _ _ _ _, hc => by unfold afterOf at hc ⊢; exact hc
  | .text _ _ _, hc => by unfold afterOf at hc ⊢; exact hc
  | .number _ _ _, hc => by unfold afterOf at hc ⊢; exact fun hk => hc (h c hk)
  | .node _ _ none _, hc => by unfold afterOf at hc ⊢; exact hc
  | .node _ _ (some _) _, hc => by unfold afterOf at hc ⊢; exact hc
  | .select rs _, hc => by unfold afterOf at hc ⊢; exact afterSelect_weaken h c rs hc
  | .fastSelect _ _ _ _, hc => by unfold afterOf at hc ⊢; exact hc
  | .sequence rs _, hc => by unfold afterOf at hc ⊢; exact afterSequence_weaken h c rs hc
  | .separateBy r b _ _ _, hc => by
    unfold afterOf at hc ⊢
    exact hc.imp (afterOf_weaken h c r) fun ⟨h1, h2⟩ => ⟨h1, afterOf_weaken h c b h2⟩
  | .repeat_ r _ _, hc => by unfold afterOf at hc ⊢; exact afterOf_weaken h c r hc
  | .lines _ _ _, hc => by unfold afterOf at hc ⊢; exact hc
  | .optional r _, hc => by unfold afterOf at hc ⊢; exact afterOf_weaken h c r hc
  | .not _ _, hc => by unfold afterOf at hc ⊢; exact hc
theorem afterSequence_weaken (h : ∀ c, K c → K' c) (c : Char) : ∀ rs : List Rule, afterSequence L K' M B rs c → afterSequence L K M B rs c
  | [], hc => by unfold afterSequence at hc ⊢; exact hc
  | r :: rs, hc => by
    unfold afterSequence at hc ⊢
    exact hc.imp (afterSequence_weaken h c rs) fun ⟨h1, h2⟩ => ⟨h1, afterOf_weaken h c r h2⟩
theorem afterSelect_weaken (h : ∀ c, K c → K' c) (c : Char) : ∀ rs : List Rule, afterSelect L K' M B rs c → afterSelect L K M B rs c
  | [], hc => by unfold afterSelect at hc ⊢; exact hc
  | r :: rs, hc => by
    unfold afterSelect at hc ⊢
    exact hc.imp (afterOf_weaken h c r) (afterSelect_weaken h c rs)
end

theorem setApartSequence_weaken (h : ∀ c, K c → K' c) : ∀ {rs : List Rule}, SetApartSequence L K M B rs → SetApartSequence L K' M B rs
  | [], _ => trivial
  | r :: _, ha => ⟨fun c hc => ha.1 c ⟨afterOf_weaken h c r hc.1, hc.2⟩, setApartSequence_weaken h ha.2⟩

theorem continues_weaken (h : ∀ c, K c → K' c) (hn : ∀ us, NumbersEnd L K' us) {refs : List Rule} (hC : Continues L K M B refs) :
    Continues L K' M B refs where
  apart x hx := by
    have ha := hC.apart x hx
    cases x with
    | sequence rs id => exact setApartSequence_weaken h ha
    | separateBy r b opt trail id =>
      exact ⟨fun c hc => ha.1 c ⟨afterOf_weaken h c r hc.1, hc.2⟩, fun c hc => ha.2 c ⟨afterOf_weaken h c b hc.1, hc.2⟩⟩
    | repeat_ r opt id => exact fun c hc => ha c ⟨afterOf_weaken h c r hc.1, hc.2⟩
    | number prop us id => exact hn us
    | tag t neg inv prop id => exact ha
    | not r id => exact ha
    | _ => trivial
  after i q hq c hc := hC.after i q hq c (afterOf_weaken h c q hc)

end

section
variable {L : Lexer} {nums : Bool → List Char} {ends : List Char} {syn : Syntax} {o : Char}

/-- What the checks confirm meets the conditions of C118. -/
theorem C120_sound (hL : L.Lawful) (hX : L.Exact) (hn : NumbersBegin L nums) (hS : NumbersStop L ends) (ho : o ∉ alphabet nums syn.rules)
    {ms : List Found} {ns gs : List (List (Option Char))} {k : Nat} (h : confirmsAll nums syn.rules ms ns = true)
    (h' : confirmsContinues nums ends syn.rules ms gs k = true) (ind : Indent) :
    ∃ M N B I, (∀ i, (M i).idle ≤ I) ∧ LL1 L M N syn.rules ∧ Continues L (fun c => c ∉ ends) M B syn.rules ∧
      Productive L syn.rules ind := by
  obtain ⟨I, hI⟩ := foundAt_idle ms
  obtain ⟨h1, h2⟩ := confirmsAll_lengths h
  have hU := (confirmsAll_iff hn ho h1 h2).1 h
  have hC := continues_of_check hn hS ho h'
  refine ⟨_, _, _, I, hI, hU, continues_weaken (fun c => keyEnds_ends) (fun us => (hS us).1) hC, ?_⟩
  simp only [confirmsContinues, Bool.and_eq_true, everyPartOf_iff] at h'
  exact fun x hx => someText_yields (E := envOf L syn.rules ind) hL hX hU hI hC hS ho
    (findTexts_yields (E := envOf L syn.rules ind) hL hX hU hI hC hS ho k) x hx (h'.2 x hx)

/-- So the text before the error is the beginning of a text that is accepted. -/
theorem C120_viable (hL : L.Lawful) (hX : L.Exact) (hn : NumbersBegin L nums) (hS : NumbersStop L ends) (ho : o ∉ alphabet nums syn.rules)
    {ms : List Found} {ns gs : List (List (Option Char))} {k : Nat} (h : confirmsAll nums syn.rules ms ns = true)
    (h' : confirmsContinues nums ends syn.rules ms gs k = true) (hs : SyntaxOk syn) (hne : syn.rules ≠ [])
    {text : Str} {toks toks' : List Tok} {ind : Indent} {e : RErr} (he : Parses L syn text toks ind (.err e toks')) (hns : ¬ InString e.err) :
    ∃ rest ts, Parses L syn (text.take e.range.offset ++ rest) toks ind (.ok (toks ++ ts)) := by
  obtain ⟨M, N, B, I, hI, hU, hC, hP⟩ := C120_sound hL hX hn hS ho h h' ind
  exact C118_viable hL hX hU hI hC hs hne hP he hns

/-- The checks miss nothing: they confirm some marks exactly if the conditions of C118 are met by some. -/
theorem C120_exact (hL : L.Lawful) (hX : L.Exact) (hn : NumbersBegin L nums) (hS : NumbersStop L ends) (ho : o ∉ alphabet nums syn.rules)
    (ind : Indent) :
    (∃ M N B I, (∀ i, (M i).idle ≤ I) ∧ LL1 L M N syn.rules ∧ Continues L (fun c => c ∉ ends) M B syn.rules ∧
      Productive L syn.rules ind) ↔
    ∃ k j l, ∃ t ≤ syn.rules.length,
      confirmsAll nums syn.rules (findMarks nums syn.rules k) (findFurther nums syn.rules (findMarks nums syn.rules k) j) = true ∧
      confirmsContinues nums ends syn.rules (findMarks nums syn.rules k)
        (findBeyond nums ends syn.rules (findMarks nums syn.rules k) l) t = true := by
  constructor
  · rintro ⟨M, N, B, I, hI, hU, hC, hP⟩
    obtain ⟨k, -, hk⟩ := C112_found hn ho hI hU.toPredictive
    obtain ⟨j, -, hj⟩ := findFurther_stops (L := L) hn ho (findMarks nums syn.rules k)
    have hM := stepMark_least hn hU.covers k
    obtain ⟨l, -, hl⟩ := findBeyond_stops (ends := ends) (ms := findMarks nums syn.rules k) ho
    obtain ⟨t, ht, hT⟩ := findTexts_stops (refs := syn.rules)
    refine ⟨k, j, l, t, ht, (confirmsAll_iff hn ho (findMarks_length k) (findFurther_length _ j)).2
      ⟨(confirms_iff hn ho (findMarks_length k)).1 hk, fun x hx =>
        oneWay_mono hM (stepMore_least hn hM hU.more j) (hU.oneWay x hx), hj⟩, ?_⟩
    simp only [confirmsContinues, Bool.and_eq_true, everyPartOf_iff, findBeyond_length, beq_self_eq_true, true_and]
    refine ⟨⟨?_, fun x hx => ?_⟩, fun x hx => ?_⟩
    · rw [zip_all (findBeyond_length l)]
      intro i g q hg hq
      refine (hasKeys_iff ho).2 fun c hc => ?_
      have := hl i q hq c hc
      rwa [furtherAt, hg] at this
    · exact free_of alphabet_separated hn hM (beyondAt_least hn hM hC.after l) ho (charsOf_part hx) (hC.apart x hx)
    · obtain ⟨y, ts, hy⟩ := hP x hx
      exact generates_someText (E := envOf L syn.rules ind) hC.apart hT hy hx
  · rintro ⟨k, j, l, t, -, h, h'⟩
    exact C120_sound hL hX hn hS ho h h' ind

end

/-- Characters that may belong to a number. -/
def stdEnds : List Char := c!"0123456789_.eE"

theorem C120_numbers : NumbersStop stdLexer stdEnds := by
  intro us
  refine ⟨?_, ['1'], 1, _, by cases us <;> rfl, by cases us <;> rfl⟩
  intro s n hn t ht
  refine C118_numbers us s n hn t ?_
  rcases ht with rfl | ⟨c, t', rfl, hc⟩
  · exact .inl rfl
  · refine .inr ⟨c, t', rfl, ?_⟩
    simp only [stdEnds, List.mem_cons, List.not_mem_nil, or_false, not_or] at hc
    refine ⟨?_, by simp [hc], by simp [hc], by simp [hc], by simp [hc]⟩
    cases hd : Std.isDigit c with
    | false => rfl
    | true =>
      simp only [Std.isDigit, Bool.and_eq_true, decide_eq_true_eq] at hd
      have hof : ∀ d : Char, c ≠ d → c.toNat ≠ d.toNat := fun d h h' => h (by rw [← Char.ofNat_toNat c, h', Char.ofNat_toNat])
      have h0 := hof '0' (by simp [hc]); have h1 := hof '1' (by simp [hc]); have h2 := hof '2' (by simp [hc])
      have h3 := hof '3' (by simp [hc]); have h4 := hof '4' (by simp [hc]); have h5 := hof '5' (by simp [hc])
      have h6 := hof '6' (by simp [hc]); have h7 := hof '7' (by simp [hc]); have h8 := hof '8' (by simp [hc])
      have h9 := hof '9' (by simp [hc])
      simp only [Char.reduceToNat] at h0 h1 h2 h3 h4 h5 h6 h7 h8 h9
      omega

/-- The check confirms what was shown by hand for sums. -/
theorem C120_calc : confirmsAll stdNums Calc.syn.rules (findMarks stdNums Calc.syn.rules 6)
      (findFurther stdNums Calc.syn.rules (findMarks stdNums Calc.syn.rules 6) 4) = true ∧
    confirmsContinues stdNums stdEnds Calc.syn.rules (findMarks stdNums Calc.syn.rules 6)
      (findBeyond stdNums stdEnds Calc.syn.rules (findMarks stdNums Calc.syn.rules 6) 4) 3 = true := by
  constructor <;> decide +kernel

/-- What stands before an error in the text of examples/hello_world.rs can be continued. -/
theorem C120_hello {text : Str} {toks toks' : List Tok} {ind : Indent} {e : RErr}
    (h : Parses stdLexer helloPlain text toks ind (.err e toks')) :
    ∃ rest ts, Parses stdLexer helloPlain (text.take e.range.offset ++ rest) toks ind (.ok (toks ++ ts)) := by
  refine C120_viable (o := 'a') (nums := stdNums) (ends := stdEnds) (ms := findMarks stdNums helloPlain.rules 3)
    (ns := findFurther stdNums helloPlain.rules (findMarks stdNums helloPlain.rules 3) 2)
    (gs := findBeyond stdNums stdEnds helloPlain.rules (findMarks stdNums helloPlain.rules 3) 2) (k := 2)
    stdLexer_lawful stdLexer_exact C112_numbers C120_numbers (by decide +kernel) (by decide +kernel) (by decide +kernel)
    (C26_check_sound (by decide +kernel)) (by simp [helloPlain]) h (no_text_error stdLexer_lawful ?_ h)
  apply eachPart_part
  simp [EachPart, EachPartOf, helloPlain]

/-- After `hi J` there is a way to go on. -/
example : ∃ rest ts, Parses stdLexer helloPlain (c!"hi " ++ rest) [] Indent.default (.ok ts) := by
  have h0 : (match parseWithIndent stdLexer 40 helloPlain c!"hi Jim!" [] Indent.default with
      | .err e _ => e.range.offset == 3 | _ => false) = true := by decide +kernel
  split at h0
  · rename_i e toks' h
    obtain ⟨rest, ts, h1⟩ := C120_hello (toks := []) (text := c!"hi Jim!") ⟨by simp, 40, h⟩
    rw [show e.range.offset = 3 by simpa using h0] at h1
    exact ⟨rest, _, h1⟩
  · cases h0

/-- Whitespace after whitespace is found out, however many steps are made. -/
theorem C120_lost (k j l t : Nat) :
    ¬ (confirmsAll stdNums Lost.syn.rules (findMarks stdNums Lost.syn.rules k)
        (findFurther stdNums Lost.syn.rules (findMarks stdNums Lost.syn.rules k) j) = true ∧
      confirmsContinues stdNums stdEnds Lost.syn.rules (findMarks stdNums Lost.syn.rules k)
        (findBeyond stdNums stdEnds Lost.syn.rules (findMarks stdNums Lost.syn.rules k) l) t = true) := by
  rintro ⟨h, h'⟩
  obtain ⟨-, -, ⟨toks', h1⟩, h2⟩ := C118_needed stdLexer Indent.default
  obtain ⟨rest, ts, h3⟩ := C120_viable (o := 'z') stdLexer_lawful stdLexer_exact C112_numbers C120_numbers (by decide +kernel) h h'
    (C26_check_sound (by decide +kernel)) (by simp [Lost.syn]) h1 id
  obtain ⟨us, h4, -⟩ := (C04_ok_iff_meaning stdLexer_lawful).1 h3
  exact h2 rest us h4

end Verif.Props
