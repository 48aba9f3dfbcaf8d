import Verif.Proofs.DataOf
import Verif.Props.DataNames
/-
C130: exactly which data texts have, said without texts.
-/
namespace Verif.Props
open Spec

section
variable {L : Lexer} {syn : Syntax} {ind : Indent} {M : Nat → Mark} {N A : Nat → Char → Prop} {K : Char → Prop} {I : Nat}

/-- Where the next character decides and nothing may begin with what would have been read before it, the data of the texts that are accepted is
exactly the data that the rules allow. -/
theorem C130_data (hL : L.Lawful) (hX : L.Exact) (hE : EmptyQuotes L) (hU : LL1 L M N syn.rules) (hI : ∀ i, (M i).idle ≤ I)
    (hC : Continues L K M A syn.rules) (hs : SyntaxOk syn) {ds : List MetaData} :
    (∃ text ts, Accepts L syn text ind ts ∧ ts.map (·.data) = ds) ↔ ∃ r, syn.rules.getLast? = some r ∧ DataOf L syn.rules (.rule r) ds := by
  constructor
  · rintro ⟨text, ts, h, rfl⟩
    obtain ⟨r, hr, h1⟩ := (C126_composes hL hX hU hI hC hs).1 h
    exact ⟨r, hr, composes_data hE h1 (outright_of hU hC) ⟨r, List.mem_of_getLast? hr, .refl⟩⟩
  · rintro ⟨r, hr, h⟩
    obtain ⟨y, h1⟩ := data_composes (ind := ind) hL h
    obtain ⟨ts, h2, h3⟩ := h1 0
    exact ⟨y, ts, (C126_composes hL hX hU hI hC hs).2 ⟨r, hr, h2⟩, h3⟩

/-- The same for what a rule reads alone. -/
theorem C130_alone (hL : L.Lawful) (hX : L.Exact) (hE : EmptyQuotes L) (hU : LL1 L M N syn.rules) (hI : ∀ i, (M i).idle ≤ I)
    (hC : Continues L K M A syn.rules) (hs : SyntaxOk syn) {q : Rule} (hq : Part syn.rules q) {ds : List MetaData} :
    (∃ y, ReadsAlone (envOf L syn.rules ind) q y ds) ↔ DataOf L syn.rules (.rule q) ds := by
  constructor
  · rintro ⟨y, h⟩
    obtain ⟨ts, h1, rfl⟩ := (C126_alone hL hX hU hI hC hs hq 0).1 h
    exact composes_data hE h1 (outright_of hU hC) hq
  · intro h
    obtain ⟨y, h1⟩ := data_composes (ind := ind) hL h
    exact ⟨y, (C126_alone hL hX hU hI hC hs hq 0).2 (h1 0)⟩

variable {nums : Bool → List Char} {ends : List Char} {o : Char}

/-- The conditions can be computed. -/
theorem C130_checked (hL : L.Lawful) (hX : L.Exact) (hE : EmptyQuotes L) (hn : NumbersBegin L nums) (hS : NumbersStop L ends)
    (ho : o ∉ alphabet nums syn.rules) {ms : List Found} {ns gs : List (List (Option Char))} (h : confirmsAll nums syn.rules ms ns = true)
    (h' : confirmsApart nums ends syn.rules ms gs = true) (hs : SyntaxOk syn) {r : Rule} (hr : syn.rules.getLast? = some r) {ds : List MetaData} :
    (∃ text ts, Accepts L syn text ind ts ∧ ts.map (·.data) = ds) ↔ DataOf L syn.rules (.rule r) ds := by
  obtain ⟨M, N, A, K, I, hU, hI, hC⟩ := C126_checked hL hX hn hS ho h h'
  rw [C130_data hL hX hE hU hI hC hs]
  exact ⟨fun ⟨q, hq, h⟩ => by cases hr.symm.trans hq; exact h, fun h => ⟨r, hr, h⟩⟩

end

/-! ### Examples -/

/-- Brackets without end have no data. -/
theorem named_a {L : Lexer} {g : Goal} {ds : List MetaData} (h : DataOf L Named.syn.rules g ds) :
    g ≠ .rule Named.a ∧ g ≠ .seq [.tag ['('] false false none 1, .node c!"a" (some c!"deep") (some 0) 2, .tag [')'] false false none 3] ∧
      g ≠ .seq [.node c!"a" (some c!"deep") (some 0) 2, .tag [')'] false false none 3] ∧ ∀ name prop id, g ≠ .rule (.node name prop (some 0) id) := by
  induction h with
  | sequence h ih =>
    refine ⟨fun he => ?_, by simp, by simp, by simp⟩
    simp only [Named.a, Goal.rule.injEq, Rule.sequence.injEq] at he
    exact ih.2.1 (by rw [he.1])
  | seq_cons h h' ih ih' =>
    refine ⟨by simp [Named.a], fun he => ?_, fun he => ?_, by simp⟩
    · simp only [Goal.seq.injEq, List.cons.injEq] at he
      exact ih'.2.2.1 (by rw [he.2])
    · simp only [Goal.seq.injEq, List.cons.injEq] at he
      exact ih.2.2.2 _ _ _ (by rw [he.1])
  | node hr h ih =>
    refine ⟨by simp [Named.a], by simp, by simp, fun name prop id he => ?_⟩
    simp only [Goal.rule.injEq, Rule.node.injEq, Option.some.injEq] at he
    obtain ⟨-, -, rfl, -⟩ := he
    cases hr
    exact ih.1 rfl
  | _ => simp [Named.a]

/-- All data of the syntax `a = ["(" a:"deep" ")"] b = [.$:"num" ?"%":"percent"] {a:"a" b:"b" ["x":"x" a]}`. -/
theorem C130_named {ind : Indent} {ds : List MetaData} : (∃ text ts, Accepts stdLexer Named.syn text ind ts ∧ ts.map (·.data) = ds) ↔
    ∃ v, NumberValue stdLexer false v ∧ (ds = [.startNode c!"b", .f64 c!"num" v, .endNode c!"b"] ∨
      ds = [.startNode c!"b", .f64 c!"num" v, .bool c!"percent" true, .endNode c!"b"]) := by
  rw [C130_checked (syn := Named.syn) (nums := stdNums) (ends := stdEnds) (o := 'z') stdLexer_lawful stdLexer_exact std_emptyQuotes C112_numbers C120_numbers
    (by decide +kernel) (ms := findMarks stdNums Named.syn.rules 6) (ns := findFurther stdNums Named.syn.rules (findMarks stdNums Named.syn.rules 6) 6)
    (gs := findBeyond stdNums stdEnds Named.syn.rules (findMarks stdNums Named.syn.rules 6) 6) (by decide +kernel) (by decide +kernel)
    (C26_check_sound (by decide +kernel)) (r := Named.doc) rfl]
  constructor
  · intro h
    cases h with
    | select hr h =>
      simp only [List.mem_cons, List.not_mem_nil, or_false] at hr
      rcases hr with rfl | rfl | rfl
      · exact ((named_a h).2.2.2 _ _ _ rfl).elim
      · cases h with
        | node hq h =>
          cases hq
          cases h with
          | sequence h =>
            cases h with
            | seq_cons h h' =>
              cases h with
              | number hv =>
                cases h' with
                | seq_cons h h' =>
                  cases h'
                  cases h with
                  | optional_none => exact ⟨_, hv, .inl rfl⟩
                  | optional_some h => cases h; exact ⟨_, hv, .inr rfl⟩
      · cases h with
        | sequence h =>
          cases h with
          | seq_cons _ h =>
            cases h with
            | seq_cons h _ => exact ((named_a h).2.2.2 _ _ _ rfl).elim
  · rintro ⟨v, hv, rfl | rfl⟩
    · exact .select (r := .node c!"b" (some c!"b") (some 1) 10) (by simp) (.node (q := Named.b) rfl
        (.sequence (.seq_cons (.number hv) (.seq_cons .optional_none .seq_nil))))
    · exact .select (r := .node c!"b" (some c!"b") (some 1) 10) (by simp) (.node (q := Named.b) rfl
        (.sequence (.seq_cons (.number hv) (.seq_cons (.optional_some .tag) .seq_nil))))

namespace Labels

/-- `.s?(", " {[.t!:"label" ":" .t?:"text"] ["#" ..."\n,":"mark"]})`. -/
def doc : Rule := .separateBy (.select [.sequence [.text false (some c!"label") 1, .tag [':'] false false none 2, .text true (some c!"text") 3] 4,
  .sequence [.tag ['#'] false false none 5, .untilAny ['\n', ','] false (some c!"mark") 6] 7] 8) (.tag c!", " false false none 9) true false 10
def syn : Syntax := ⟨[doc], [c!"doc"]⟩

/-- An entry. -/
inductive Entry : List MetaData → Prop
  | label {s t : Str} (h : s ≠ []) : Entry [.string c!"label" s, .string c!"text" t]
  | mark {s : Str} (h : s ≠ []) (h1 : '\n' ∉ s) (h2 : ',' ∉ s) : Entry [.string c!"mark" s]

end Labels

theorem labels_entry {L : Lexer} {refs : List Rule} {ds : List MetaData} :
    DataOf L refs (.rule (.select [.sequence [.text false (some c!"label") 1, .tag [':'] false false none 2, .text true (some c!"text") 3] 4,
      .sequence [.tag ['#'] false false none 5, .untilAny ['\n', ','] false (some c!"mark") 6] 7] 8)) ds ↔ Labels.Entry ds := by
  constructor
  · intro h
    cases h with
    | select hr h =>
      simp only [List.mem_cons, List.not_mem_nil, or_false] at hr
      rcases hr with rfl | rfl
      · cases h with
        | sequence h =>
          cases h with
          | seq_cons h h' =>
            cases h with
            | text h0 =>
              cases h' with
              | seq_cons h h' =>
                cases h
                cases h' with
                | seq_cons h h' =>
                  cases h'
                  cases h
                  exact .label fun he => by simpa using h0 he
      · cases h with
        | sequence h =>
          cases h with
          | seq_cons h h' =>
            cases h
            cases h' with
            | seq_cons h h' =>
              cases h'
              cases h with
              | untilAny h h0 => exact .mark (fun he => by simpa using h0 he) (fun hc => h _ hc (by simp)) fun hc => h _ hc (by simp)
  · intro h
    cases h with
    | label h =>
      exact .select (List.mem_cons_self ..) (.sequence (.seq_cons (.text fun he => (h he).elim) (.seq_cons .tag (.seq_cons (.text fun _ => rfl) .seq_nil))))
    | mark h h1 h2 =>
      refine .select (List.mem_cons_of_mem _ (List.mem_cons_self ..)) (.sequence (.seq_cons .tag (.seq_cons (.untilAny (fun c hc hm => ?_) fun he => (h he).elim) .seq_nil)))
      simp only [List.mem_cons, List.not_mem_nil, or_false] at hm
      rcases hm with rfl | rfl
      · exact h1 hc
      · exact h2 hc

theorem labels_tail {L : Lexer} {g : Goal} {ds : List MetaData} (h : DataOf L Labels.syn.rules g ds) :
    ∀ r b t, g = .sepTail r b t → r = .select [.sequence [.text false (some c!"label") 1, .tag [':'] false false none 2, .text true (some c!"text") 3] 4,
      .sequence [.tag ['#'] false false none 5, .untilAny ['\n', ','] false (some c!"mark") 6] 7] 8 → b = .tag c!", " false false none 9 →
      ∃ es : List (List MetaData), ds = es.flatten ∧ ∀ e ∈ es, Labels.Entry e := by
  induction h with
  | tail_nil => exact fun _ _ _ _ _ _ => ⟨[], rfl, by simp⟩
  | tail_trail h =>
    rintro _ _ _ ⟨⟩ rfl rfl
    cases h
    exact ⟨[], rfl, by simp⟩
  | tail_cons h h' h'' _ _ ih =>
    rintro _ _ _ ⟨⟩ rfl rfl
    cases h
    obtain ⟨es, rfl, he⟩ := ih _ _ _ rfl rfl rfl
    refine ⟨_ :: es, rfl, fun e hm => ?_⟩
    rcases List.mem_cons.1 hm with rfl | hm
    · exact labels_entry.1 h'
    · exact he e hm
  | _ => exact fun _ _ _ he => by cases he

/-- All data of the syntax `.s?(", " {[.t!:"label" ":" .t?:"text"] ["#" ..."\n,":"mark"]})`: all lists of entries. -/
theorem C130_labels {ind : Indent} {ds : List MetaData} : (∃ text ts, Accepts stdLexer Labels.syn text ind ts ∧ ts.map (·.data) = ds) ↔
    ∃ es : List (List MetaData), ds = es.flatten ∧ ∀ e ∈ es, Labels.Entry e := by
  rw [C130_checked (syn := Labels.syn) (nums := stdNums) (ends := stdEnds) (o := 'z') stdLexer_lawful stdLexer_exact std_emptyQuotes C112_numbers C120_numbers
    (by decide +kernel) (ms := findMarks stdNums Labels.syn.rules 6) (ns := findFurther stdNums Labels.syn.rules (findMarks stdNums Labels.syn.rules 6) 6)
    (gs := findBeyond stdNums stdEnds Labels.syn.rules (findMarks stdNums Labels.syn.rules 6) 6) (by decide +kernel) (by decide +kernel)
    (C26_check_sound (by decide +kernel)) (r := Labels.doc) rfl]
  constructor
  · intro h
    cases h with
    | sep_none => exact ⟨[], rfl, by simp⟩
    | sep_some h h' =>
      obtain ⟨es, rfl, he⟩ := labels_tail h' _ _ _ rfl rfl rfl
      refine ⟨_ :: es, rfl, fun e hm => ?_⟩
      rcases List.mem_cons.1 hm with rfl | hm
      · exact labels_entry.1 h
      · exact he e hm
  · rintro ⟨es, rfl, he⟩
    cases es with
    | nil => exact .sep_none
    | cons d es =>
      refine .sep_some (labels_entry.2 (he d (by simp))) ?_
      have he' : ∀ e ∈ es, Labels.Entry e := fun e hm => he e (by simp [hm])
      clear he
      induction es with
      | nil => exact .tail_nil
      | cons f es ih =>
        exact .tail_cons (cs := []) .tag (labels_entry.2 (he' f (by simp))) (ih fun e hm => he' e (by simp [hm]))

/-- Such a text. -/
example : (match parse stdLexer 40 Labels.syn c!"#a b, \"x\":\"\", #c" [] with
    | .ok ts => ts.map (·.data) == [.string c!"mark" c!"a b", .string c!"label" c!"x", .string c!"text" [], .string c!"mark" c!"c"]
    | _ => false) = true := by decide +kernel

/-- In general the rules allow data that no text has. -/
theorem C130_not_all {L : Lexer} {ind : Indent} : DataOf L GreedyNamed.syn.rules (.rule GreedyNamed.doc) [.bool ['x'] true] ∧
    ¬ ∃ text ts, Accepts L GreedyNamed.syn text ind ts ∧ ts.map (·.data) = [.bool ['x'] true] := by
  refine ⟨.sequence (.seq_cons (ds := []) (.untilAny (s := []) (by simp) fun _ => rfl) (.seq_cons (es := []) .tag .seq_nil)), ?_⟩
  rintro ⟨text, ts, h, hd⟩
  refine (C128_not_all (L := L) (ind := ind)).2 ⟨text, ts, h, ?_⟩
  cases ts with
  | nil => cases hd
  | cons t ts =>
    simp only [List.map_cons, List.cons.injEq] at hd
    exact ⟨t, by simp, by rw [hd.1]; rfl⟩

end Verif.Props
