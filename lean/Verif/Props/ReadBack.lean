import Verif.Proofs.ReadBack
import Verif.Props.Predictable
import Verif.Props.Sayable
import Verif.Props.Json
/-
C123: what `json::write` writes, the library reads.
-/
namespace Verif.Props
open Spec

section
variable {L : Lexer}

theorem jsonRules_ok : SyntaxOk JsonRules.syn := C26_check_sound (by decide +kernel)

theorem jsonRules_other : 'z' ∉ alphabet stdNums JsonRules.syn.rules := by decide +kernel

theorem jsonRules_confirmed : confirmsAll stdNums JsonRules.syn.rules (findMarks stdNums JsonRules.syn.rules 8)
    (findFurther stdNums JsonRules.syn.rules (findMarks stdNums JsonRules.syn.rules 8) 6) = true := by decide +kernel

/-- What is written for well-nested data is read by one fixed syntax, as the data of `readBack`. -/
theorem C123_read_back (hL : L.Lawful) (hn : NumbersBegin L stdNums) {fmt : F64 → Str} {data : List Tok}
    (h : WellNested (data.map Tok.data)) (hlen : data.length < 2 ^ 32)
    (hnum : ∀ m x, .f64 m x ∈ data.map Tok.data → NumberBack L fmt x) (ind : Indent) :
    ∃ text ts, writeJson fmt data = .ok text ∧ Parses L JsonRules.syn text [] ind (.ok ts) ∧
      ts.map Tok.data = (data.map Tok.data).flatMap readBack := by
  obtain ⟨text, h1, a, e, h2⟩ := JsonRules.write_gives (E := envOf L JsonRules.syn.rules ind) hL rfl h hlen hnum
  obtain ⟨ts, h2, h3⟩ := h2 0
  rw [List.append_nil] at e
  subst e
  have h4 : GeneratesText L JsonRules.syn text ind ts := ⟨_, rfl, h2⟩
  have h5 := (C112_grammar hL hn jsonRules_other jsonRules_confirmed jsonRules_ok).2 h4
  exact ⟨text, ts, h1, (C04_ok_iff_meaning hL).2 ⟨ts, h5, rfl⟩, h3⟩

/-- The data is determined by what is read. -/
theorem C123_recovered {ds ds' : List MetaData} (h : WellNested ds) (h' : WellNested ds')
    (e : ds.flatMap readBack = ds'.flatMap readBack) : ds = ds' :=
  (JsonRules.readBack_inj h h' (r := []) (r' := []) (by simp) (by simp) (by simpa using e)).1

/-- It is read by linearly many calls. -/
theorem C123_linear (hL : L.Lawful) (hn : NumbersBegin L stdNums) : ∃ A B, ∀ (text : Str) (toks : List Tok) (ind : Indent) (m d : Nat),
    Costs L JsonRules.syn text toks ind m d → m ≤ A * text.length + B := by
  have h := jsonRules_confirmed
  simp only [confirmsAll, Bool.and_eq_true] at h
  obtain ⟨A, B, h⟩ := C112_linear hL hn jsonRules_other h.1.1.1 jsonRules_ok
  exact ⟨A, B, fun text toks ind => (h text toks ind).2⟩

/-- The syntax can be written as a file of rules. -/
theorem C123_file (hL : L.Lawful) (hz : ReadsZero L) :
    ∃ text rs, Says L text rs ∧ SameLanguage L JsonRules.syn (syntaxOf rs) := by
  obtain ⟨text, rs, h1, h2, -⟩ := C83_says (syn := JsonRules.syn) hL hz jsonRules_ok
    (by
      intro q hq
      simp only [JsonRules.syn, List.mem_cons, List.not_mem_nil, or_false] at hq
      rcases hq with rfl | rfl | rfl | rfl <;>
        simp [JsonRules.value, JsonRules.member, JsonRules.members, JsonRules.item, JsonRules.comma, JsonRules.doc, JsonRules.c, JsonRules.w,
          Rule.NoTable, Rule.NoTableL])
    (by
      intro q hq r b opt id ho
      have h : ∀ x, Part JsonRules.syn.rules x → match x with | .separateBy _ _ _ trail _ => trail = true | _ => True := by
        apply eachPart_part
        simp [EachPart, EachPartOf, JsonRules.syn, JsonRules.value, JsonRules.member, JsonRules.members, JsonRules.item, JsonRules.comma,
          JsonRules.doc, JsonRules.c, JsonRules.w]
      cases h _ ⟨q, hq, ho⟩)
    (by decide +kernel)
  exact ⟨text, rs, h1, h2⟩

/-- So there is a file of rules that reads whatever is written. -/
theorem C123_any_file (hL : L.Lawful) (hn : NumbersBegin L stdNums) (hz : ReadsZero L) : ∃ rules rs, Says L rules rs ∧
    ∀ (fmt : F64 → Str) (data : List Tok), WellNested (data.map Tok.data) → data.length < 2 ^ 32 →
      (∀ m x, .f64 m x ∈ data.map Tok.data → NumberBack L fmt x) → ∀ ind, ∃ text ts, writeJson fmt data = .ok text ∧
        Parses L (syntaxOf rs) text [] ind (.ok ts) ∧ ts.map Tok.data = (data.map Tok.data).flatMap readBack := by
  obtain ⟨rules, rs, h1, h2⟩ := C123_file hL hz
  refine ⟨rules, rs, h1, fun fmt data h hlen hnum ind => ?_⟩
  obtain ⟨text, ts, h3, h4, h5⟩ := C123_read_back hL hn h hlen hnum ind
  exact ⟨text, ts, h3, ((h2 ind text []).1 ts).1 h4, h5⟩

/-- Data that a parser returned can be written, read, and told apart. -/
theorem C123_parsed (hL : L.Lawful) (hn : NumbersBegin L stdNums) {fmt : F64 → Str} {syn : Syntax} {s : Str} {data : List Tok} {ind : Indent}
    (h : Parses L syn s [] ind (.ok data)) (hlen : data.length < 2 ^ 32)
    (hnum : ∀ m x, .f64 m x ∈ data.map Tok.data → NumberBack L fmt x) (ind' : Indent) :
    ∃ text ts, writeJson fmt data = .ok text ∧ Parses L JsonRules.syn text [] ind' (.ok ts) ∧
      ∀ data' : List Tok, WellNested (data'.map Tok.data) → (data'.map Tok.data).flatMap readBack = ts.map Tok.data →
        data'.map Tok.data = data.map Tok.data := by
  obtain ⟨ts, e, hw⟩ := C05_data_well_nested h
  rw [List.nil_append] at e
  subst e
  obtain ⟨text, us, h1, h2, h3⟩ := C123_read_back hL hn hw hlen hnum ind'
  exact ⟨text, us, h1, h2, fun data' h' e' => C123_recovered h' hw (e'.trans h3)⟩

end

/-! ### Examples -/

/-- Digits are read before a comma and before a new line. -/
theorem std_numberBack {fmt : F64 → Str} {x : F64} (h0 : fmt x ≠ []) (h : ∀ y ∈ fmt x, Std.isDigit y = true)
    (hv : (stdLexer.parseNum false (fmt x) (fmt x).length).toOption = some x) : NumberBack stdLexer fmt x := by
  intro c rest hc
  replace hv : stdLexer.parseNum false (fmt x) (fmt x).length = .ok x := by
    cases e : stdLexer.parseNum false (fmt x) (fmt x).length <;> rw [e] at hv <;> cases hv
    rfl
  generalize fmt x = s at *
  cases s with
  | nil => exact absurd rfl h0
  | cons y s =>
    have hy := h y (by simp)
    have h1 : Std.numSign (y :: s ++ c :: rest) = 0 := by
      have := digit_ne hy (x := '-') (by decide)
      simp only [Std.numSign, List.cons_append]
      split
      · rename_i e
        cases e
        exact absurd rfl this
      · rfl
    have h2 : Std.digits false (y :: s ++ c :: rest) = (y :: s).length :=
      takeWhile_digits h (by rcases hc with rfl | rfl <;> decide)
    have h3 : Std.numFrac false (c :: rest) = 0 ∧ Std.numExp (c :: rest) = 0 := by
      rcases hc with rfl | rfl <;> exact ⟨rfl, rfl⟩
    constructor
    · show Std.num false _ = _
      simp only [Std.num, h1, List.drop_zero, h2, Nat.zero_add, List.drop_left, h3.1, h3.2, Nat.add_zero]
      simp [hy]
    · rw [← hv]
      show Std.parseNum false _ _ = Std.parseNum false _ _
      simp [Std.parseNum]

/-- The data of C33. -/
example : ∃ text ts, writeJson (fun _ => ['1']) exJson = .ok text ∧ Parses stdLexer JsonRules.syn text [] Indent.default (.ok ts) ∧
    ts.map Tok.data = [.startNode c!"member", .string c!"name" c!"pos",
      .startNode c!"member", .string c!"name" c!"x", .f64 c!"num" ⟨0x3FF0000000000000⟩, .endNode c!"member",
      .startNode c!"member", .string c!"name" c!"a\"", .string c!"text" c!"\n", .endNode c!"member", .endNode c!"member",
      .startNode c!"member", .string c!"name" c!"none", .endNode c!"member",
      .startNode c!"member", .string c!"name" c!"b", .bool c!"bool" true, .endNode c!"member"] :=
  C123_read_back stdLexer_lawful C112_numbers exJson_nested (by decide) (by
    intro m x hx
    simp [exJson] at hx
    rw [hx.2]
    exact std_numberBack (by decide) (by decide) (by decide +kernel)) _

/-- A comma that is missing. -/
theorem C123_rejects : ∃ e toks, Parses stdLexer JsonRules.syn c!"\"a\":1\n\"b\":true\n" [] Indent.default (.err e toks) := by
  have h3 : (match parse stdLexer 20 JsonRules.syn c!"\"a\":1\n\"b\":true\n" [] with | .err _ _ => true | _ => false) = true := by decide +kernel
  split at h3
  · rename_i e toks h2
    exact ⟨e, toks, by simp, 20, h2⟩
  · cases h3

end Verif.Props
