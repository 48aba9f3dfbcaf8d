import Verif.Proofs.Json
import Verif.Props.Parse
import Verif.Props.Rules
/-
`json`: C32 - C34.
-/
namespace Verif.Props
open Spec Spec.Json

/-! ### C32 -/

/-- A JSON reader gives back the string that was written, and nothing else. -/
theorem C32_read_back (s : Str) :
    IsString false (writeString s) s ∧ ∀ strict v, IsString strict (writeString s) v → v = s := by
  have h := strTail_escape (strict := false) s [] (by simp)
  refine ⟨⟨_, rfl, h⟩, ?_⟩
  rintro strict v ⟨i, e, hv⟩
  simp only [writeString, List.cons.injEq, true_and] at e
  subst e
  exact (h.det hv).1.symm

/-- Different strings are written differently. -/
theorem C32_injective {s t : Str} (h : writeString s = writeString t) : s = t :=
  (C32_read_back t).2 false s (h ▸ (C32_read_back s).1)

/-- The text is strict JSON exactly when the string has no control character but newline, carriage
return and tab; its value is the string. -/
theorem C32_strict_iff (s : Str) : IsString true (writeString s) s ↔ Plain s := by
  constructor
  · rintro ⟨i, e, hv⟩
    simp only [writeString, List.cons.injEq, true_and] at e
    subst e
    exact plain_of_strTail s hv
  · intro h
    exact ⟨_, rfl, strTail_escape s [] (fun _ => h)⟩

/-- How many backslashes the text ends with. -/
def slashes (a : Str) : Nat := (a.reverse.takeWhile (· == '\\')).length

private theorem slashes_snoc (a : Str) (c : Char) :
    slashes (a ++ [c]) = if c = '\\' then slashes a + 1 else 0 := by
  simp only [slashes, List.reverse_append, List.reverse_singleton, List.singleton_append, List.takeWhile_cons]
  by_cases h : c = '\\' <;> simp [h]

private theorem quotes_aux (s : Str) : ∀ pre a b : Str, slashes pre % 2 = 0 →
    s.flatMap escapeChar = a ++ '"' :: b → slashes (pre ++ a) % 2 = 1 := by
  induction s with
  | nil => intro pre a b _ h; simp at h
  | cons c s ih =>
    intro pre a b hp h
    rw [List.flatMap_cons] at h
    have two : ∀ e : Char, escapeChar c = ['\\', e] → slashes (pre ++ a) % 2 = 1 := by
      intro e he
      rw [he] at h
      match a, h with
      | [], h => simp at h
      | [x], h =>
        simp at h
        obtain ⟨rfl, _⟩ := h
        rw [slashes_snoc]
        simp
        omega
      | x :: y :: a, h =>
        simp at h
        obtain ⟨rfl, rfl, h⟩ := h
        have := ih (pre ++ ['\\', e]) a b ?_ h
        · simpa using this
        · have e1 : pre ++ ['\\', e] = (pre ++ ['\\']) ++ [e] := by simp
          rw [e1, slashes_snoc, slashes_snoc]
          by_cases h : e = '\\' <;> simp [h] <;> omega
    by_cases h1 : c = '\\'
    · exact two '\\' (by simp [h1, escapeChar])
    by_cases h2 : c = '"'
    · exact two '"' (by simp [h2, escapeChar])
    by_cases h3 : c = '\n'
    · exact two 'n' (by simp [h3, escapeChar])
    by_cases h4 : c = '\r'
    · exact two 'r' (by simp [h4, escapeChar])
    by_cases h5 : c = '\t'
    · exact two 't' (by simp [h5, escapeChar])
    have e : escapeChar c = [c] := by simp [escapeChar, h1, h2, h3, h4, h5]
    rw [e] at h
    cases a with
    | nil => simp at h; exact absurd h.1 h2
    | cons x a =>
      simp at h
      obtain ⟨rfl, h⟩ := h
      have := ih (pre ++ [c]) a b (by rw [slashes_snoc]; simp [h1]) h
      simpa using this

/-- The text starts and ends with a quote; every quote between them comes after an odd number of
backslashes. -/
theorem C32_quotes (s : Str) : ∃ m, writeString s = '"' :: (m ++ ['"']) ∧
    ∀ a b, m = a ++ '"' :: b → slashes a % 2 = 1 := by
  refine ⟨s.flatMap escapeChar, rfl, fun a b h => ?_⟩
  simpa using quotes_aux s [] a b rfl h

/-- The character U+0001 is not escaped, so the text is not strict JSON. -/
theorem C32_control_character :
    writeString [Char.ofNat 1] = ['"', Char.ofNat 1, '"'] ∧ ¬ ∃ v, IsString true (writeString [Char.ofNat 1]) v := by
  refine ⟨by decide, ?_⟩
  rintro ⟨v, h⟩
  have := (C32_read_back _).2 _ _ h
  subst this
  have := (C32_strict_iff _).1 h (Char.ofNat 1) (by simp)
  revert this
  decide

example : writeString c!"a\"\\\n" = c!"\"a\\\"\\\\\\n\"" := by decide
example : Plain c!"a\"\\\n" := by unfold Plain; decide
-- a string written as `\u0001` is read, so the reader is not at fault
example : IsString true c!"\"\\u0001\"" [Char.ofNat 1] :=
  ⟨_, rfl, .unicode (n := 1) (by decide) (by omega) .done⟩
-- a bare quote ends the string, so it cannot be inside of one
example : ¬ ∃ v, IsString false c!"\"a\"b\"" v := by
  rintro ⟨v, i, e, h⟩
  simp at e
  subst e
  cases h with
  | plain _ _ _ h =>
    cases h with
    | plain h => exact absurd rfl h

/-! ### C33 -/

/-- The data between braces is JSON; its value has the members of the data, in order. -/
theorem C33_json_object {fmt : F64 → Str} {rd : Str → F64} (hL : LawfulFmt fmt rd) {data : List Tok}
    (h : WellNested (data.map (·.data))) (hlen : data.length < 2 ^ 32)
    (hfin : FiniteNumbers (data.map (·.data))) :
    ∃ text ms, writeJson fmt data = .ok text ∧ Tree (data.map (·.data)) ms ∧
      IsJson false rd ('{' :: text ++ ['}']) (.obj ms) ∧
      ((∀ d ∈ data.map (·.data), ∀ s ∈ strings d, Plain s) →
        IsJson true rd ('{' :: text ++ ['}']) (.obj ms)) := by
  obtain ⟨ms, ht⟩ := wellNested_tree h
  obtain ⟨t, e, hj⟩ := writeJson_tree (strict := false) hL ht hlen hfin (by simp)
  refine ⟨t, ms, e, ht, hj, fun hp => ?_⟩
  obtain ⟨t', e', hj'⟩ := writeJson_tree (strict := true) hL ht hlen hfin (fun _ => hp)
  rw [e] at e'
  cases e'
  exact hj'

/-- A text is JSON for one value only. -/
theorem C33_one_value {strict strict' : Bool} {rd : Str → F64} {text : Str} {v w : Json}
    (h : IsJson strict rd text v) (h' : IsJson strict' rd text w) : v = w := by
  obtain ⟨r, h, _⟩ := h
  obtain ⟨r', h', _⟩ := h'
  exact (h.det h' rfl).1

/-- The data can be recovered from the text. -/
theorem C33_injective {fmt : F64 → Str} {rd : Str → F64} (hL : LawfulFmt fmt rd) {d₁ d₂ : List Tok} {t : Str}
    (h₁ : WellNested (d₁.map (·.data))) (h₂ : WellNested (d₂.map (·.data)))
    (l₁ : d₁.length < 2 ^ 32) (l₂ : d₂.length < 2 ^ 32)
    (f₁ : FiniteNumbers (d₁.map (·.data))) (f₂ : FiniteNumbers (d₂.map (·.data)))
    (e₁ : writeJson fmt d₁ = .ok t) (e₂ : writeJson fmt d₂ = .ok t) :
    d₁.map (·.data) = d₂.map (·.data) := by
  obtain ⟨t₁, m₁, a₁, b₁, c₁, _⟩ := C33_json_object hL h₁ l₁ f₁
  obtain ⟨t₂, m₂, a₂, b₂, c₂, _⟩ := C33_json_object hL h₂ l₂ f₂
  rw [e₁] at a₁
  rw [e₂] at a₂
  cases a₁
  cases a₂
  have := C33_one_value c₁ c₂
  simp at this
  subst this
  exact b₁.inj b₂

/-- A number printed as `NaN` does not give JSON. -/
theorem C33_nan_is_not_json {fmt : F64 → Str} {rd : Str → F64} {x : F64} (hx : fmt x = c!"NaN") (r : Range) :
    ∃ text, writeJson fmt [⟨r, .f64 c!"x" x⟩] = .ok text ∧
      ¬ ∃ v, IsJson false rd ('{' :: text ++ ['}']) v := by
  refine ⟨c!"\"x\":NaN\n", ?_, ?_⟩
  · simp [writeJson, writeLoop, MetaData.isEnd, MetaData.isStart, writeItem, writeString, escapeChar, hx]
  · rintro ⟨v, r, h, _⟩
    have e : skipWs ('{' :: c!"\"x\":NaN\n" ++ ['}']) = c!"{\"x\":NaN\n}" := by decide
    rw [e] at h
    have nov : ∀ v r, ¬ Value false rd c!"NaN\n}" v r := by
      intro v r h
      generalize hi : c!"NaN\n}" = i at h
      cases h with
      | num hn =>
        obtain ⟨c, t, rfl, hc⟩ := hn.head
        simp at hi
        rw [← hi.1] at hc
        revert hc
        decide
      | _ => simp at hi
    have nom : ∀ ms r, ¬ Members false rd c!"\"x\":NaN\n}" ms r := by
      intro ms r h
      have key : ∀ i₁ k i₂ i₃ v i₄, skipWs c!"\"x\":NaN\n}" = '"' :: i₁ → StrTail false i₁ k i₂ →
          skipWs i₂ = ':' :: i₃ → ¬ Value false rd (skipWs i₃) v i₄ := by
        intro i₁ k i₂ i₃ v i₄ h₁ h₂ h₃ h₄
        have : skipWs c!"\"x\":NaN\n}" = c!"\"x\":NaN\n}" := by decide
        rw [this] at h₁
        simp at h₁
        subst h₁
        have h₂' : StrTail false c!"x\":NaN\n}" c!"x" c!":NaN\n}" := .plain (by decide) (by decide) (by simp) .done
        obtain ⟨rfl, rfl⟩ := h₂'.det h₂
        have : skipWs c!":NaN\n}" = c!":NaN\n}" := by decide
        rw [this] at h₃
        simp at h₃
        subst h₃
        have : skipWs c!"NaN\n}" = c!"NaN\n}" := by decide
        rw [this] at h₄
        exact nov _ _ h₄
      cases h with
      | last h₁ h₂ h₃ h₄ => exact key _ _ _ _ _ _ h₁ h₂ h₃ h₄
      | more h₁ h₂ h₃ h₄ => exact key _ _ _ _ _ _ h₁ h₂ h₃ h₄
    generalize hi : c!"{\"x\":NaN\n}" = i at h
    cases h with
    | empty h =>
      simp at hi
      subst hi
      simp [skipWs, Spec.Json.isWs] at h
    | obj h =>
      simp at hi
      subst hi
      exact nom _ _ h
    | num hn =>
      obtain ⟨c, t, rfl, hc⟩ := hn.head
      simp at hi
      rw [← hi.1] at hc
      revert hc
      decide
    | _ => simp at hi

/-! A way to print and read numbers that meets the contract: the bits. -/

def bitsFmt (x : F64) : Str := '1' :: (List.range 64).map fun i => if x.bits.getLsbD i then '1' else '0'

theorem bitsFmt_inj {x y : F64} (h : bitsFmt x = bitsFmt y) : x = y := by
  obtain ⟨x⟩ := x
  obtain ⟨y⟩ := y
  congr 1
  apply BitVec.eq_of_getLsbD_eq
  intro i hi
  have := congrArg (·[i + 1]?) h
  simp [bitsFmt, hi] at this
  cases hx : x.getLsbD i <;> cases hy : y.getLsbD i <;> simp_all

open Classical in
noncomputable def bitsRd (s : Str) : F64 := if h : ∃ x, bitsFmt x = s then h.choose else ⟨0⟩

theorem bits_lawful : LawfulFmt bitsFmt bitsRd where
  number x _ := by
    refine ⟨[], bitsFmt x, [], [], by simp, .inl rfl, ⟨by simp [bitsFmt], ?_⟩, .inr (by simp [bitsFmt]), .inl rfl, .inl rfl⟩
    intro c hc
    simp [bitsFmt] at hc
    rcases hc with rfl | ⟨i, _, rfl⟩
    · decide
    · split <;> decide
  back x _ := by
    have h : ∃ y, bitsFmt y = bitsFmt x := ⟨x, rfl⟩
    rw [bitsRd, dif_pos h]
    exact bitsFmt_inj h.choose_spec

def exJson : List Tok :=
  [⟨⟨0, 0⟩, .startNode c!"pos"⟩, ⟨⟨0, 1⟩, .f64 c!"x" ⟨0x3FF0000000000000⟩⟩, ⟨⟨1, 1⟩, .string c!"a\"" c!"\n"⟩,
    ⟨⟨0, 2⟩, .endNode c!"pos"⟩, ⟨⟨2, 0⟩, .startNode c!"none"⟩, ⟨⟨2, 0⟩, .endNode c!"none"⟩,
    ⟨⟨2, 1⟩, .bool c!"b" true⟩]

theorem exJson_nested : WellNested (exJson.map (·.data)) :=
  .node (body := [.f64 c!"x" ⟨0x3FF0000000000000⟩, .string c!"a\"" c!"\n"])
    (.value (by simp [IsNode]) (.value (by simp [IsNode]) .nil))
    (.node (body := []) .nil (.value (by simp [IsNode]) .nil))

example : writeJson (fun _ => ['1']) exJson =
    .ok c!"\"pos\":{\n \"x\":1,\n \"a\\\"\":\"\\n\"\n},\n\"none\":{\n},\n\"b\":true\n" := by decide

example : ∃ text, writeJson bitsFmt exJson = .ok text ∧
    IsJson true bitsRd ('{' :: text ++ ['}']) (.obj [(c!"pos", .obj [(c!"x", .num ⟨0x3FF0000000000000⟩),
      (c!"a\"", .str c!"\n")]), (c!"none", .obj []), (c!"b", .bool true)]) := by
  obtain ⟨t, ms, e, ht, _, h⟩ := C33_json_object bits_lawful exJson_nested (by decide) (by
    intro n x hx
    simp [exJson] at hx
    rw [hx.2]; decide)
  have ht' : Tree (exJson.map (·.data)) [(c!"pos", .obj [(c!"x", .num ⟨0x3FF0000000000000⟩),
      (c!"a\"", .str c!"\n")]), (c!"none", .obj []), (c!"b", .bool true)] :=
    .node (body := [.f64 c!"x" ⟨0x3FF0000000000000⟩, .string c!"a\"" c!"\n"]) (.f64 (.string .nil))
      (.node (body := []) .nil (.bool .nil))
  have hp : ∀ d ∈ exJson.map (·.data), ∀ s ∈ strings d, Plain s := by unfold Plain; decide
  obtain ⟨t', e', h'⟩ := writeJson_tree (strict := true) bits_lawful ht' (by decide) (by
    intro n x hx
    simp [exJson] at hx
    rw [hx.2]; decide) (fun _ => hp)
  exact ⟨t', e', h'⟩

/-! ### C34 -/

/-- `write` panics exactly when some beginning of the data closes more nodes than it opens plus the
imbalance of the whole. -/
theorem C34_panics_iff (fmt : F64 → Str) {data : List Tok} (hlen : data.length < 2 ^ 31) :
    (writeJson fmt data = .panic ↔ ∃ a, a <+: data ∧ depth a + (depth data).natAbs < 0) ∧
    writeJson fmt data ≠ .timeout := by
  rcases writeJson_total fmt data hlen with ⟨h, a, ha, hl⟩ | ⟨⟨t, h⟩, hl⟩
  · exact ⟨⟨fun _ => ⟨a, ha, hl⟩, fun _ => h⟩, by simp [h]⟩
  · refine ⟨⟨fun h' => by simp [h] at h', ?_⟩, by simp [h]⟩
    rintro ⟨a, ha, hl'⟩
    have := hl a ha
    omega

/-- How many nodes are opened or closed, as a `u32`. -/
def count32 (p : MetaData → Bool) (data : List Tok) : Nat := (data.countP fun t => p t.data) % 2 ^ 32

/-- Data of any length: `write` counts modulo `2 ^ 32` what is opened and what is closed, and begins with
the difference as indentation. It panics exactly when the indentation becomes negative or `2 ^ 32` somewhere. -/
theorem C34_panics_iff_any (fmt : F64 → Str) (data : List Tok) :
    (writeJson fmt data = .panic ↔ ∃ a, a <+: data ∧
      let indent := ((count32 (·.isStart) data : Int) - count32 (·.isEnd) data).natAbs + depth a
      indent < 0 ∨ 2 ^ 32 ≤ indent) ∧
    writeJson fmt data ≠ .timeout := by
  have hc : ∀ p, (data.map (·.data)).countP p % 2 ^ 32 = count32 p data := by
    intro p
    rw [List.countP_map]
    rfl
  have hs : count32 (·.isStart) data < 2 ^ 32 := Nat.mod_lt _ (by decide)
  have he : count32 (·.isEnd) data < 2 ^ 32 := Nat.mod_lt _ (by decide)
  have e : writeJson fmt data = writeLoop fmt (data.map (·.data)) false true
      ((count32 (·.isStart) data : Int) - count32 (·.isEnd) data).natAbs := by
    simp only [writeJson, hc]
    congr 1
    omega
  rw [e]
  have hb : ∀ {a : List MetaData}, a <+: data.map (·.data) → ∃ x, x <+: data ∧ bal a = depth x := by
    rintro a ⟨b, hb⟩
    obtain ⟨x, y, rfl, rfl, rfl⟩ := List.map_eq_append_iff.1 hb.symm
    exact ⟨x, List.prefix_append _ _, bal_eq x⟩
  rcases writeLoop_any fmt (data.map (·.data)) false true
    ((count32 (·.isStart) data : Int) - count32 (·.isEnd) data).natAbs (by omega) with ⟨h, a, ha, hl⟩ | ⟨⟨t, h⟩, hl⟩
  · refine ⟨⟨fun _ => ?_, fun _ => h⟩, by simp [h]⟩
    obtain ⟨x, hx, e⟩ := hb ha
    exact ⟨x, hx, by rw [e] at hl; exact hl⟩
  · refine ⟨⟨fun h' => (by rw [h] at h'; cases h'), ?_⟩, by simp [h]⟩
    rintro ⟨a, ⟨b, rfl⟩, hl'⟩
    have := hl (a.map (·.data)) (by simp)
    rw [bal_eq] at this
    exact absurd hl' this

/-- Data that opens `2 ^ 32` nodes, one inside of the other: `write` counts none and begins without
indentation, and there is none for the last. -/
example (fmt : F64 → Str) (r : Range) :
    writeJson fmt (List.replicate (2 ^ 32) ⟨r, .startNode c!"a"⟩) = .panic := by
  refine (C34_panics_iff_any fmt _).1.2 ⟨_, List.prefix_rfl, .inr ?_⟩
  have h : ∀ n, depth (List.replicate n (⟨r, .startNode c!"a"⟩ : Tok)) = n := by
    intro n
    induction n with
    | zero => rfl
    | succ n ih => rw [List.replicate_succ, depth, ih]; simp; omega
  rw [h]
  omega

/-- The data of a successful parse is written. -/
theorem C34_parsed_data {L : Lexer} {syn text ind data} (h : Parses L syn text [] ind (.ok data))
    (fmt : F64 → Str) (hlen : data.length < 2 ^ 31) : ∃ t, writeJson fmt data = .ok t := by
  obtain ⟨ts, e, hw⟩ := C05_data_well_nested h
  simp at e
  subst e
  rcases writeJson_total fmt data hlen with ⟨_, a, ⟨b, rfl⟩, hl⟩ | ⟨h, _⟩
  · have hi := items_iff.2 hw
    have := hi.depth_prefix a b rfl
    omega
  · exact h

/-- Closing a node before opening one panics, although the data is balanced. -/
theorem C34_underflow (fmt : F64 → Str) (r : Range) :
    writeJson fmt [⟨r, .endNode c!"a"⟩, ⟨r, .startNode c!"a"⟩] = .panic := rfl

example : ∃ t, writeJson (fun _ => ['1']) exData = .ok t := C34_parsed_data
  (syn := exSyntax) (text := c!"(ab,a,)") (ind := .default) (L := stdLexer)
  ⟨by simp, 20, by decide +kernel⟩ _ (by decide)
-- one node too many closed at the end is balanced by the initial indentation
example : writeJson (fun _ => ['1']) [⟨⟨0, 0⟩, .bool c!"a" true⟩, ⟨⟨0, 0⟩, .endNode c!"n"⟩] =
    .ok c!" \"a\":true\n}\n" := by decide
example : depth [⟨⟨0, 0⟩, .endNode c!"n"⟩] + (depth [⟨⟨0, 0⟩, .endNode c!"n"⟩, ⟨⟨0, 0⟩, .startNode c!"n"⟩]).natAbs < 0 := by
  decide

/-! ### C19 -/

/-- The piece of a quoted string that stands for the character. -/
def itemOf (c : Char) : StrItem :=
  if h : c ≠ '"' ∧ c ≠ '\\' ∧ c ≠ '\n' ∧ c ≠ '\r' ∧ c ≠ '\t' then .plain c h
  else if c = '"' then .quote else if c = '\\' then .backslash else if c = '\n' then .newline
  else if c = '\r' then .ret else .tab

theorem itemOf_text (c : Char) : (itemOf c).text = escapeChar c ∧ (itemOf c).char = c := by
  unfold itemOf escapeChar
  by_cases h1 : c = '"'
  · subst h1; decide
  by_cases h2 : c = '\\'
  · subst h2; decide
  by_cases h3 : c = '\n'
  · subst h3; decide
  by_cases h4 : c = '\r'
  · subst h4; decide
  by_cases h5 : c = '\t'
  · subst h5; decide
  simp [h1, h2, h3, h4, h5, StrItem.text, StrItem.char]

/-- Writing a string as JSON and reading it with `.t?` gives the string, whatever follows; `.t!`
also does unless the string is empty. -/
theorem C19_round_trip {L : Lexer} (hL : L.Lawful) {refs : List Rule} {empty : Bool} {id : DebugId}
    {ind : Indent} {off : Nat} (s rest name : Str) (hne : s = [] → empty = true) :
    Matches L refs (.text empty (some name) id) ⟨writeString s ++ rest, off⟩ ind (writeString s).length
      [⟨⟨off, (writeString s).length⟩, .string name s⟩] ind := by
  have h1 : (s.map itemOf).flatMap StrItem.text = s.flatMap escapeChar := by
    rw [List.flatMap_map]
    exact congrArg (fun f => s.flatMap f) (funext fun c => (itemOf_text c).1)
  have h2 : (s.map itemOf).map StrItem.char = s := by
    rw [List.map_map]
    conv => rhs; rw [← List.map_id s]
    exact congrArg (fun f => s.map f) (funext fun c => (itemOf_text c).2)
  have := C19_text_reads_quoted (refs := refs) hL (empty := empty) (prop := some name) (id := id) (ind := ind)
    (off := off) (s.map itemOf) rest (by simpa using hne)
  rw [h1, h2] at this
  simpa [writeString] using this

example : Matches stdLexer [] (.text true (some c!"x") 1) ⟨writeString c!"a\n\"b" ++ c!"; c", 3⟩ Indent.default 8
    [⟨⟨3, 8⟩, .string c!"x" c!"a\n\"b"⟩] Indent.default :=
  C19_round_trip stdLexer_lawful c!"a\n\"b" c!"; c" c!"x" (by simp)

end Verif.Props
