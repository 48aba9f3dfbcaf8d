import Verif.Proofs.ConvertDepthRules
import Verif.Props.FileSize
/-
C99: how deep `convert` calls itself.
-/
namespace Verif.Props
open Spec

/-- C99: what `convert` returns within a depth is what it returns. -/
theorem C99_same {d : Nat} {data : List Tok} {ignored ignored' : List Range} {r : Option Syntax}
    (h : ConvertsWithin d data ignored r ignored') : Converts data ignored r ignored' := by
  obtain ⟨n, h⟩ := h
  exact ⟨n + d, by rw [convert_of_to (by rw [h]; simp), h]⟩

/-- C99: and within any larger depth. -/
theorem C99_larger {d d' : Nat} (hd : d ≤ d') {data : List Tok} {ignored ignored' : List Range} {r : Option Syntax}
    (h : ConvertsWithin d data ignored r ignored') : ConvertsWithin d' data ignored r ignored' := by
  obtain ⟨n, h⟩ := h
  exact ⟨n, by rw [convertTo_mono hd (by rw [h]; simp), h]⟩

/-- C99: on well nested data the calls of `read_rule` are at most one deeper than the nodes with rules. -/
theorem C99_data {e : Nat} {data : List Tok} (hd : RulesTo e data) {ignored ignored' : List Range} {r : Option Syntax}
    (h : Converts data ignored r ignored') : ConvertsWithin (e + 1) data ignored r ignored' := by
  obtain ⟨n, h⟩ := h
  exact ⟨n, by rw [convertTo_eq (Nat.lt_succ_self e) hd (by rw [h]; simp), h]⟩

/-- C99: they are at least as deep as the rules that are returned. -/
theorem C99_rules {d : Nat} {data : List Tok} {ignored ignored' : List Range} {syn : Syntax}
    (h : ConvertsWithin d data ignored (some syn) ignored') {r : Rule} (hr : r ∈ syn.rules) : ruleDepth r ≤ d := by
  obtain ⟨n, h⟩ := h
  exact convertTo_depth h hr

/-- C99: on the data of a document they are at most as deep as the rules it describes. -/
theorem C99_doc {doc : Doc} {data : List Tok} (hd : data.map (·.data) = doc.data) {ignored ignored' : List Range}
    {r : Option Syntax} (h : Converts data ignored r ignored') : ConvertsWithin (max 1 doc.depth) data ignored r ignored' := by
  have h1 := C99_data (dataTo_doc (doc := doc) (e := max 1 doc.depth - 1) (by omega) data hd) h
  rwa [Nat.sub_add_cancel (by omega)] at h1

/-- C99: if all names of strings are defined they are at least as deep. -/
theorem C99_defined {doc : Doc} {rs : List (Str × Rule × Nat)} (hn : Doc.nodesOf doc.strings doc.nodes = some rs)
    (ho : ¬ doc.Overflows) {data : List Tok} (hd : data.map (·.data) = doc.data) {ignored ignored' : List Range} {d : Nat}
    {r : Option Syntax} (h : ConvertsWithin d data ignored r ignored') : doc.depth ≤ d := by
  obtain ⟨l, -, hc⟩ := C40_undefined_dropped ho hd ignored
  rw [Doc.read_rule hn] at hc
  obtain ⟨rfl, -⟩ := C37_one_outcome.1 _ _ _ _ (C99_same h) hc
  have : ruleDepthL (syntaxOf (rs.map fun x => (x.1, x.2.1))).rules ≤ d := ruleDepthL_le.2 fun r hr => C99_rules h hr
  rw [Doc.depth, ← depth_nodesOf hn]
  rw [ruleDepthL_le] at this ⊢
  intro r hr
  obtain ⟨x, hx, rfl⟩ := List.mem_map.1 hr
  have h1 := this (x.2.1.updateRefs ((rs.map fun x => (x.1, x.2.1)).map (·.1)))
    (List.mem_map.2 ⟨(x.1, x.2.1), List.mem_map.2 ⟨x, hx, rfl⟩, rfl⟩)
  rwa [depth_updateRefs] at h1

/-- C99: so they are exactly as deep as the deepest rule. -/
theorem C99_exact {doc : Doc} {rs : List (Str × Rule × Nat)} (hn : Doc.nodesOf doc.strings doc.nodes = some rs)
    (ho : ¬ doc.Overflows) {data : List Tok} (hd : data.map (·.data) = doc.data) (ignored : List Range) {d : Nat} (h0 : 0 < d) :
    (∃ r ignored', ConvertsWithin d data ignored r ignored') ↔ doc.depth ≤ d := by
  constructor
  · rintro ⟨r, ignored', h⟩
    exact C99_defined hn ho hd h
  · intro h
    obtain ⟨l, -, hc⟩ := C40_undefined_dropped ho hd ignored
    exact ⟨_, _, C99_larger (by omega) (C99_doc hd hc)⟩

variable {L : Lexer}

/-- C99: on what a rule file means they are at most as deep as the file is long, less five. -/
theorem C99_file (hL : L.Lawful) (hX : L.Exact) {text : Str} {data : List Tok}
    (h : Parses L bootstrapRules text [] Indent.default (.ok data)) {ignored ignored' : List Range} {r : Option Syntax}
    (hc : Converts data ignored r ignored') : ConvertsWithin (max 1 (text.length - 5)) data ignored r ignored' := by
  obtain ⟨doc, h1, h2⟩ := parses_text hL hX h
  refine C99_larger ?_ (C99_doc h2 hc)
  have h3 : data.length = doc.data.length := by rw [← h2, List.length_map]
  have h4 := depth_doc doc
  rcases C97_bound hL hX h with rfl | h5
  · rw [List.length_nil] at h3; omega
  · omega

theorem asks_rule (strings : List (Str × Str)) (k i : Nat) :
    ∃ r, Desc.rule strings (Nat.rec (.reference c!"b" none) (fun _ d => .optional d) k) i = some (r, i + k + 1) := by
  induction k with
  | zero => exact ⟨_, rfl⟩
  | succ k ih =>
    obtain ⟨r, h⟩ := ih
    exact ⟨.optional r (i + k + 1 + 1), by simp only [Desc.rule, h, Nat.add_assoc]⟩

theorem asks_depth (k : Nat) : (asksDoc k).depth = k + 1 := by
  simp only [asksDoc, Doc.depth, List.map_cons, List.map_nil, Desc.depthL, Nat.max_zero]
  induction k with
  | zero => rfl
  | succ k ih => simp only [Desc.depth, ih]

/-- C99: for the rule files `0 a =?...?b` this is exact. -/
theorem C99_sharp (hL : L.Lawful) (hX : L.Exact) (hz : ReadsZero L) (k : Nat) (hk : k + 1 < 2 ^ 64) :
    ∃ data, Parses L bootstrapRules (asksFile k) [] Indent.default (.ok data) ∧ ∀ ignored d,
      (∃ r ignored', ConvertsWithin d data ignored r ignored') ↔ (asksFile k).length - 5 ≤ d := by
  obtain ⟨data, h1, h2⟩ := text_writes hL (exact_noSlash hX) (asks_text hz k)
  refine ⟨data, h1, fun ignored d => ?_⟩
  obtain ⟨r, hr⟩ := asks_rule [] k 0
  have hu : (⟨0⟩ : F64).toUsize = 0 := by decide +kernel
  have hn : Doc.nodesOf (asksDoc k).strings (asksDoc k).nodes = some [(c!"a", r, 0 + k + 1)] := by
    simp only [asksDoc, Doc.nodesOf, hu, Nat.zero_mul, hr]
  have ho : ¬ (asksDoc k).Overflows := by
    simp only [Doc.Overflows, asksDoc, Doc.Overflow, hu, Nat.zero_mul, Desc.read_rule _ hr]
    rintro (h | ⟨-, h⟩)
    · omega
    · exact h
  have hl : (asksFile k).length - 5 = k + 1 := by simp [asksFile]
  rw [hl, ← asks_depth]
  constructor
  · rintro ⟨r, ignored', h⟩
    exact C99_defined hn ho h2 h
  · intro h
    exact (C99_exact hn ho h2 ignored (by rw [asks_depth] at h; omega)).2 h

/-- `convert` reads the rule file of `0 a =??b` with three calls of `read_rule` one inside the other, not with two. -/
example : ∃ data, Parses stdLexer bootstrapRules c!"0 a =??b" [] Indent.default (.ok data) ∧
    (∃ r ignored, ConvertsWithin 3 data [] r ignored) ∧ ¬ ∃ r ignored, ConvertsWithin 2 data [] r ignored := by
  obtain ⟨data, h1, h2⟩ := C99_sharp stdLexer_lawful stdLexer_exact std_readsZero 2 (by omega)
  exact ⟨data, h1, (h2 _ _).2 (by decide), fun h => absurd ((h2 _ _).1 h) (by decide)⟩

end Verif.Props
