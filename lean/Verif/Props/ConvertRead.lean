import Verif.Proofs.ConvertSim
import Verif.Proofs.DescAll
import Verif.Spec.Convert
import Verif.Props.Convert
/-
What `convert` reads: C38, C39, C40, C41.
-/
namespace Verif.Props
open Verif Verif.Spec Verif.Convert

/-! ### C38 -/

/-- The ranges of the data do not matter to `convert`. -/
theorem C38_ranges_do_not_matter {data data' : List Tok} (h : data.map (·.data) = data'.map (·.data))
    (ignored : List Range) :
    (∀ r i, Converts data ignored r i ↔ Converts data' ignored r i) ∧
    (ConvertPanics data ignored ↔ ConvertPanics data' ignored) ∧
    (ConvertRuns data ignored ↔ ConvertRuns data' ignored) := by
  simp [Converts, ConvertPanics, ConvertRuns, fun n => convert_same h n ignored]

/-- The syntax that stands for named rules: references point to the first rule of their name. -/
def syntaxOf (rs : List (Str × Rule)) : Syntax :=
  ⟨rs.map fun x => Rule.updateRefs (rs.map (·.1)) x.2, rs.map (·.1)⟩

theorem syntaxOf_eq (rs : List (Str × Rule)) :
    (rs.foldl (fun s x => s.push x.1 x.2) Syntax.new).updateRefs = syntaxOf rs := by
  rw [foldl_push]
  simp [Syntax.new, Syntax.updateRefs, syntaxOf, Function.comp_def]

/-- Meta data of the documented shape is read as the rules it stands for, and nothing is ignored. -/
theorem C38_reads_document {doc : Doc} {rs : List (Str × Rule × Nat)}
    (h : Doc.nodesOf doc.strings doc.nodes = some rs) (hi : ∀ x ∈ rs, x.2.2 < 2 ^ 64)
    {data : List Tok} (hd : data.map (·.data) = doc.data) (ignored : List Range) :
    Converts data ignored (some (syntaxOf (rs.map fun x => (x.1, x.2.1)))) ignored := by
  obtain ⟨n, h', -⟩ := convert_doc hd ignored
  obtain ⟨l, hl, e⟩ := h' fun ho => by
    obtain ⟨x, hx, ho⟩ := ho.exists
    obtain ⟨j, hj⟩ := List.getElem?_of_mem hx
    rcases Doc.nodesOf_get h j with ⟨e, _⟩ | ⟨k', name', d', r, i, e₁, e₂, e₃⟩
    · rw [hj] at e; cases e
    · rw [hj] at e₁
      cases e₁
      rw [Desc.read_rule _ e₃] at ho
      have := hi _ (List.mem_of_getElem? e₂)
      simp only at ho this
      omega
  rw [Doc.read_rule h] at e hl
  cases l with
  | nil => exact ⟨n, by rw [e, List.append_nil]; simp [syntaxOf_eq]⟩
  | cons => simp at hl

/-- Every list of named rules can be written as meta data that is read back as these rules, except
for their ids. -/
theorem C38_every_syntax (rules : List (Str × Rule)) (ht : ∀ x ∈ rules, Rule.NoTable x.2)
    (hn : ∀ x ∈ rules, (Rule.ids x.2).length + 1 < 2 ^ 64) :
    ∃ data : List MetaData, ∀ toks : List Tok, toks.map (·.data) = data → ∀ ignored, ∃ syn,
      Converts toks ignored (some syn) ignored ∧ syn.names = rules.map (·.1) ∧
      syn.rules.map Rule.anon = rules.map fun x => Rule.anon x.2 := by
  obtain ⟨ns, rs, h₁, h₂, h₃, h₄⟩ := exists_doc rules ht hn
  refine ⟨Doc.data ⟨[], ns⟩, fun toks hd ignored => ⟨_, C38_reads_document (doc := ⟨[], ns⟩) h₁
    (fun x hx => Nat.lt_of_succ_lt (h₂ x hx)) hd ignored, ?_, ?_⟩⟩
  · simpa [syntaxOf, Function.comp_def] using h₃
  · simpa [syntaxOf, Function.comp_def, anon_updateRefs] using h₄

/-- `_x: "y"`, `3 a = [.w! {_x:"p" @"b"}]`, `4 b = .l+(?..number)`. -/
def exDoc : Doc :=
  ⟨[(c!"x", c!"y")],
   [(⟨0x4008000000000000⟩, c!"a", .sequence [.whitespace false,
      .select [.tag none (.ref c!"x") none (some (.value c!"p")), .reference c!"b" none]]),
    (⟨0x4010000000000000⟩, c!"b", .lines (some true) (.optional (.number none none)))]⟩

def exDocSyntax : Syntax :=
  ⟨[.sequence [.whitespace false 3001, .select [.tag c!"y" false false (some c!"p") 3002,
      .node c!"b" none (some 1) 3003] 3004] 3005,
    .lines (.optional (.number none false 4001) 4002) true 4003], [c!"a", c!"b"]⟩

example (ignored : List Range) :
    Converts (exDoc.data.map fun d => ⟨⟨0, 0⟩, d⟩) ignored (some exDocSyntax) ignored := by
  have h : (exDoc.data.map fun d => (⟨⟨0, 0⟩, d⟩ : Tok)).map (·.data) = exDoc.data := by
    simp [Function.comp_def]
  exact C38_reads_document (doc := exDoc) (rs := [(c!"a", _, 3005), (c!"b", _, 4003)]) rfl
    (by simp) h ignored

/-! ### C39 -/

/-- In a document the ids of a node numbered `k` are `1000 k + 1`, `1000 k + 2`, ... -/
theorem C39_document_ids {doc : Doc} {rs : List (Str × Rule × Nat)}
    (h : Doc.nodesOf doc.strings doc.nodes = some rs) {j : Nat} {k : F64} {name : Str} {d : Desc}
    (hj : doc.nodes[j]? = some (k, name, d)) : ∃ r i, rs[j]? = some (name, r, i) ∧
      Rule.ids r = List.range' (1000 * k.toUsize + 1) (Rule.ids r).length ∧
      i = 1000 * k.toUsize + (Rule.ids r).length := by
  rcases Doc.nodesOf_get h j with ⟨e, _⟩ | ⟨k', name', d', r, i, e₁, e₂, e₃⟩
  · rw [hj] at e; cases e
  · rw [hj] at e₁
    cases e₁
    have h₁ := Desc.ids _ e₃
    have h₂ := Desc.rule_lt _ e₃
    have h₃ : (Rule.ids r).length = i - k.toUsize * 1000 := by rw [h₁]; simp
    refine ⟨r, i, e₂, ?_, by omega⟩
    rw [h₃, Nat.mul_comm 1000, ← h₁]

/-- For all data: what `convert` returns has different ids in every rule, and they lie after 1000
times a number in the data. -/
theorem C39_ids_of_node {data : List Tok} (hw : WellNested (data.map (·.data)))
    (hl : data.length < 2 ^ 64) (hf : NumbersFit data.length data) {ignored ignored' : List Range}
    {syn : Syntax} (h : Converts data ignored (some syn) ignored') :
    ∀ r ∈ syn.rules, NodeIds data.length data r := by
  obtain ⟨r, st', e, hr⟩ := convertM_ids (items_iff.2 hw) hl hf ⟨0, ignored⟩
  have h' : Converts data ignored r st'.ignored := ⟨data.length + 1, by simp [convert, e]⟩
  obtain ⟨rfl, _⟩ := C37_one_outcome.1 _ _ _ _ h h'
  exact hr syn rfl

/-- Dividing by 1000 gives the number of the node if the data has fewer than 1000 items. -/
theorem C39_number_from_id {data : List Tok} (hw : WellNested (data.map (·.data)))
    (hl : data.length < 1000) (hf : NumbersFit data.length data) {ignored ignored' : List Range}
    {syn : Syntax} (h : Converts data ignored (some syn) ignored') {r : Rule} (hr : r ∈ syn.rules) :
    ∃ k, (k = 0 ∨ ∃ t ∈ data, ∃ v, t.data = .f64 c!"id" v ∧ k = v.toUsize) ∧
      ∀ id ∈ Rule.ids r, id / 1000 = k := by
  obtain ⟨k, hk, _, h⟩ := C39_ids_of_node hw (by omega) hf h r hr
  refine ⟨k, hk, fun id hid => ?_⟩
  have := h id hid
  omega

example : Rule.ids exDocSyntax.rules[0] = [3001, 3002, 3003, 3004, 3005] := rfl
example : exDocSyntax.rules.map Rule.ids = [[3001, 3002, 3003, 3004, 3005], [4001, 4002, 4003]] := rfl

/-- The value of a number that is not negative, in units of `2 ^ -1075`. -/
def scaledValue (v : F64) : Nat :=
  if v.expo = 0 then v.mant * 2 else (2 ^ 52 + v.mant) * 2 ^ v.expo

/-- The number a node is given, taken as a natural number: the fraction is cut off, what is not a
number or negative is 0, and what is too large is the largest `usize`. -/
theorem C39_number_of_node (v : F64) :
    (v.isNaN = true ∨ v.neg = true → v.toUsize = 0) ∧
    (v.neg = false → v.isInf = true → v.toUsize = 2 ^ 64 - 1) ∧
    (v.neg = false → v.isFinite = true → (2 ^ 64 - 1) * 2 ^ 1075 ≤ scaledValue v → v.toUsize = 2 ^ 64 - 1) ∧
    (v.neg = false → v.isFinite = true → ∀ k, k < 2 ^ 64 - 1 →
      (v.toUsize = k ↔ k * 2 ^ 1075 ≤ scaledValue v ∧ scaledValue v < (k + 1) * 2 ^ 1075)) := by
  have hv : v.neg = false → v.isFinite = true → v.toUsize = min (scaledValue v / 2 ^ 1075) (2 ^ 64 - 1) := by
    intro hn hf
    have hx : v.expo ≠ 2047 := by simpa [F64.isFinite] using hf
    have h₁ : v.isNaN = false := by simp [F64.isNaN, hx]
    have h₂ : v.isInf = false := by simp [F64.isInf, hx]
    rw [F64.toUsize, h₁, hn, h₂]
    simp only [Bool.false_eq_true, if_false]
    congr 1
    unfold scaledValue
    by_cases h0 : v.expo = 0
    · simp only [h0, if_true]
      rw [if_neg (by decide)]
      rw [Nat.pow_succ 2 1074]
      exact (Nat.mul_div_mul_right v.mant (2 ^ 1074) (by decide : 0 < 2)).symm
    · simp only [h0, if_false]
      rw [Nat.add_comm v.mant]
      by_cases h1 : v.expo ≥ 1075
      · rw [if_pos h1]
        rw [show 2 ^ v.expo = 2 ^ (v.expo - 1075) * 2 ^ 1075 by rw [← Nat.pow_add]; congr 1; omega,
          ← Nat.mul_assoc, Nat.mul_div_cancel _ (Nat.two_pow_pos 1075)]
      · rw [if_neg h1]
        rw [show 2 ^ 1075 = 2 ^ (1075 - v.expo) * 2 ^ v.expo by rw [← Nat.pow_add]; congr 1; omega,
          Nat.mul_div_mul_right _ _ (Nat.two_pow_pos _)]
  refine ⟨?_, ?_, ?_, ?_⟩
  · rintro (h | h)
    · simp [F64.toUsize, h]
    · simp [F64.toUsize, h]
  · intro hn hi
    have : v.isNaN = false := by
      simp only [F64.isInf, Bool.and_eq_true, beq_iff_eq] at hi
      simp [F64.isNaN, hi.2]
    simp [F64.toUsize, this, hn, hi]
  · intro hn hf h
    rw [hv hn hf]
    have := (Nat.le_div_iff_mul_le (Nat.two_pow_pos 1075)).2 h
    generalize scaledValue v / 2 ^ 1075 = q at *
    omega
  · intro hn hf k hk
    rw [hv hn hf, ← Nat.le_div_iff_mul_le (Nat.two_pow_pos 1075), ← Nat.div_lt_iff_lt_mul (Nat.two_pow_pos 1075)]
    generalize scaledValue v / 2 ^ 1075 = q
    omega

/-- `3.75`. -/
example : (⟨0x400E000000000000⟩ : F64).toUsize = 3 := rfl

/-! ### C40 -/

/-- A rule gets the text of the first definition: `read_set` on a name, whatever comes before and
after the definition, and whatever it is used for. -/
theorem C40_first_definition {before after : List (Str × Str)} {name text : Str}
    (h : name ∉ before.map (·.1)) {n : Nat} (hn : 2 ≤ n) (p : Str) (rest : List Tok) (off : Nat) (st : CSt) :
    readSet (before ++ (name, text) :: after) n p ⟨toks ((SetV.ref name).data p) ++ rest, off⟩ st =
      .ok (some (⟨off, 3⟩, text), st) := by
  have e : (before ++ (name, text) :: after).lookup name = some text := by
    induction before with
    | nil => simp
    | cons x xs ih =>
      simp only [List.map_cons, List.mem_cons, not_or] at h
      have : (name == x.1) = false := by simp [h.1]
      rw [List.cons_append, List.lookup_cons, this]
      exact ih h.2
  rw [readSet_eq hn, SetV.get, e]
  rfl

/-- Meta data of the documented shape with names that may be undefined: `convert` reads those rules
of a sequence or select that exist, and leaves out the others without an error; it only reports an
error if the whole rule of a node does not exist. -/
theorem C40_undefined_dropped {doc : Doc} (ho : ¬ doc.Overflows) {data : List Tok} (hd : data.map (·.data) = doc.data) (ignored : List Range) :
    ∃ l, l.length = (Doc.read doc.strings doc.nodes).2 ∧
      Converts data ignored ((Doc.read doc.strings doc.nodes).1.map syntaxOf) (ignored ++ l) := by
  obtain ⟨n, h, -⟩ := convert_doc hd ignored
  obtain ⟨l, hl, e⟩ := h ho
  refine ⟨l, hl, n, ?_⟩
  rw [e]
  simp only [syntaxOf_eq]

/-- The condition is exact: otherwise `convert` panics.  (In a build without overflow checks the ids
wrap around instead.) -/
theorem C40_overflow {doc : Doc} (ho : doc.Overflows) {data : List Tok} (hd : data.map (·.data) = doc.data)
    (ignored : List Range) : ConvertPanics data ignored := by
  obtain ⟨n, -, h⟩ := convert_doc hd ignored
  exact ⟨n, h ho⟩

/-- `1 a = ["x" _y "z"]` without a definition of `y` is read as `["x" "z"]`. -/
example (ignored : List Range) {data : List Tok}
    (hd : data.map (·.data) = Doc.data ⟨[], [(⟨0x3FF0000000000000⟩, c!"a", .sequence
      [.tag none (.value c!"x") none none, .tag none (.ref c!"y") none none,
       .tag none (.value c!"z") none none])]⟩) :
    ∃ l, l.length = 2 ∧ Converts data ignored (some ⟨[.sequence [.tag c!"x" false false none 1001,
      .tag c!"z" false false none 1002] 1003], [c!"a"]⟩) (ignored ++ l) :=
  C40_undefined_dropped (doc := ⟨[], [(⟨0x3FF0000000000000⟩, c!"a", .sequence
      [.tag none (.value c!"x") none none, .tag none (.ref c!"y") none none,
       .tag none (.value c!"z") none none])]⟩) (by decide +kernel) hd ignored

/-- `1 a = _y` without a definition of `y` is an error. -/
example (ignored : List Range) {data : List Tok}
    (hd : data.map (·.data) = Doc.data ⟨[], [(⟨0x3FF0000000000000⟩, c!"a",
      .tag none (.ref c!"y") none none)]⟩) : ∃ l, l.length = 2 ∧ Converts data ignored none (ignored ++ l) :=
  C40_undefined_dropped (doc := ⟨[], [(⟨0x3FF0000000000000⟩, c!"a",
      .tag none (.ref c!"y") none none)]⟩) (by decide +kernel) hd ignored

/-- `1 a = "x":_y` without a definition of `y` is read as `"x"`. -/
example (ignored : List Range) {data : List Tok}
    (hd : data.map (·.data) = Doc.data ⟨[], [(⟨0x3FF0000000000000⟩, c!"a",
      .tag none (.value c!"x") none (some (.ref c!"y")))]⟩) :
    ∃ l, l.length = 1 ∧ Converts data ignored (some ⟨[.tag c!"x" false false none 1001], [c!"a"]⟩) (ignored ++ l) :=
  C40_undefined_dropped (doc := ⟨[], [(⟨0x3FF0000000000000⟩, c!"a",
      .tag none (.value c!"x") none (some (.ref c!"y")))]⟩) (by decide +kernel) hd ignored

end Verif.Props
