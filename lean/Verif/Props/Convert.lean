import Verif.Spec.Convert
import Verif.Proofs.ConvertStep
import Verif.Proofs.Depth
import Verif.Props.Parse
/-
Properties of `convert`: C37, C42.
-/
namespace Verif.Props
open Verif Verif.Spec Verif.Convert

/-! ### C37 -/

/-- `convert` has one outcome. -/
theorem C37_one_outcome {data ignored} :
    (∀ r i r' i', Converts data ignored r i → Converts data ignored r' i' → r = r' ∧ i = i') ∧
    (∀ r i, Converts data ignored r i → ¬ ConvertPanics data ignored) ∧
    (∀ r i, Converts data ignored r i → ¬ ConvertRuns data ignored) ∧
    (ConvertPanics data ignored → ¬ ConvertRuns data ignored) := by
  have key : ∀ {n m}, convert n data ignored ≠ .timeout → convert m data ignored ≠ .timeout →
      convert n data ignored = convert m data ignored := by
    intro n m hn hm
    rcases Nat.le_total n m with h | h
    · rw [convert_mono h hn]
    · rw [convert_mono h hm]
  refine ⟨?_, ?_, ?_, ?_⟩
  · rintro r i r' i' ⟨n, h⟩ ⟨m, h'⟩
    have := key (n := n) (m := m) (by simp [h]) (by simp [h'])
    rw [h, h'] at this
    simpa using this
  · rintro r i ⟨n, h⟩ ⟨m, h'⟩
    have := key (n := n) (m := m) (by simp [h]) (by simp [h'])
    rw [h, h'] at this
    cases this
  · rintro r i ⟨n, h⟩ h'
    rw [h' n] at h
    cases h
  · rintro ⟨n, h⟩ h'
    rw [h' n] at h
    cases h

/-- `convert` returns on well nested data, after a number of rounds bounded by its length. -/
theorem C37_returns {data : List Tok} (hw : WellNested (data.map (·.data)))
    (hl : data.length < 2 ^ 64) (hf : NumbersFit data.length data) (ignored : List Range) :
    ∃ r ignored', Converts data ignored r ignored' ∧
      ∀ n, data.length < n → convert n data ignored = .ok (r, ignored') := by
  obtain ⟨r, st', e, _⟩ := convertM_ret (items_iff.2 hw) hl hf ⟨0, ignored⟩
  have h : convert (data.length + 1) data ignored = .ok (r, st'.ignored) := by simp [convert, e]
  refine ⟨r, st'.ignored, ⟨_, h⟩, fun n hn => ?_⟩
  rw [convert_mono (n := data.length + 1) hn (by simp [h]), h]

/-- In particular on what `parse` produces. -/
theorem C37_returns_on_parsed {L : Lexer} {syn text ind data}
    (h : Parses L syn text [] ind (.ok data)) (hl : data.length < 2 ^ 64)
    (hf : NumbersFit data.length data) (ignored : List Range) :
    ∃ r ignored', Converts data ignored r ignored' := by
  obtain ⟨ts, rfl, hw⟩ := C05_data_well_nested h
  obtain ⟨r, i, h, _⟩ := C37_returns hw hl hf ignored
  exact ⟨r, i, h⟩

/-- Data that ends inside a node is read for ever. -/
theorem C37_truncated_runs_for_ever {body : List Tok} (hw : WellNested (body.map (·.data)))
    (hl : body.length + 1 < 2 ^ 64) (hf : NumbersFit (body.length + 1) body) (r : Range)
    (ignored : List Range) : ConvertRuns (⟨r, .startNode c!"node"⟩ :: body) ignored := by
  have h : ∀ n, convert (body.length + 1 + n + 1) (⟨r, .startNode c!"node"⟩ :: body) ignored = .timeout := by
    intro n
    have := convertM_truncated (items_iff.2 hw) (Nat.le_refl _) (n := body.length + 1 + n) (by omega) hl hf
      r ⟨0, ignored⟩
    simp [convert, this]
  intro n
  by_cases hc : convert n (⟨r, .startNode c!"node"⟩ :: body) ignored = .timeout
  · exact hc
  · have := convert_mono (m := body.length + 1 + n + 1) (by omega) hc
    rw [h n] at this
    exact absurd this.symm hc

/-- The end of another node inside a node is a panic. -/
theorem C37_stray_end_panics {body rest : List Tok} (hw : WellNested (body.map (·.data)))
    (hl : body.length + 1 < 2 ^ 64) (hf : NumbersFit (body.length + 1) body) (r r' : Range) {name : Str}
    (hn : name ≠ c!"node") (ignored : List Range) :
    ConvertPanics (⟨r, .startNode c!"node"⟩ :: (body ++ ⟨r', .endNode name⟩ :: rest)) ignored := by
  refine ⟨body.length + 1 + 1, ?_⟩
  simp [convert, convertM_stray (items_iff.2 hw) (Nat.le_refl _) (Nat.le_refl _) hl hf r r' hn]

/-- A node number too large to be multiplied by 1000 is a panic (in a build with overflow checks)
as soon as the rule of the node is read. -/
theorem C37_large_number_panics {v : F64} (hv : 2 ^ 64 ≤ v.toUsize * 1000) (r₁ r₂ r₃ r₄ : Range)
    (name : Str) (rest : List Tok) (ignored : List Range) :
    ConvertPanics (⟨r₁, .startNode c!"node"⟩ :: ⟨r₂, .f64 c!"id" v⟩ :: ⟨r₃, .string c!"name" name⟩ ::
      ⟨r₄, .startNode c!"rule"⟩ :: rest) ignored := by
  refine ⟨4, ?_⟩
  have e : ∀ st, CM.setId v.toUsize st = .panic := by
    intro st
    simp [CM.setId, Nat.not_lt.2 hv]
  have h : convertM 4 (⟨r₁, .startNode c!"node"⟩ :: ⟨r₂, .f64 c!"id" v⟩ ::
      ⟨r₃, .string c!"name" name⟩ :: ⟨r₄, .startNode c!"rule"⟩ :: rest) ⟨0, ignored⟩ = .panic := by
    simp only [convertM, Convert.new]
    rw [bind_some stringsLoop_node]
    have h₁ : loop c!"node" (nodeBody [] 4) 4 ⟨⟨r₂, .f64 c!"id" v⟩ :: ⟨r₃, .string c!"name" name⟩ ::
        ⟨r₄, .startNode c!"rule"⟩ :: rest, 1⟩ (none, none, none) ⟨0, ignored⟩ = .panic := by
      have s₁ : nodeBody [] 4 ⟨[⟨r₂, .f64 c!"id" v⟩] ++ ⟨r₃, .string c!"name" name⟩ ::
          ⟨r₄, .startNode c!"rule"⟩ :: rest, 1⟩ (none, none, none) ⟨0, ignored⟩ =
          .ok (some (some (⟨1, 1⟩, some v.toUsize, none, none)), ⟨0, ignored⟩) := tryRead_some rfl
      have s₂ : nodeBody [] 4 ⟨[⟨r₃, .string c!"name" name⟩] ++ ⟨r₄, .startNode c!"rule"⟩ :: rest, 2⟩
          (some v.toUsize, none, none) ⟨0, ignored⟩ =
          .ok (some (some (⟨2, 1⟩, some v.toUsize, some name, none)), ⟨0, ignored⟩) :=
        (tryRead_none rfl).trans (tryRead_some rfl)
      refine (loop_step (.value (by simp [IsNode])) s₁).trans ?_
      refine (loop_step (.value (by simp [IsNode])) s₂).trans ?_
      exact loop_panic rfl ((tryRead_none rfl).trans ((tryRead_none rfl).trans
        (tryRead_panic (bind_panic (e _)))))
    refine bind_panic (bind_panic ?_)
    simp only [CM.attempt, readNode_eq]
    rw [bind_panic h₁]
  simp [convert, h]

/-- A document of one node `1 a = .w?`. -/
def exNode : List Tok :=
  [.startNode c!"node", .f64 c!"id" ⟨0x3FF0000000000000⟩, .string c!"name" c!"a", .startNode c!"rule",
    .startNode c!"whitespace", .bool c!"optional" true, .endNode c!"whitespace", .endNode c!"rule",
    .endNode c!"node"].map fun d => ⟨⟨0, 0⟩, d⟩

example : WellNested (exNode.map (·.data)) :=
  .node (.value (by simp [IsNode]) (.value (by simp [IsNode]) (.node (.node (.value (by simp [IsNode])
    .nil) .nil) .nil))) .nil

example : Converts exNode [] (some ⟨[.whitespace true 1001], [c!"a"]⟩) [] := ⟨10, rfl⟩

theorem exNode_fits : NumbersFit 8 (exNode.take 8).tail := by
  intro t ht v e
  simp [exNode] at ht
  rcases ht with rfl | rfl | rfl | rfl | rfl | rfl | rfl <;> simp at e
  subst e
  decide +kernel

example : ConvertRuns (exNode.take 8) [] :=
  C37_truncated_runs_for_ever (body := (exNode.take 8).tail)
    (.value (by simp [IsNode]) (.value (by simp [IsNode]) (.node (.node (.value (by simp [IsNode])
    .nil) .nil) .nil))) (by decide) exNode_fits ⟨0, 0⟩ []

/-! ### C42 -/

/-- `ignore` spans exactly the next item: a value, or the whole node. -/
theorem C42_ignore_item {a : List Tok} (ha : Item a) (rest : List Tok) (off : Nat) :
    ignore ⟨a ++ rest, off⟩ = .ok ⟨off, a.length⟩ := ignore_item ha off

/-- There is only one item it could be. -/
theorem C42_item_unique {a b rest rest' : List Tok} (ha : Item a) (hb : Item b)
    (h : a ++ rest = b ++ rest') : a = b := Item.unique ha hb h

/-- Without an item it spans nothing; the end of a node is an underflow. -/
theorem C42_ignore_no_item (off : Nat) :
    ignore ⟨[], off⟩ = .ok ⟨off, 0⟩ ∧
    ∀ r name rest, ignore ⟨⟨r, .endNode name⟩ :: rest, off⟩ = .panic :=
  ⟨rfl, fun _ _ _ => rfl⟩

/-- `update` moves past exactly the span. -/
theorem C42_update_span (a rest : List Tok) (off : Nat) :
    update ⟨a ++ rest, off⟩ ⟨off, a.length⟩ = .ok ⟨rest, off + a.length⟩ := by
  have h : ¬ off + a.length < off := by omega
  have h' : ¬ a.length + rest.length < a.length := by omega
  simp [update, Range.next, h, h']

/-- `update` by any range that ends in the data, wherever it starts: a converter that was at item
`c.off` of `all` is then at the item where the range ends. -/
theorem C42_update_in_step (all : List Tok) {c c' : Convert} {r : Range} (h : c.data = all.drop c.off)
    (hu : c.update r = .ok c') : c'.off = r.offset + r.length ∧ c'.data = all.drop c'.off := by
  unfold update Range.next at hu
  by_cases h₁ : r.offset + r.length < c.off
  · rw [if_pos h₁] at hu; cases hu
  · rw [if_neg h₁] at hu
    by_cases h₂ : c.data.length < r.offset + r.length - c.off
    · rw [if_pos h₂] at hu; cases hu
    · rw [if_neg h₂] at hu
      cases hu
      refine ⟨rfl, ?_⟩
      simp only [h, List.drop_drop]
      congr 1
      omega

/-- `update` panics exactly when the range ends before the position or behind the data. -/
theorem C42_update_panics (c : Convert) (r : Range) :
    c.update r = .panic ↔ r.next < c.off ∨ c.off + c.data.length < r.next := by
  simp only [update]
  split
  · simp; left; assumption
  · split
    · simp; right; omega
    · simp; omega

/-- `subtract` is the span between two positions. -/
theorem C42_subtract_span (a rest : List Tok) (off : Nat) :
    subtract ⟨rest, off + a.length⟩ ⟨a ++ rest, off⟩ = .ok ⟨off, a.length⟩ := by
  have h : ¬ off + a.length < off := by omega
  simp [subtract, h]

/-- `source` between two positions of data in source order: from the start of the first token to
the end of the last; no token ends later, and no token but the end of a node starts earlier. -/
theorem C42_source_in_order {a rest : List Tok} {first last : Tok} (h : InOrder (a ++ rest))
    (hf : a.head? = some first) (hl : a.getLast? = some last) (off : Nat) :
    ∃ r, source ⟨rest, off + a.length⟩ ⟨a ++ rest, off⟩ = .ok (some r) ∧
      r.offset = first.range.offset ∧ r.next = last.range.next ∧
      ∀ t ∈ a, t.range.next ≤ r.next ∧ (¬ IsEnd t → r.offset ≤ t.range.offset) := by
  obtain ⟨a', rfl⟩ : ∃ a', a = first :: a' := by
    cases a with
    | nil => simp at hf
    | cons x a => simp at hf; exact ⟨a, by rw [hf]⟩
  have ha : (first :: a').Pairwise Precedes := (List.pairwise_append.1 h).1
  have hget : (first :: (a' ++ rest))[a'.length]? = some last := by
    rw [List.getLast?_eq_getElem?] at hl
    rw [← List.cons_append, List.getElem?_append_left (by simp)]
    simpa using hl
  have hfl : first.range.next ≤ last.range.next := by
    cases a' with
    | nil => simp at hl; rw [hl]; exact Nat.le_refl _
    | cons x a' =>
      rw [List.getLast?_cons_cons] at hl
      exact ((List.pairwise_cons.1 ha).1 last (List.mem_of_getLast? hl)).1
  have hle : ∀ t ∈ first :: a', t.range.next ≤ last.range.next := by
    intro t ht
    obtain ⟨ys, hys⟩ := List.getLast?_eq_some_iff.1 hl
    rw [hys] at ht ha
    rcases List.mem_append.1 ht with ht | ht
    · exact ((List.pairwise_append.1 ha).2.2 t ht last (by simp)).1
    · simp at ht; subst ht; exact Nat.le_refl _
  have hn : ∀ r : Range, r.next = r.offset + r.length := fun _ => rfl
  have h₀ := hn first.range
  refine ⟨⟨first.range.offset, last.range.next - first.range.offset⟩, ?_, rfl, ?_, ?_⟩
  · have h₁ : ¬ off + (a'.length + 1) ≤ off := by omega
    have h₂ : off + (a'.length + 1) - off - 1 = a'.length := by omega
    have h₃ : ¬ last.range.next < first.range.offset := by omega
    simp only [source, List.cons_append, List.length_cons, h₁, if_false, h₂, hget, h₃]
  · simp only [Range.next]
    simp only [hn] at *
    omega
  · intro t ht
    have := hle t ht
    refine ⟨?_, fun he => ?_⟩
    · simp only [hn] at *
      omega
    · rcases List.mem_cons.1 ht with rfl | ht
      · exact Nat.le_refl _
      · have := ((List.pairwise_cons.1 ha).1 t ht).2 he
        show first.range.offset ≤ _
        omega

/-- On parsed data `source` never panics. -/
theorem C42_source_returns_on_parsed {L : Lexer} (hL : L.Lawful) {syn text ind data}
    (h : Parses L syn text [] ind (.ok data)) {pre a rest : List Tok} (e : data = pre ++ a ++ rest)
    (off : Nat) : ∃ r, source ⟨rest, off + a.length⟩ ⟨a ++ rest, off⟩ = .ok r := by
  obtain ⟨ts, e', ho⟩ := C07_source_order hL h
  simp only [List.nil_append] at e'
  subst e'
  rw [e, List.append_assoc] at ho
  have ho := (List.pairwise_append.1 ho).2.1
  cases a with
  | nil => exact ⟨none, by simp [source]; split <;> rfl⟩
  | cons x a =>
    obtain ⟨y, hy⟩ : ∃ y, (x :: a).getLast? = some y :=
      ⟨_, List.getLast?_eq_some_getLast (List.cons_ne_nil x a)⟩
    obtain ⟨r, h, _⟩ := C42_source_in_order ho rfl hy off
    exact ⟨_, h⟩

/-- The source of an item anywhere in parsed data is the range of its last token, and every token
of the item lies in it: for a node, the range the node was parsed from. -/
theorem C42_source_item {L : Lexer} (hL : L.Lawful) {syn text ind data}
    (h : Parses L syn text [] ind (.ok data)) {pre a rest : List Tok} (e : data = pre ++ a ++ rest)
    (ha : Item a) (off : Nat) :
    ∃ last, a.getLast? = some last ∧
      source ⟨rest, off + a.length⟩ ⟨a ++ rest, off⟩ = .ok (some last.range) ∧
      ∀ t ∈ a, Within last.range.offset last.range.next t.range := by
  obtain ⟨ts, e', ho⟩ := C07_source_order hL h
  simp only [List.nil_append] at e'
  subst e'
  rw [e, List.append_assoc] at ho
  have ho := (List.pairwise_append.1 ho).2.1
  obtain ⟨r, n, ts, j, tr, hr, h1, h2, h3⟩ := parses_ok_run.1 h
  simp only [List.nil_append] at h3
  obtain ⟨lo, hi, hs⟩ := (run_spans h1 _ _ rfl).item pre a rest (h3 ▸ e) ha
  have key : ∀ {first last : Tok}, a.head? = some first → a.getLast? = some last →
      first.range.offset = last.range.offset →
      (∀ t ∈ a, Within last.range.offset last.range.next t.range) →
      ∃ last, a.getLast? = some last ∧
      source ⟨rest, off + a.length⟩ ⟨a ++ rest, off⟩ = .ok (some last.range) ∧
      ∀ t ∈ a, Within last.range.offset last.range.next t.range := by
    intro first last h₁ h₂ h₃ h₄
    obtain ⟨r, k₁, k₂, k₃, _⟩ := C42_source_in_order ho h₁ h₂ off
    refine ⟨last, h₂, ?_, h₄⟩
    obtain ⟨o, l⟩ := r
    obtain ⟨⟨o', l'⟩, d⟩ := last
    simp only [Range.next] at *
    have : o = o' := by omega
    have : l = l' := by omega
    rw [k₁]; simp [*]
  cases ha with
  | @value t ht => exact key rfl rfl rfl (by simp [Within])
  | @node r₁ r₂ name body hb =>
    generalize hz : (⟨r₁, .startNode name⟩ :: body ++ [⟨r₂, .endNode name⟩] : List Tok) = z at hs
    cases hs with
    | nil => cases hz
    | value h => simp at hz; rw [← hz.1] at h; exact absurd trivial h
    | @node name' body' rest' _ _ o l hl hb' hr' =>
      have hi : Item (⟨⟨o, 0⟩, .startNode name'⟩ :: body' ++ [⟨⟨o, l⟩, .endNode name'⟩]) := .node hb'.items
      have := Item.unique (Item.node (r₁ := r₁) (r₂ := r₂) (name := name) hb) hi (x := [])
        (y := rest') (by rw [hz]; simp)
      simp only [List.cons_append, List.cons.injEq, Tok.mk.injEq] at this
      obtain ⟨⟨rfl, hnm⟩, ht⟩ := this
      obtain ⟨rfl, ht'⟩ := List.append_inj' ht rfl
      simp only [List.cons.injEq, Tok.mk.injEq] at ht'
      obtain ⟨⟨rfl, _⟩, _⟩ := ht'
      rw [← hz]
      refine key rfl (List.getLast?_concat ..) rfl ?_
      intro t ht
      simp only [List.cons_append, List.mem_cons, List.mem_append, List.not_mem_nil, or_false] at ht
      rcases ht with rfl | ht | rfl
      · simp [Within, Range.next]
      · exact hb'.within t ht
      · simp [Within]

/-- The node `1 a = .w?` is one item, its rule is another. -/
example : ignore ⟨exNode, 0⟩ = .ok ⟨0, 9⟩ ∧ ignore ⟨exNode.drop 3, 3⟩ = .ok ⟨3, 5⟩ := ⟨rfl, rfl⟩

/-- The second item of `(ab,a,)` comes from `a` at offset 4. -/
example : source ⟨[], 6⟩ ⟨exData.drop 3, 3⟩ = .ok (some ⟨4, 1⟩) := rfl

end Verif.Props
