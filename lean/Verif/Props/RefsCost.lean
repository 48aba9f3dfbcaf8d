import Verif.Proofs.RawConvert
import Verif.Props.FileSize
/-
C100: how much `update_refs` looks at.
-/
namespace Verif.Props
open Spec

/-- C100: counting does not change what `update_refs` does. -/
theorem C100_same (syn : Syntax) : syn.updateRefsCounted.1 = syn.updateRefs := by
  simp only [Syntax.updateRefsCounted, Syntax.updateRefs, updateRefsCountedL_eq, updateRefsL_map]

/-- C100: it is called once for each rule in the rules, tables not looked into. -/
theorem C100_calls (syn : Syntax) : syn.updateRefsCounted.2.1 = outerSizes syn.rules := by
  simp only [Syntax.updateRefsCounted, updateRefsCountedL_eq]

/-- C100: for each reference without an index it looks at the names up to the first that is the one of the reference,
and at all of them if there is none. -/
theorem C100_names (syn : Syntax) :
    syn.updateRefsCounted.2.2 = ((openRefsL syn.rules).map (lookedAt · syn.names)).sum := by
  simp only [Syntax.updateRefsCounted, updateRefsCountedL_eq]

/-- C100: at most at each name for each reference. -/
theorem C100_bound (syn : Syntax) : syn.updateRefsCounted.2.2 ≤ (openRefsL syn.rules).length * syn.names.length := by
  rw [C100_names]
  exact lookedAt_sum _ _

/-- C100: a second time it is called as often, and looks at all names for the references to no rule, and at none for
the others. -/
theorem C100_again (syn : Syntax) : syn.updateRefs.updateRefsCounted =
    (syn.updateRefs, outerSizes syn.rules, ((openRefsL syn.rules).filter (· ∉ syn.names)).length * syn.names.length) := by
  have key : ∀ {l : List Str}, (∀ a ∈ l, a ∉ syn.names) → (l.map (lookedAt · syn.names)).sum = l.length * syn.names.length := by
    intro l
    induction l with
    | nil => simp
    | cons a l ih =>
      intro h
      have h1 : lookedAt a syn.names = syn.names.length := by
        have : syn.names.findIdx? (a = ·) = none := by
          rw [List.findIdx?_eq_none_iff]
          intro x hx
          have := h a (by simp)
          simp only [decide_eq_false_iff_not]
          rintro rfl
          exact this hx
        rw [lookedAt, this]
      rw [List.map_cons, List.sum_cons, ih fun b hb => h b (by simp [hb]), h1, List.length_cons, Nat.add_mul, Nat.one_mul,
        Nat.add_comm]
  refine Prod.ext ?_ (Prod.ext ?_ ?_)
  · rw [C100_same]
    simp only [Syntax.updateRefs, List.map_map]
    congr 1
    refine List.map_congr_left fun r _ => ?_
    rw [Function.comp, updateRefs_twice]
  · rw [C100_calls]
    simp only [Syntax.updateRefs]
    rw [← updateRefsL_map, outerSizes_updateRefs]
  · rw [C100_names]
    simp only [Syntax.updateRefs]
    rw [← updateRefsL_map, openRefsL_updateRefs]
    exact key fun a ha => by simpa using (List.mem_filter.1 ha).2

/-! ### In `convert` -/

/-- C100: counting these as well does not change what `convert` does. -/
theorem C100_erase (n : Nat) (data : List Tok) (ignored : List Range) : Counted.convert n data ignored =
    (match Counted.convertAll n data ignored with
      | .ok (r, l, k) => .ok (r.map (·.1), l, k)
      | .panic => .panic
      | .timeout => .timeout) := by
  unfold Counted.convert Counted.convertAll
  rw [counted_raw]
  simp only [Bind.bind, CCM.bind]
  cases Counted.rawM n data ⟨0, ignored⟩ with
  | panic => rfl
  | timeout => rfl
  | ok x =>
    obtain ⟨r, st, k⟩ := x
    cases r with
    | none => rfl
    | some r => simp [Pure.pure, CCM.pure, C100_same]

/-- C100: `convert` once more, with these numbers. -/
theorem C100_convert {data : List Tok} {ignored ignored' : List Range} {syn : Syntax} {k : Nat} :
    ConvertsIn data ignored (some syn) ignored' k ↔ ∃ u v, ResolvesIn data ignored syn ignored' k u v := by
  constructor
  · rintro ⟨n, h⟩
    rw [C100_erase] at h
    cases hc : Counted.convertAll n data ignored with
    | panic => rw [hc] at h; cases h
    | timeout => rw [hc] at h; cases h
    | ok x =>
      obtain ⟨r, l, k'⟩ := x
      rw [hc] at h
      cases r with
      | none => cases h
      | some r =>
        obtain ⟨s, u, v⟩ := r
        cases h
        exact ⟨u, v, n, hc⟩
  · rintro ⟨u, v, n, h⟩
    exact ⟨n, by rw [C100_erase, h]; rfl⟩

/-- What `update_refs` is called on for the data of a document. -/
theorem resolves_doc {doc : Doc} {data : List Tok} (hd : data.map (·.data) = doc.data) {ignored ignored' : List Range}
    {syn : Syntax} {k u v : Nat} (h : ResolvesIn data ignored syn ignored' k u v) :
    ¬ doc.Overflows ∧ ∃ rs, (Doc.read doc.strings doc.nodes).1 = some rs ∧ syn = syntaxOf rs ∧
      u = outerSizes (rs.map (·.2)) ∧ v = ((openRefsL (rs.map (·.2))).map (lookedAt · (rs.map (·.1)))).sum := by
  have h1 := C96_defined.2 ⟨k, C100_convert.2 ⟨u, v, h⟩⟩
  have ho : ¬ doc.Overflows := by
    intro ho
    obtain ⟨n, -, hp⟩ := convert_doc hd ignored
    exact C37_one_outcome.2.1 _ _ h1 ⟨n, hp ho⟩
  refine ⟨ho, ?_⟩
  obtain ⟨n, h⟩ := h
  unfold Counted.convertAll at h
  cases hm : Counted.rawM n data ⟨0, ignored⟩ with
  | panic => rw [hm] at h; cases h
  | timeout => rw [hm] at h; cases h
  | ok x =>
    obtain ⟨r, st, k'⟩ := x
    rw [hm] at h
    have h2 := (counts_rawM n data).eq ⟨0, ignored⟩
    rw [hm] at h2
    have h3 := raw_doc_iff hd ho h2.symm
    cases hr : (Doc.read doc.strings doc.nodes).1 with
    | none => rw [hr] at h3; subst h3; cases h
    | some rs =>
      rw [hr] at h3
      subst h3
      simp only [Option.map_some, Comp.ok.injEq, Prod.mk.injEq, Option.some.injEq] at h
      have h4 := h.1
      have e1 := congrArg Prod.fst h4
      have e2 := congrArg (fun x => x.2.1) h4
      have e3 := congrArg (fun x => x.2.2) h4
      simp only [C100_same, C100_calls, C100_names] at e1 e2 e3
      refine ⟨rs, rfl, ?_, e2.symm, e3.symm⟩
      rw [← e1]
      simp [Syntax.updateRefs, syntaxOf, Function.comp_def]

variable {L : Lexer}

/-- C100: for a rule file the calls of `update_refs` and the rules are together at most as many as characters, less
four; there are two characters for each reference and five for each rule; and at most a fortieth of the square of the
number of characters, and one, of names are looked at. -/
theorem C100_file (hL : L.Lawful) (hX : L.Exact) {text : Str} {data : List Tok}
    (h : Parses L bootstrapRules text [] Indent.default (.ok data)) {ignored ignored' : List Range} {syn : Syntax} {k u v : Nat}
    (hr : ResolvesIn data ignored syn ignored' k u v) :
    u + syn.rules.length ≤ text.length - 4 ∧ 40 * v ≤ (text.length + 1) ^ 2 := by
  obtain ⟨doc, h1, h2⟩ := parses_text hL hX h
  obtain ⟨ho, rs, h3, rfl, rfl, rfl⟩ := resolves_doc h2 hr
  obtain ⟨f1, f2, f3, -⟩ := doc_fits _ h3
  have h4 := doc_room hL h1
  have h5 := doc_items doc
  have h6 := doc_length hL h1
  constructor
  · simp only [syntaxOf, List.length_map]
    rcases h6 with h6 | h6
    · rw [h6] at h5; simp only [List.length_nil] at h5; omega
    · omega
  · have h7 := lookedAt_sum (openRefsL (rs.map (·.2))) (rs.map (·.1))
    rw [List.length_map] at h7
    generalize (openRefsL (rs.map (·.2))).length = a at *
    generalize rs.length = b at *
    have h8 : 2 * a + 5 * b ≤ text.length + 1 := by omega
    have h9 := Nat.pow_le_pow_left h8 2
    have h10 : 40 * (a * b) ≤ (2 * a + 5 * b) ^ 2 := by
      have := four_mul_le (2 * a) (5 * b)
      have e : 2 * a * (5 * b) = 10 * (a * b) := by
        rw [Nat.mul_assoc, Nat.mul_left_comm a, ← Nat.mul_assoc]
      omega
    omega

/-! ### Rule files for which this is quadratic -/

/-- `k` lines `0 a =b`. -/
def linkFile : Nat → Str
  | 0 => []
  | k + 1 => '\n' :: (c!"0 a =b" ++ linkFile k)
def linkNodes (k : Nat) : List (F64 × Str × Desc) := List.replicate k (⟨0⟩, c!"a", .reference c!"b" none)

theorem link_entries (hz : ReadsZero L) (k : Nat) : ∀ first,
    EntriesText L first (List.replicate k (.node ⟨0⟩ c!"a" (.reference c!"b" none))) (linkFile k) := by
  induction k with
  | zero => intro first; simp [EntriesText, linkFile, Space]
  | succ k ih =>
    intro first
    refine ⟨c!"\n", c!"0 a =b", linkFile k, by decide, by simp, ?_, ih false, rfl⟩
    exact ⟨c!"0", c!" ", c!" ", [], c!"b", hz _ _ (by decide), by decide, by decide, by decide, by decide,
      by decide, by decide, by decide, ⟨[], by decide, by decide, rfl, rfl⟩, rfl⟩

theorem link_text (hz : ReadsZero L) (k : Nat) : Doc.Text L ⟨[], linkNodes k⟩ (linkFile k) := by
  refine ⟨[], List.replicate k (.node ⟨0⟩ c!"a" (.reference c!"b" none)), by simp, ?_, link_entries hz k _, rfl, ?_⟩
  · intro e he
    rw [List.eq_of_mem_replicate he]
    rfl
  · induction k with
    | zero => rfl
    | succ k ih => simpa [linkNodes, List.replicate_succ, nodesIn] using ih

theorem link_read (k : Nat) : Doc.read [] (linkNodes k) = (some (List.replicate k (c!"a", .node c!"b" none none 1)), 0) := by
  have hu : (⟨0⟩ : F64).toUsize * 1000 = 0 := by decide +kernel
  induction k with
  | zero => rfl
  | succ k ih =>
    rw [linkNodes, List.replicate_succ, List.replicate_succ, Doc.read]
    rw [linkNodes] at ih
    simp only [Desc.read, hu, ih, propMissing]
    rfl

/-- C100: for `k` lines `0 a =b`, of seven characters each, there are `k * k`. -/
theorem C100_worst (hL : L.Lawful) (hX : L.Exact) (hz : ReadsZero L) (k : Nat) :
    (linkFile k).length = 7 * k ∧ ∃ data, Parses L bootstrapRules (linkFile k) [] Indent.default (.ok data) ∧
      ∃ syn m, ResolvesIn data [] syn [] m k (k * k) := by
  constructor
  · induction k with
    | zero => rfl
    | succ k ih => simp only [linkFile, List.length_cons, List.length_append, List.length_nil, ih]; omega
  obtain ⟨data, h1, h2⟩ := text_writes hL (exact_noSlash hX) (link_text hz k)
  refine ⟨data, h1, ?_⟩
  have ho : ¬ (⟨[], linkNodes k⟩ : Doc).Overflows := by
    have hu : (⟨0⟩ : F64).toUsize * 1000 = 0 := by decide +kernel
    simp only [Doc.Overflows]
    clear h1 h2
    induction k with
    | zero => simp [linkNodes, Doc.Overflow]
    | succ k ih =>
      rw [linkNodes, List.replicate_succ, Doc.Overflow]
      simp only [Desc.read, hu]
      rintro (h | ⟨-, h⟩)
      · omega
      · exact ih h
  obtain ⟨l, hl, hc⟩ := C40_undefined_dropped ho h2 []
  simp only [link_read] at hl hc
  obtain rfl : l = [] := List.length_eq_zero_iff.1 hl
  obtain ⟨m, hm⟩ := C96_defined.1 hc
  obtain ⟨u, v, hr⟩ := C100_convert.1 hm
  obtain ⟨-, rs, e, -, rfl, rfl⟩ := resolves_doc h2 hr
  rw [link_read] at e
  cases e
  have e1 : outerSizes ((List.replicate k (c!"a", Rule.node c!"b" none none 1)).map (·.2)) = k := by
    clear hr hm hc h1 h2 ho
    induction k with
    | zero => rfl
    | succ k ih => simp only [List.replicate_succ, List.map_cons, outerSizes, ih, outerSize]; omega
  have e2 : openRefsL ((List.replicate k (c!"a", Rule.node c!"b" none none 1)).map (·.2)) = List.replicate k c!"b" := by
    clear hr hm hc h1 h2 ho e1
    induction k with
    | zero => rfl
    | succ k ih => simp only [List.replicate_succ, List.map_cons, openRefsL, ih, openRefs]; rfl
  have e3 : lookedAt c!"b" (List.replicate k c!"a") = k := by
    have : (List.replicate k c!"a").findIdx? (c!"b" = ·) = none := by
      rw [List.findIdx?_eq_none_iff]
      intro x hx
      rw [List.eq_of_mem_replicate hx]
      decide
    rw [lookedAt, this, List.length_replicate]
  rw [e1, e2, List.map_replicate, List.map_replicate, e3, List.sum_replicate_nat] at hr
  exact ⟨_, _, hr⟩

/-- Two rules of three references, one of which is to no rule. -/
example : (⟨[.sequence [.node c!"b" none none 1, .node c!"a" none none 2] 3, .node c!"x" none none 4], [c!"a", c!"b"]⟩
      : Syntax).updateRefsCounted =
    (⟨[.sequence [.node c!"b" none (some 1) 1, .node c!"a" none (some 0) 2] 3, .node c!"x" none none 4], [c!"a", c!"b"]⟩, 4, 5) :=
  rfl

end Verif.Props
