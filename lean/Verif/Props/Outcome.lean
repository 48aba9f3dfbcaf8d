import Verif.Props.Notation
/-
When the optimizer and `syntax` return: C64.
-/
namespace Verif.Props
open Verif Verif.Spec

/-! ### The optimizer -/

theorem byteLoops_step {refs : List Rule} {r : Rule} (h : ByteLoops refs r) :
    ∃ c, ByteLoops refs c ∧ ByteCall refs c r := by
  obtain ⟨c, hc, hl⟩ := h
  have key : ∀ {r}, Relation.TransGen (ByteCall refs) c r → ∃ d, ByteLoops refs d ∧ ByteCall refs d r := by
    intro r h
    cases h with
    | single h => exact ⟨c, ⟨c, .inl rfl, hl⟩, h⟩
    | tail h h' => exact ⟨_, ⟨c, .inr h, hl⟩, h'⟩
  rcases hc with rfl | hc
  · exact key hl
  · exact key hc

theorem byteLoops_acc {refs : List Rule} {r : Rule} (hr : Part refs r) (h : ¬ ByteLoops refs r) :
    Acc (ByteCall refs) r := by
  have hpart : ∀ {x r}, Relation.TransGen (ByteCall refs) x r → Part refs r → Part refs x := by
    intro x r hx
    induction hx with
    | single h => exact byteCall_part h
    | tail _ h ih => exact fun hr => ih (byteCall_part h hr)
  classical
  refine acc_of_acyclic _ ((Rule.partsL refs).filter fun x => decide (Relation.TransGen (ByteCall refs) x r))
    rfl r ?_ ?_
  · intro x hx
    obtain ⟨q, hq, ho⟩ := hpart hx hr
    rw [List.mem_filter]
    exact ⟨mem_partsL hq (mem_parts ho), by simpa using hx⟩
  · intro x hx hc
    have := (List.mem_filter.1 hx).2
    exact h ⟨x, .inr (by simpa using this), hc⟩

/-- One call of `unique_byte`: it is another call, or it returns, or it panics. -/
theorem uniqueByte_cases (refs : List Rule) (r : Rule) :
    (∃ c, ByteCall refs c r ∧ ∀ n, uniqueByte refs (n + 1) r = uniqueByte refs n c) ∨
    (∃ o, ∀ n, uniqueByte refs (n + 1) r = .ok o) ∨
    Dangling refs r ∧ ∀ n, uniqueByte refs (n + 1) r = .panic := by
  cases r with
  | not r id =>
    cases r with
    | not r id' => exact .inl ⟨r, .notNot, fun n => by rw [uniqueByte]⟩
    | _ => exact .inr (.inl ⟨none, fun n => by simp [uniqueByte]⟩)
  | select args id =>
    match args with
    | [a] => exact .inl ⟨a, .select, fun n => by rw [uniqueByte]⟩
    | [] => exact .inr (.inl ⟨none, fun n => by simp [uniqueByte]⟩)
    | _ :: _ :: _ => exact .inr (.inl ⟨none, fun n => by simp [uniqueByte]⟩)
  | sequence args id =>
    match args with
    | a :: as => exact .inl ⟨a, .sequence, fun n => by rw [uniqueByte]⟩
    | [] => exact .inr (.inl ⟨none, fun n => by simp [uniqueByte]⟩)
  | separateBy r b opt trail id =>
    cases opt with
    | true => exact .inr (.inl ⟨none, fun n => by simp [uniqueByte]⟩)
    | false => exact .inl ⟨r, .item, fun n => by simp [uniqueByte]⟩
  | repeat_ r opt id =>
    cases opt with
    | true => exact .inr (.inl ⟨none, fun n => by simp [uniqueByte]⟩)
    | false => exact .inl ⟨r, .repeat_, fun n => by simp [uniqueByte]⟩
  | node name prop index id =>
    cases index with
    | none => exact .inr (.inl ⟨none, fun n => by simp [uniqueByte]⟩)
    | some ix =>
      cases h : refs[ix]? with
      | none => exact .inr (.inr ⟨⟨_, _, ix, _, rfl, by simpa using h⟩, fun n => by simp [uniqueByte, h]⟩)
      | some q => exact .inl ⟨q, .node h, fun n => by simp [uniqueByte, h]⟩
  | tag t nt inv prop id =>
    cases nt with
    | true => exact .inr (.inl ⟨none, fun n => by simp [uniqueByte]⟩)
    | false => cases t with
      | nil => exact .inr (.inl ⟨none, fun n => by simp [uniqueByte]⟩)
      | cons c cs => exact .inr (.inl ⟨_, fun n => by simp [uniqueByte]; rfl⟩)
  | text a b c => exact .inr (.inl ⟨_, fun n => by simp [uniqueByte]; rfl⟩)
  | _ => exact .inr (.inl ⟨none, fun n => by simp [uniqueByte]⟩)

/-- There is at most one further call. -/
theorem byteCall_det {refs : List Rule} {c d r : Rule} (h : ByteCall refs c r) (h' : ByteCall refs d r) : c = d := by
  cases h with
  | node h => cases h' with | node h' => rw [h] at h'; cases h'; rfl
  | _ => cases h'; rfl

theorem dangling_no_call {refs : List Rule} {c r : Rule} (h : ByteCall refs c r) : ¬ Dangling refs r := by
  rintro ⟨name, prop, ix, id, rfl, hi⟩
  cases h with
  | node h => rw [List.getElem?_eq_none hi] at h; cases h

theorem byteDangles_call {refs : List Rule} {c r : Rule} (h : ByteCall refs c r) :
    ByteDangles refs r ↔ ByteDangles refs c := by
  constructor
  · rintro ⟨d, rfl | hd, hx⟩
    · exact absurd hx (dangling_no_call h)
    · cases hd with
      | single h' => exact ⟨d, .inl (byteCall_det h' h), hx⟩
      | tail hd h' => cases byteCall_det h h'; exact ⟨d, .inr hd, hx⟩
  · rintro ⟨d, rfl | hd, hx⟩
    · exact ⟨d, .inr (.single h), hx⟩
    · exact ⟨d, .inr (.tail hd h), hx⟩

theorem uniqueByte_of_panic {refs : List Rule} : ∀ {n : Nat} {r : Rule}, uniqueByte refs n r = .panic →
    ByteDangles refs r
  | 0, r, h => by simp [uniqueByte] at h
  | n + 1, r, h => by
    rcases uniqueByte_cases refs r with ⟨c, hc, e⟩ | ⟨o, e⟩ | ⟨hd, -⟩
    · rw [e] at h
      exact (byteDangles_call hc).2 (uniqueByte_of_panic h)
    · rw [e] at h; cases h
    · exact ⟨r, .inl rfl, hd⟩

/-- `unique_byte` panics exactly on the rules from which it comes to a reference to a rule that does
not exist. -/
theorem C64_unique_byte_panics {refs : List Rule} {r : Rule} :
    (∃ n, uniqueByte refs n r = .panic) ↔ ByteDangles refs r := by
  refine ⟨fun ⟨n, h⟩ => uniqueByte_of_panic h, ?_⟩
  rintro ⟨c, hc, hd⟩
  have base : ∃ n, uniqueByte refs n c = .panic := by
    rcases uniqueByte_cases refs c with ⟨_, h, -⟩ | ⟨o, h⟩ | ⟨-, h⟩
    · exact absurd hd (dangling_no_call h)
    · obtain ⟨name, prop, ix, id, rfl, hi⟩ := hd
      have := h 0
      simp [uniqueByte, List.getElem?_eq_none hi] at this
    · exact ⟨1, h 0⟩
  have step : ∀ {c r}, ByteCall refs c r → (∃ n, uniqueByte refs n c = .panic) → ∃ n, uniqueByte refs n r = .panic := by
    rintro c r h ⟨n, hn⟩
    rcases uniqueByte_cases refs r with ⟨d, h', e⟩ | ⟨o, e⟩ | ⟨hd, -⟩
    · cases byteCall_det h h'
      exact ⟨n + 1, by rw [e, hn]⟩
    · exfalso
      have := e n
      cases h <;> simp_all [uniqueByte]
    · exact absurd hd (dangling_no_call h)
  rcases hc with rfl | hc
  · exact base
  · induction hc with
    | single h => exact step h base
    | tail _ h ih => exact step h ih

/-- `unique_byte` returns exactly on the rules from which it does not come back to the same rule, nor
to a reference to a rule that does not exist. -/
theorem C64_unique_byte_returns {refs : List Rule} {r : Rule} (hr : Part refs r) :
    (∃ o, UniqueByte refs r o) ↔ ¬ ByteLoops refs r ∧ ¬ ByteDangles refs r := by
  constructor
  · rintro ⟨o, n, h⟩
    refine ⟨fun hl => ?_, fun hd => ?_⟩
    · have := C31_unique_byte_runs_for_ever (fun r hr => byteLoops_step hr) hl n
      rw [h] at this
      cases this
    · obtain ⟨m, h'⟩ := C64_unique_byte_panics.2 hd
      have key : ∀ {n m : Nat} {r : Rule} {o}, uniqueByte refs n r = .ok o → uniqueByte refs m r ≠ .panic := by
        intro n
        induction n with
        | zero => intro m r o h; simp [uniqueByte] at h
        | succ n ih =>
          intro m r o h
          cases m with
          | zero => simp [uniqueByte]
          | succ m =>
            rcases uniqueByte_cases refs r with ⟨c, -, e⟩ | ⟨o', e⟩ | ⟨-, e⟩
            · rw [e] at h ⊢; exact ih h
            · rw [e]; simp
            · rw [e] at h; cases h
      exact key h h'
  · rintro ⟨hl, hd⟩
    have hacc := byteLoops_acc hr hl
    clear hr hl
    induction hacc with
    | intro r _ ih =>
      rcases uniqueByte_cases refs r with ⟨c, hc, e⟩ | ⟨o, e⟩ | ⟨h, -⟩
      · obtain ⟨o, n, h⟩ := ih c hc fun h => hd ((byteDangles_call hc).2 h)
        exact ⟨o, n + 1, by rw [e, h]⟩
      · exact ⟨o, 1, e 0⟩
      · exact absurd ⟨r, .inl rfl, h⟩ hd

theorem outside_occurs {x r : Rule} (h : OccursOutside x r) : Occurs x r := by
  induction h with
  | refl => exact .refl
  | step _ h' _ ih => exact .step ih h'

theorem outside_trans {x y r : Rule} (h : OccursOutside x y) (h' : OccursOutside y r) : OccursOutside x r := by
  induction h' with
  | refl => exact h
  | step _ hc hr ih => exact .step ih hc hr

/-- Where a rule is optimized, so are its parts. -/
theorem optimizeRule_child {refs : List Rule} {n : Nat} {c r r' : Rule} (hc : Child c r) (hr : NotTable r)
    (h : optimizeRule refs n r = .ok r') : ∃ c', optimizeRule refs n c = .ok c' := by
  have hm : ∀ {args args' : List Rule}, Comp.all (optimizeRules refs n args) = .ok args' → c ∈ args →
      ∃ c', optimizeRule refs n c = .ok c' := by
    intro args args' h hc
    rw [optimizeRules_eq] at h
    exact Comp.all_mem h _ (List.mem_map_of_mem hc)
  cases hc with
  | select hc =>
    simp only [optimizeRule] at h
    obtain ⟨t, u, args', -, h, -⟩ := optimizeSelect_ok (by simp [optimizeRules_eq]) h
    exact hm h hc
  | fast => exact absurd rfl (hr _ _ _ _)
  | sequence hc =>
    simp only [optimizeRule] at h
    obtain ⟨_, h, -⟩ := Comp.bind_ok.1 h
    exact hm h hc
  | item =>
    simp only [optimizeRule] at h
    obtain ⟨x, h, -⟩ := Comp.bind_ok.1 h
    exact ⟨x, h⟩
  | sep =>
    simp only [optimizeRule] at h
    obtain ⟨_, _, h⟩ := Comp.bind_ok.1 h
    obtain ⟨x, h, -⟩ := Comp.bind_ok.1 h
    exact ⟨x, h⟩
  | repeat_ | lines | optional | not =>
    simp only [optimizeRule] at h
    obtain ⟨x, h, -⟩ := Comp.bind_ok.1 h
    exact ⟨x, h⟩

theorem optimizeRule_outside {refs : List Rule} {n : Nat} {x r : Rule} (ho : OccursOutside x r) :
    ∀ {r'}, optimizeRule refs n r = .ok r' → ∃ x', optimizeRule refs n x = .ok x' := by
  induction ho with
  | refl => exact fun h => ⟨_, h⟩
  | step _ hc hr ih =>
    intro r' h
    obtain ⟨c', h⟩ := optimizeRule_child hc hr h
    exact ih h

/-- `optimize` returns exactly on the syntaxes on which it does not come to an alternative of a
select on which `unique_byte` calls itself without end or panics. -/
theorem C64_optimize_returns {syn : Syntax} :
    (∃ syn', Optimizes syn syn') ↔ ¬ OptimizerLoops syn.rules ∧ ¬ OptimizerDangles syn.rules := by
  constructor
  · rintro ⟨syn', n, h⟩
    suffices hr : ∀ q ∈ syn.rules, ∀ pre r post id, OccursOutside (.select (pre ++ r :: post) id) q →
        ComesAfter syn.rules pre → ∃ o, UniqueByte syn.rules r o ∧ Part syn.rules r by
      refine ⟨?_, ?_⟩
      · rintro ⟨q, hq, pre, r, post, id, ho, hp, hl⟩
        obtain ⟨o, h1, h2⟩ := hr q hq pre r post id ho hp
        exact ((C64_unique_byte_returns h2).1 ⟨o, h1⟩).1 hl
      · rintro ⟨q, hq, pre, r, post, id, ho, hp, hl⟩
        obtain ⟨o, h1, h2⟩ := hr q hq pre r post id ho hp
        exact ((C64_unique_byte_returns h2).1 ⟨o, h1⟩).2 hl
    intro q hq pre r post id ho hp
    obtain ⟨rules, h1, -⟩ := Comp.bind_ok.1 h
    obtain ⟨q', hq'⟩ := Comp.all_mem h1 _ (List.mem_map_of_mem hq)
    obtain ⟨x, hx⟩ := optimizeRule_outside ho hq'
    simp only [optimizeRule] at hx
    obtain ⟨t, u, _, ht, -⟩ := optimizeSelect_ok (by simp [optimizeRules_eq]) hx
    obtain ⟨o, hb⟩ := uniqueTable_looks hp ht
    exact ⟨o, ⟨n, hb⟩, q, hq, Occurs.trans (.step .refl (.select (by simp))) (outside_occurs ho)⟩
  · rintro ⟨h, h'⟩
    have hch : ∀ {c r}, Child c r → NotTable r → (∃ q ∈ syn.rules, OccursOutside r q) →
        ∃ q ∈ syn.rules, OccursOutside c q :=
      fun hc hr ⟨q, hq, ho⟩ => ⟨q, hq, outside_trans (.step .refl hc hr) ho⟩
    have hu : ∀ args id, (∃ q ∈ syn.rules, OccursOutside (.select args id) q) →
        ∃ n x, uniqueTable syn.rules n args = .ok x := by
      rintro args id ⟨q, hq, ho⟩
      refine uniqueTable_returns fun pre r post e hp => ?_
      subst e
      obtain ⟨o, n, hb⟩ := (C64_unique_byte_returns ⟨q, hq, Occurs.trans (.step .refl (.select (by simp)))
        (outside_occurs ho)⟩).2 ⟨fun hl => h ⟨q, hq, pre, r, post, id, ho, hp, hl⟩,
          fun hl => h' ⟨q, hq, pre, r, post, id, ho, hp, hl⟩⟩
      exact ⟨n, o, hb⟩
    obtain ⟨n, bs, hn⟩ := all_map_returns (f := optimizeRule syn.rules)
      (fun hnm h => optimizeRule_mono hnm _ _ h) syn.rules
      (fun r hr => optimizeRule_returns (S := fun r => ∃ q ∈ syn.rules, OccursOutside r q) hch hu r ⟨r, hr, .refl⟩)
    exact ⟨⟨bs, syn.names⟩, n, Comp.bind_ok.2 ⟨bs, hn, rfl⟩⟩

/-- No reference is to a rule that does not exist when indices are in range. -/
theorem optimizer_not_dangles {syn : Syntax} (hs : SyntaxOk syn) : ¬ OptimizerDangles syn.rules := by
  rintro ⟨q, hq, pre, r, post, id, ho, -, c, hc, name, prop, ix, id', rfl, hi⟩
  have hr : Part syn.rules r := ⟨q, hq, Occurs.trans (.step .refl (.select (by simp))) (outside_occurs ho)⟩
  have hp : Part syn.rules (.node name prop (some ix) id') := by
    rcases hc with rfl | hc
    · exact hr
    · clear ho
      induction hc with
      | single h => exact byteCall_part h hr
      | tail _ h ih => exact ih (byteCall_part h hr)
  obtain ⟨q, hq, hx⟩ := hp
  have := hs q hq _ hx
  simp only [IndexOk] at this
  omega

/-- Otherwise it runs for ever: it does not panic. -/
theorem C64_optimize_runs {syn : Syntax} (hs : SyntaxOk syn) :
    (∀ n, syn.optimize n = .timeout) ↔ OptimizerLoops syn.rules := by
  constructor
  · intro h
    refine Classical.byContradiction fun hl => ?_
    obtain ⟨syn', n, h'⟩ := C64_optimize_returns.2 ⟨hl, optimizer_not_dangles hs⟩
    rw [h n] at h'
    cases h'
  · intro hl n
    cases h : syn.optimize n with
    | timeout => rfl
    | panic => exact absurd h (optimize_ne_panic hs n)
    | ok syn' => exact absurd hl (C64_optimize_returns.1 ⟨syn', n, h⟩).1

/-- `1 a = [a "x"]` and a select. -/
def exRecursive (args : List Rule) : Syntax :=
  ⟨[.sequence [.node c!"a" none (some 0) 1, .tag c!"x" false false none 2] 3, .select args 4], [c!"a", c!"doc"]⟩

/-- `{"p" a}`: the optimizer comes to `a` after `"p"`. -/
example : ∀ n, (exRecursive [.tag c!"p" false false none 5, .node c!"a" none (some 0) 6]).optimize n = .timeout := by
  refine (C64_optimize_runs (C26_check_sound (by decide +kernel))).2 ⟨_, List.mem_cons_of_mem _ List.mem_cons_self,
    [.tag c!"p" false false none 5], _, [], 4, .refl, ⟨by simp, ?_, by simp⟩, ?_⟩
  · simp only [List.mem_singleton, forall_eq]
    exact ⟨0x70, 1, by decide +kernel⟩
  · have h : ∀ id, ByteCall (exRecursive [.tag c!"p" false false none 5, .node c!"a" none (some 0) 6]).rules
        (.sequence [.node c!"a" none (some 0) 1, .tag c!"x" false false none 2] 3)
        (.node c!"a" none (some 0) id) := fun id => .node rfl
    exact ⟨_, .inr (.single (h 6)), .tail (.single (h 1)) .sequence⟩

/-- `{"p" "p" a}`: it does not come to `a`, since the second alternative starts like the first. -/
example : ∃ syn', Optimizes (exRecursive [.tag c!"p" false false none 5, .tag c!"p" false false none 6,
    .node c!"a" none (some 0) 7]) syn' := ⟨_, 5, rfl⟩

/-- A select between a token and a reference to a rule that does not exist: the optimizer panics.
When a select with the same first byte twice comes first it never looks at the reference. -/
example : (exRecursive [.tag c!"p" false false none 5, .node c!"a" none (some 7) 6]).optimize 5 = .panic := rfl

example : ¬ ∃ syn', Optimizes (exRecursive [.tag c!"p" false false none 5, .node c!"a" none (some 7) 6]) syn' := by
  rw [C64_optimize_returns]
  intro h
  exact h.2 ⟨_, List.mem_cons_of_mem _ List.mem_cons_self, [.tag c!"p" false false none 5], _, [], 4, .refl,
    ⟨by simp, by simpa using ⟨0x70, 1, by decide +kernel⟩, by simp⟩, _, .inl rfl, _, _, _, _, rfl, by decide⟩

example : ∃ syn', Optimizes (exRecursive [.tag c!"p" false false none 5, .tag c!"p" false false none 6,
    .node c!"a" none (some 7) 7]) syn' := ⟨_, 5, rfl⟩

/-! ### `syntax` -/

/-- The documents for which `syntax` returns nothing. -/
theorem C64_meaning_runs {L : Lexer} (hL : L.Lawful) {text : Str} {doc : Doc} (h : Writes L text doc)
    (ht : ¬ doc.Overflows) :
    SyntaxRuns L text ↔
      ∃ rs, (Doc.read doc.strings doc.nodes).1 = some rs ∧ OptimizerLoops (syntaxOf rs).rules := by
  have hm := C46_meaning hL h ht
  have h1 := C46_one_outcome (L := L) (text := text)
  have hr : SyntaxRuns L text ↔ ¬ ∃ r, SyntaxReturns L text r := by
    constructor
    · rintro h ⟨r, hr⟩
      exact h1.2.2.1 r hr h
    · intro hn
      rcases h1.2.2.2.2 with h' | h' | h'
      · exact absurd h' hn
      · exact absurd h' (writes_no_panic hL h ht)
      · exact h'
  rw [hr]
  cases e : (Doc.read doc.strings doc.nodes).1 with
  | none =>
    rw [e] at hm
    simp only [reduceCtorEq, false_and, exists_false, iff_false, Classical.not_not]
    exact ⟨_, (hm _).2 rfl⟩
  | some rs =>
    rw [e] at hm
    have hs : (∃ syn', Optimizes (syntaxOf rs) syn') ↔ ¬ OptimizerLoops (syntaxOf rs).rules := by
      rw [C64_optimize_returns]
      exact and_iff_left (optimizer_not_dangles (syntaxOf_ok e))
    simp only [Option.some.injEq]
    constructor
    · intro hn
      refine ⟨rs, rfl, Classical.byContradiction fun hl => hn ?_⟩
      obtain ⟨syn, ho⟩ := hs.2 hl
      exact ⟨_, (hm _).2 ⟨syn, ho, rfl⟩⟩
    · rintro ⟨_, rfl, hl⟩ ⟨r, hr⟩
      obtain ⟨syn, ho, -⟩ := (hm r).1 hr
      exact hs.1 ⟨syn, ho⟩ hl

/-- The texts on which `syntax` runs for ever. -/
theorem C64_runs_iff {L : Lexer} (hL : L.Lawful) (hX : L.Exact) {text : Str} :
    SyntaxRuns L text ↔ ∃ doc : Doc, doc.Text L text ∧ ¬ doc.Overflows ∧
      ∃ rs, (Doc.read doc.strings doc.nodes).1 = some rs ∧ OptimizerLoops (syntaxOf rs).rules := by
  constructor
  · intro h
    rcases C46_returns hL text with ⟨r, hr⟩ | ⟨doc, hw, -, -⟩
    · exact absurd h (C46_one_outcome.2.2.1 r hr)
    · have ht : ¬ doc.Overflows := fun ht => C46_one_outcome.2.2.2.1 (writes_panics hL hw ht) h
      exact ⟨doc, writes_text hL hX hw, ht, (C64_meaning_runs hL hw ht).1 h⟩
  · rintro ⟨doc, hw, ht, h⟩
    exact (C64_meaning_runs hL (text_writes hL (exact_noSlash hX) hw) ht).2 h

/-- The texts on which `syntax` panics. -/
theorem C64_panics_iff {L : Lexer} (hL : L.Lawful) (hX : L.Exact) {text : Str} :
    SyntaxPanics L text ↔ ∃ doc : Doc, doc.Text L text ∧ doc.Overflows := by
  rw [C46_panics_iff hL]
  constructor
  · rintro ⟨doc, h, -, ho⟩
    exact ⟨doc, writes_text hL hX h, ho⟩
  · rintro ⟨doc, h, ho⟩
    obtain ⟨toks, h', hd⟩ := text_writes hL (exact_noSlash hX) h
    obtain ⟨doc', hw, hd'⟩ := C46_accepted_is_document h'
    cases writes_unique ⟨toks, h', hd⟩ ⟨toks, h', hd'⟩
    exact ⟨doc, ⟨toks, h', hd⟩, hw, ho⟩

/-- The texts for which `syntax` returns an error: those not in the notation, and those in which the
rule of a node depends on an undefined string.  The others return the rules (`C53_returns_iff`). -/
theorem C64_error_iff {L : Lexer} (hL : L.Lawful) (hX : L.Exact) {text : Str} :
    (∃ e, SyntaxReturns L text (.error e)) ↔ (¬ ∃ doc : Doc, doc.Text L text) ∨
      ∃ doc : Doc, doc.Text L text ∧ ¬ doc.Overflows ∧ (Doc.read doc.strings doc.nodes).1 = none := by
  constructor
  · rintro ⟨e, h⟩
    by_cases hd : ∃ doc : Doc, doc.Text L text
    · obtain ⟨doc, hd⟩ := hd
      have hw := text_writes hL (exact_noSlash hX) hd
      have ht : ¬ doc.Overflows := fun ht => C46_one_outcome.2.1 _ h (writes_panics hL hw ht)
      refine .inr ⟨doc, hd, ht, ?_⟩
      have := (C46_meaning hL hw ht _).1 h
      split at this
      · assumption
      · obtain ⟨_, _, h⟩ := this
        cases h
    · exact .inl hd
  · rintro (h | ⟨doc, h, ht, e⟩)
    · exact C53_rejects_others hL hX h
    · have hm := C49_meaning hL (exact_noSlash hX) h ht
      rw [e] at hm
      exact ⟨_, (hm _).2 rfl⟩

end Verif.Props
