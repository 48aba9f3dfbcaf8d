import Verif.Spec.SyntaxCost
import Verif.Props.RefsCost
import Verif.Props.ByteCost
import Verif.Props.Linear
/-
C101: what `syntax` costs altogether.
-/
namespace Verif.Props
open Spec

variable {L : Lexer}

/-- `convertAll` returns what `convert` returns, with the same fuel. -/
theorem convertAll_erase (n : Nat) (data : List Tok) (ignored : List Range) :
    convert n data ignored =
      (match Counted.convertAll n data ignored with
        | .ok (r, l, _) => .ok (r.map (·.1), l)
        | .panic => .panic
        | .timeout => .timeout) := by
  have h := (counts_rawM n data).eq ⟨0, ignored⟩
  unfold convert Counted.convertAll
  rw [convertM_raw]
  simp only [Bind.bind, CM.bind]
  rw [← h]
  cases Counted.rawM n data ⟨0, ignored⟩ with
  | panic => rfl
  | timeout => rfl
  | ok x =>
    obtain ⟨r, st, k⟩ := x
    cases r with
    | none => rfl
    | some r =>
      show Comp.ok (some r.updateRefs, st.ignored) = Comp.ok (some r.updateRefsCounted.1, st.ignored)
      rw [C100_same]

theorem readSyntaxWork_erase (n : Nat) (text : Str) :
    (readSyntaxWork L n text >>= fun x => Pure.pure x.1) = readSyntax L n text := by
  unfold readSyntaxWork readSyntax
  cases bootstrapRules.optimize n with
  | panic => rfl
  | timeout => rfl
  | ok bs =>
    show ((match parse L n bs text [] with | .timeout => _ | .panic => _ | .err e _ => _ | .ok tokens => _) >>= _) =
      (match parse L n bs text [] with | .timeout => _ | .panic => _ | .err e _ => _ | .ok tokens => _)
    cases parse L n bs text [] with
    | timeout => rfl
    | panic => rfl
    | err => rfl
    | ok toks =>
      show ((Counted.convertAll n toks [] >>= _) >>= _) = convert n toks [] >>= _
      rw [convertAll_erase]
      cases Counted.convertAll n toks [] with
      | panic => rfl
      | timeout => rfl
      | ok x =>
        obtain ⟨o, ig, k⟩ := x
        cases o with
        | none => rfl
        | some o =>
          obtain ⟨s, u, v⟩ := o
          show ((s.optimizeCounted n >>= _) >>= _) = s.optimize n >>= _
          have h1 := optimizeCounted_erase (n := n) s
          have h2 := optimizeBytes_erase (n := n) s
          cases hc : s.optimizeCounted n with
          | panic => rw [hc] at h1; rw [← h1]; rfl
          | timeout => rw [hc] at h1; rw [← h1]; rfl
          | ok y =>
            rw [hc] at h1
            rw [← h1] at h2 ⊢
            cases hb : s.optimizeBytes n with
            | panic => rw [hb] at h2; cases h2
            | timeout => rw [hb] at h2; cases h2
            | ok z =>
              rfl

/-- C101: the work of `syntax` is defined whenever it returns. -/
theorem C101_same {text : Str} {r : Except RErr Syntax} : SyntaxReturns L text r ↔ ∃ w, SyntaxWorks L text r w := by
  constructor
  · rintro ⟨n, h⟩
    rw [← readSyntaxWork_erase] at h
    obtain ⟨⟨r', w⟩, h', e⟩ := Comp.bind_ok.1 h
    cases e
    exact ⟨w, n, h'⟩
  · rintro ⟨w, n, h⟩
    refine ⟨n, ?_⟩
    rw [← readSyntaxWork_erase]
    exact Comp.bind_ok.2 ⟨_, h, rfl⟩

/-- C101: what the numbers are: those of C89, C96, C100, C80 and C93. -/
theorem C101_parts (hL : L.Lawful) {text : Str} {r : Except RErr Syntax} {w : Work} (h : SyntaxWorks L text r w) :
    ∃ bs d, Optimizes bootstrapRules bs ∧ Costs L bs text [] Indent.default w.parse d ∧
      ((∃ e, r = .error e ∧ (∃ e' toks, Parses L bootstrapRules text [] Indent.default (.err e' toks)) ∧
          w.convert = 0 ∧ w.update = 0 ∧ w.names = 0 ∧ w.optimize = 0 ∧ w.bytes = 0) ∨
        ∃ data, Parses L bootstrapRules text [] Indent.default (.ok data) ∧
          ((r = .error conversionError ∧ (∃ ig, ConvertsIn data [] none ig w.convert) ∧ w.update = 0 ∧ w.names = 0 ∧
              w.optimize = 0 ∧ w.bytes = 0) ∨
            ∃ syn syn' ig, ResolvesIn data [] syn ig w.convert w.update w.names ∧ r = .ok syn' ∧
              OptimizesIn syn syn' w.optimize ∧ OptimizesBytes syn syn' w.bytes)) := by
  obtain ⟨n, h⟩ := h
  obtain ⟨bs, hb, h⟩ := Comp.bind_ok.1 h
  have ho : Optimizes bootstrapRules bs := ⟨n, hb⟩
  obtain ⟨c, hc⟩ : ∃ c, firstCall bs text [] Indent.default = some c := by
    have := (bootOpt hL ho).document
    simp [firstCall, this]
  have hp : ∀ o, parse L n bs text [] = o → o ≠ .timeout → Costs L bs text [] Indent.default (callCount L bs.rules n c)
      (callDepth L bs.rules n c) := by
    rintro o rfl hn
    refine ⟨n, c, hc, fun ht => hn ?_, rfl, rfl⟩
    unfold firstCall at hc
    obtain ⟨r, hr, rfl⟩ := Option.map_eq_some_iff.1 hc
    unfold parse parseWithIndent
    rw [hr]
    simp only [Call.run] at ht
    simp only [ht]
  simp only [hc] at h
  cases hq : parse L n bs text [] with
  | timeout => rw [hq] at h; cases h
  | panic => rw [hq] at h; cases h
  | err e toks =>
    rw [hq] at h
    cases h
    have h1 := (C27_rejects_the_same_partial hL ho (boot_tails hL _) text []).2 ⟨e, toks, by simp, n, hq⟩
    exact ⟨bs, _, ho, hp _ hq (by simp), .inl ⟨e, rfl, h1, rfl, rfl, rfl, rfl, rfl⟩⟩
  | ok data =>
    rw [hq] at h
    have h1 := (C27_accepts_the_same_partial hL ho (boot_tails hL _) text [] data).2 ⟨by simp, n, hq⟩
    obtain ⟨⟨o, ig, k⟩, h2, h⟩ := Comp.bind_ok.1 h
    cases o with
    | none =>
      cases h
      refine ⟨bs, _, ho, hp _ hq (by simp), .inr ⟨data, h1, .inl ⟨rfl, ⟨ig, n, ?_⟩, rfl, rfl, rfl, rfl⟩⟩⟩
      rw [C100_erase, h2]
      rfl
    | some o =>
      obtain ⟨s, u, v⟩ := o
      obtain ⟨⟨syn', o⟩, h3, h⟩ := Comp.bind_ok.1 h
      obtain ⟨⟨syn'', b⟩, h4, h⟩ := Comp.bind_ok.1 h
      cases h
      have h5 : syn'' = syn' := by
        have e1 := optimizeCounted_erase (n := n) s
        have e2 := optimizeBytes_erase (n := n) s
        rw [h3] at e1
        rw [h4, ← e1] at e2
        cases e2
        rfl
      subst h5
      exact ⟨bs, _, ho, hp _ hq (by simp), .inr ⟨data, h1, .inr ⟨s, syn'', ig, ⟨n, h2⟩, rfl, ⟨n, h3⟩, ⟨n, h4⟩⟩⟩⟩

/-- Of two characters at most one is such a place. -/
theorem unclosed_half : ∀ s : Str, 2 * unclosed s ≤ s.length
  | [] => Nat.le_refl _
  | c :: t => by
    rw [unclosed]
    split
    · next h =>
      obtain ⟨u, e, -⟩ := h
      cases e
      have h1 := unclosed_half u
      have h2 : ¬ Unclosed ('*' :: u) := by
        rintro ⟨v, e, -⟩
        cases e
      rw [unclosed, if_neg h2]
      simp only [List.length_cons]
      omega
    · have h1 := unclosed_half t
      simp only [List.length_cons]
      omega

/-- C101: bounds of all of them by the number of characters. -/
theorem C101_bounds (hL : L.Lawful) (hX : L.Exact) {text : Str} {r : Except RErr Syntax} {w : Work}
    (h : SyntaxWorks L text r w) :
    w.parse ≤ 2030 * ((text.length + 1) * 2 ^ unclosed text) ∧ 2 * unclosed text ≤ text.length ∧
    w.convert ≤ 32 * text.length ^ 2 + 80 * text.length + 3 ∧
    w.update ≤ text.length - 5 ∧
    40 * w.names ≤ (text.length + 1) ^ 2 ∧
    w.optimize ≤ 2 ^ ((text.length - 6) / 6) * (text.length - 5) ∧
    w.bytes ≤ w.optimize * (text.length - 5) := by
  obtain ⟨bs, d, ho, hp, h⟩ := C101_parts hL h
  refine ⟨C89_optimized hL hX ho hp, unclosed_half text, ?_⟩
  rcases h with ⟨e, -, -, h1, h2, h3, h4, h5⟩ | ⟨data, hd, ⟨-, ⟨ig, h1⟩, h2, h3, h4, h5⟩ | ⟨syn, syn', ig, h1, -, h2, h3⟩⟩
  · simp only [h1, h2, h3, h4, h5, Nat.zero_le, Nat.mul_zero, Nat.zero_mul, and_self]
  · have := C97_convert hL hX hd h1
    simp only [h2, h3, h4, h5, Nat.zero_le, Nat.mul_zero, Nat.zero_mul, and_self, this]
  · have e1 := C97_convert hL hX hd (C100_convert.2 ⟨_, _, h1⟩)
    obtain ⟨e2, e3⟩ := C100_file hL hX hd h1
    obtain ⟨doc, g1, g2⟩ := parses_text hL hX hd
    obtain ⟨-, rs, g3, rfl, g4, -⟩ := resolves_doc g2 h1
    obtain ⟨f1, -, -, f4⟩ := doc_fits _ g3
    have g5 := doc_wide hL g1
    have hs : (syntaxOf rs).rules = Rule.updateRefsL (rs.map (·.1)) (rs.map (·.2)) := by
      rw [updateRefsL_map]
      simp [syntaxOf, Function.comp_def]
    have g6 : outerSizes (syntaxOf rs).rules = w.update := by
      rw [hs, outerSizes_updateRefs, g4]
    have e4 : w.update ≤ text.length - 5 := by
      cases rs with
      | nil => simp [g4, outerSizes]
      | cons x rs => simp only [syntaxOf, List.length_map, List.length_cons] at e2; omega
    have g7 : nestings (syntaxOf rs).rules (syntaxOf rs).rules ≤ (text.length - 6) / 6 := by
      refine Nat.le_trans (m := Desc.wideL (doc.nodes.map (·.2.2))) ?_ ?_
      · have := f4 (syntaxOf rs).rules (rs.map (·.1))
        rwa [← hs] at this
      · generalize doc.nodes = ns at g5
        induction ns with
        | nil => simp [Desc.wideL]
        | cons n ns ih =>
          have := g5 n (by simp)
          have := ih fun m hm => g5 m (by simp [hm])
          simp only [List.map_cons, Desc.wideL]
          omega
    have g8 := (C80_bounds h2).2
    have g9 := C93_bound h3 h2
    rw [g6] at g8 g9
    refine ⟨e1, e4, e3, Nat.le_trans g8 ?_, Nat.le_trans g9 ?_⟩
    · exact Nat.mul_le_mul (Nat.pow_le_pow_right (by omega) g7) e4
    · exact Nat.mul_le_mul (Nat.sub_le _ _) e4

/-- C101: never more than this. -/
theorem C101_total (hL : L.Lawful) (hX : L.Exact) {text : Str} {r : Except RErr Syntax} {w : Work}
    (h : SyntaxWorks L text r w) : w.total ≤ 2200 * (text.length + 1) ^ 2 * 2 ^ (text.length / 2) := by
  obtain ⟨h1, h2, h3, h4, h5, h6, h7⟩ := C101_bounds hL hX h
  generalize text.length = t at *
  have p1 : 2 ^ unclosed text ≤ 2 ^ (t / 2) := Nat.pow_le_pow_right (by omega) (by omega)
  have p2 : 2 ^ ((t - 6) / 6) ≤ 2 ^ (t / 2) := Nat.pow_le_pow_right (by omega) (by omega)
  have p3 := Nat.two_pow_pos (t / 2)
  generalize 2 ^ unclosed text = U at *
  generalize 2 ^ ((t - 6) / 6) = V at *
  generalize 2 ^ (t / 2) = P at *
  have x1 : (t + 1) ^ 2 = t * t + 2 * t + 1 := by
    rw [Nat.pow_two, Nat.add_mul, Nat.mul_add]
    omega
  have x2 : t ^ 2 = t * t := Nat.pow_two t
  have x3 : t - 5 + (t - 5) * (t - 5) ≤ (t + 1) ^ 2 := by
    rw [x1]
    have := Nat.mul_le_mul (Nat.sub_le t 5) (Nat.sub_le t 5)
    omega
  have q1 : (t + 1) * U ≤ (t + 1) ^ 2 * P := Nat.mul_le_mul (by omega) p1
  have q2 : (t + 1) ^ 2 ≤ (t + 1) ^ 2 * P := Nat.le_mul_of_pos_right _ p3
  have q3 : w.optimize + w.bytes ≤ (t + 1) ^ 2 * P := by
    have y1 : w.optimize ≤ P * (t - 5) := Nat.le_trans h6 (Nat.mul_le_mul_right _ p2)
    have y2 : w.bytes ≤ P * (t - 5) * (t - 5) := Nat.le_trans h7 (Nat.mul_le_mul_right _ y1)
    have y3 := Nat.mul_le_mul_left P x3
    rw [Nat.mul_add, ← Nat.mul_assoc, Nat.mul_comm P ((t + 1) ^ 2)] at y3
    omega
  have q4 : 2200 * (t + 1) ^ 2 * P = 2200 * ((t + 1) ^ 2 * P) := Nat.mul_assoc ..
  rw [q4]
  unfold Work.total
  generalize (t + 1) ^ 2 * P = A at *
  generalize (t + 1) ^ 2 = X at *
  generalize t * t = y at *
  generalize (t + 1) * U = z at *
  omega

/-- C101: if no comment is left open and no select is tried twice by the optimizer, at most quadratic. -/
theorem C101_quadratic (hL : L.Lawful) (hX : L.Exact) {text : Str} (hu : ∀ u, u <:+ text → ¬ Unclosed u)
    (ht : ∀ syn, SaysSyntax L text syn → ∀ q ∈ syn.rules, ∀ args id, OccursOutside (.select args id) q → ¬ TriedTwice syn.rules args)
    {r : Except RErr Syntax} {w : Work} (h : SyntaxWorks L text r w) :
    w.total ≤ 34 * text.length ^ 2 + 2113 * text.length + 2034 := by
  obtain ⟨h1, -, h3, h4, h5, -, h7⟩ := C101_bounds hL hX h
  have h6 : w.optimize ≤ w.update := by
    obtain ⟨bs, d, ho, hp, h⟩ := C101_parts hL h
    rcases h with ⟨e, -, -, -, -, -, e, -⟩ | ⟨data, hd, ⟨-, -, -, -, e, -⟩ | ⟨syn, syn', ig, e1, -, e2, -⟩⟩
    · omega
    · omega
    · have hc := C96_defined.2 ⟨_, C100_convert.2 ⟨_, _, e1⟩⟩
      rw [C80_linear e2 (ht syn ⟨data, ig, hd, hc⟩)]
      obtain ⟨doc, g1, g2⟩ := parses_text hL hX hd
      obtain ⟨-, rs, g3, rfl, g4, -⟩ := resolves_doc g2 e1
      have hs : (syntaxOf rs).rules = Rule.updateRefsL (rs.map (·.1)) (rs.map (·.2)) := by
        rw [updateRefsL_map]
        simp [syntaxOf, Function.comp_def]
      rw [hs, outerSizes_updateRefs, g4]
      exact Nat.le_refl _
  rw [unclosed_zero.2 hu, Nat.pow_zero, Nat.mul_one] at h1
  generalize text.length = t at *
  have x1 : (t + 1) ^ 2 = t * t + 2 * t + 1 := by
    rw [Nat.pow_two, Nat.add_mul, Nat.mul_add]
    omega
  have x2 : t ^ 2 = t * t := Nat.pow_two t
  have x3 : w.bytes ≤ t * t := Nat.le_trans h7 (Nat.mul_le_mul (by omega) (by omega))
  have x4 : t ≤ t * t := by
    rcases Nat.eq_zero_or_pos t with rfl | h
    · omega
    · exact Nat.le_mul_of_pos_left _ h
  rw [x2] at h3 ⊢
  rw [x1] at h5
  unfold Work.total
  omega

/-! ### The exponent of the optimizer -/

theorem boxText_length : ∀ k, (boxText k).length = 6 * k + 1
  | 0 => rfl
  | k + 1 => by simp [boxText, boxText_length k]; omega

theorem boxB_text : Desc.Text L (.reference c!"b" none) c!"b" := ⟨[], by decide, by decide, rfl, rfl⟩

theorem boxDesc_text : ∀ k, (boxDesc k).Text L (boxText k)
  | 0 => boxB_text
  | k + 1 => by
    simp only [boxDesc, Desc.Text, boxText]
    refine ⟨by simp, c!"b b " ++ boxText k, ⟨[], c!"b", c!" b " ++ boxText k, by decide, boxB_text,
      ⟨c!" ", c!"b", c!" " ++ boxText k, by decide, boxB_text, ⟨c!" ", boxText k, [], by decide, boxDesc_text k,
        by simp [Desc.TextL, Space], by simp, by simp⟩, fun _ => ⟨' ', rfl, rfl⟩, rfl⟩, fun _ => ⟨' ', rfl, rfl⟩, rfl⟩, by simp⟩

theorem boxDesc_read : ∀ k i, (boxDesc k).read [] i = (some (boxRule k i), i + (3 * k + 1), 0)
  | 0, i => by simp [boxDesc, Desc.read, boxRule, propMissing]
  | k + 1, i => by
    simp only [boxDesc, Desc.read, Desc.readL, boxRule, boxDesc_read k, propMissing]
    have e : i + 1 + 1 + (3 * k + 1) + 1 = i + (3 * k + 4) := by omega
    have e' : i + (3 * (k + 1) + 1) = i + (3 * k + 4) := by omega
    simp [drop1, e, e']

theorem boxRule_refs : ∀ k i, (boxRule k i).updateRefs [c!"a"] = boxRule k i
  | 0, i => by simp only [boxRule, Rule.updateRefs]; rfl
  | k + 1, i => by
    have : findName c!"b" 0 [c!"a"] = none := rfl
    simp [boxRule, Rule.updateRefs, Rule.updateRefsL, boxRule_refs k, this]

theorem boxRule_triedTwice {refs : List Rule} (k i j : Nat) :
    TriedTwice refs [.node c!"b" none none i, .node c!"b" none none j, boxRule k j] := by
  rintro ⟨b, _, h, -⟩
  cases h with
  | call h => cases h

theorem boxRule_work {refs : List Rule} : ∀ k i, optWork refs (boxRule k i) = 5 * 2 ^ k - 4
  | 0, i => by simp [boxRule, optWork]
  | k + 1, i => by
    have := one_le_pow k
    simp only [boxRule, optWork, if_pos (boxRule_triedTwice k (i + 1) (i + 2)), optWorks, optWorksRest,
      boxRule_work k, Nat.pow_succ]
    omega

theorem boxRule_optimized {refs : List Rule} : ∀ k i, Optimized refs (boxRule k i) (boxRule k i)
  | 0, i => by simp only [boxRule]; exact .node
  | k + 1, i => by
    simp only [boxRule]
    exact .select (t := fun _ => 255) (u := 0) ⟨1, rfl⟩ (by omega)
      (.cons .node (.cons .node (.cons (boxRule_optimized k _) .nil)))

/-- C101: the exponent in the bound for the optimizer is the right one: for the rule files `0 a ={b b {b b .. b}}` it
is the number of selects, and there are `5 * 2 ^ k - 4` calls of `optimize_rule`. -/
theorem C101_boxes (hL : L.Lawful) (hX : L.Exact) (hz : ReadsZero L) {k : Nat} (hk : k < 2 ^ 60) :
    ((boxFile k).length - 6) / 6 = k ∧ (∃ r w, SyntaxWorks L (boxFile k) r w) ∧
    ∀ r w, SyntaxWorks L (boxFile k) r w → r = .ok ⟨[boxRule k 0], [c!"a"]⟩ ∧ w.optimize = 5 * 2 ^ k - 4 := by
  refine ⟨by simp [boxFile, boxText_length], ?_⟩
  have hd : Doc.Text L ⟨[], [(⟨0⟩, c!"a", boxDesc k)]⟩ (boxFile k) := by
    refine ⟨[], [.node ⟨0⟩ c!"a" (boxDesc k)], by simp, by simp [Entry.isString], ?_, rfl, rfl⟩
    refine ⟨[], boxFile k, [], by decide, by simp, ?_, by simp [EntriesText, Space], by simp⟩
    exact ⟨c!"0", c!" ", c!" ", [], boxText k, hz _ _ (by decide), by decide, by decide, by decide, by decide,
      by decide, by decide, by decide, boxDesc_text k, rfl⟩
  have hu : (⟨0⟩ : F64).toUsize * 1000 = 0 := by decide +kernel
  have hr : Doc.read [] [(⟨0⟩, c!"a", boxDesc k)] = (some [(c!"a", boxRule k 0)], 0) := by
    simp only [Doc.read, hu, boxDesc_read]
    rfl
  have hs : syntaxOf [(c!"a", boxRule k 0)] = ⟨[boxRule k 0], [c!"a"]⟩ := by simp [syntaxOf, boxRule_refs]
  have ho : ¬ (⟨[], [(⟨0⟩, c!"a", boxDesc k)]⟩ : Doc).Overflows := by
    show ¬ Doc.Overflow [] [(⟨0⟩, c!"a", boxDesc k)]
    simp only [Doc.Overflow, hu, boxDesc_read]
    simp
    omega
  have hw := text_writes hL (exact_noSlash hX) hd
  have hm := C46_meaning hL hw ho (.ok ⟨[boxRule k 0], [c!"a"]⟩)
  simp only [hr, hs] at hm
  have hret := hm.2 ⟨_, C72_optimized.2 ⟨rfl, .cons (boxRule_optimized k 0) .nil⟩, rfl⟩
  refine ⟨⟨_, C101_same.1 hret⟩, fun r w h => ?_⟩
  cases C46_one_outcome.1 _ _ hret (C101_same.2 ⟨w, h⟩)
  refine ⟨rfl, ?_⟩
  obtain ⟨bs, d, -, -, h⟩ := C101_parts hL h
  obtain ⟨data, h1, h2⟩ := hw
  rcases h with ⟨e, h, -⟩ | ⟨data', hd', ⟨h, -⟩ | ⟨syn0, syn', ig, e1, -, e2, -⟩⟩
  · cases h
  · cases h
  · cases parses_det h1 hd'
    obtain ⟨-, rs, e, rfl, -⟩ := resolves_doc h2 e1
    rw [hr] at e
    cases e
    rw [(C80_calls.1 e2).2, hs]
    simp [optWorks, boxRule_work]

/-- The file `0 a ={b b {b b b}}` of 18 characters: 16 calls for a rule with seven parts, and never more than the bound. -/
example : ∃ r w, SyntaxWorks stdLexer c!"0 a ={b b {b b b}}" r w ∧ w.optimize = 16 ∧
    w.total ≤ 2200 * 19 ^ 2 * 2 ^ 9 := by
  obtain ⟨-, ⟨r, w, h⟩, h1⟩ := C101_boxes stdLexer_lawful stdLexer_exact std_readsZero (k := 2) (by decide)
  exact ⟨r, w, h, (h1 r w h).2, C101_total stdLexer_lawful stdLexer_exact h⟩

end Verif.Props
