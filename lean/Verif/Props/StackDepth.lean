import Verif.Proofs.StackDepth
import Verif.Props.ConvertDepth
import Verif.Props.SyntaxCost
/-
C102: how deep `syntax` calls itself.
-/
namespace Verif.Props
open Spec

variable {L : Lexer}

/-- C102: the calls of `update_refs` are exactly as deep as the rules, apart from tables. -/
theorem C102_update {d : Nat} {syn syn' : Syntax} :
    syn.updateRefsTo d = .ok syn' ↔ syn' = syn.updateRefs ∧ outerDepths syn.rules ≤ d := updateRefsTo_syntax

/-- C102: those of `optimize_rule`, with those of `unique_byte` inside them, exactly this. -/
theorem C102_optimize {d : Nat} {syn syn' : Syntax} :
    syn.optimizeTo d = .ok syn' ↔ Optimizes syn syn' ∧ optDepths syn.rules syn.rules ≤ d := optimizeTo_iff

/-- C102: they are at least as deep as the rules, and deeper by the number of rules at most. -/
theorem C102_optimize_bounds (syn : Syntax) : outerDepths syn.rules ≤ optDepths syn.rules syn.rules ∧
    optDepths syn.rules syn.rules ≤ outerDepths syn.rules + outerSizes syn.rules :=
  ⟨outerDepths_le_opt _, optDepths_bound fun r hr => ⟨r, hr, .refl⟩⟩

/-- C102: `parse` by the rules for rule files. -/
theorem C102_parse (hL : L.Lawful) {bs : Syntax} (hb : Optimizes bootstrapRules bs) {text : Str} {m e : Nat}
    (h : Costs L bs text [] Indent.default m e) : e + 1 ≤ 362 * (text.length + 1) := by
  have hr : (∃ o, Parses L bootstrapRules text [] Indent.default o) ∧ ¬ Parses L bootstrapRules text [] Indent.default .panic := by
    rcases C46_bootstrap_returns hL text [] Indent.default with ⟨t, h⟩ | ⟨er, t, h⟩
    · exact ⟨⟨_, h⟩, fun h' => by cases parses_det h h'⟩
    · exact ⟨⟨_, h⟩, fun h' => by cases parses_det h h'⟩
  obtain ⟨m', d', h'⟩ := (C70_cost_defined (by decide +kernel)).1 hr.1
  have h1 := (C88_bootstrap hL hb hr.2 h' h).2
  have h2 := C70_bootstrap_depth hL h'
  omega

/-- C102: `syntax` stays within a depth if `parse` does, `convert` does and `optimize` does; then `update_refs` does. -/
theorem C102_parts (hL : L.Lawful) {d : Nat} {text : Str} {r : Except RErr Syntax} :
    SyntaxWithin L d text r ↔ ∃ bs m e, Optimizes bootstrapRules bs ∧ Costs L bs text [] Indent.default m e ∧ e ≤ d ∧
      ((∃ er toks, Parses L bs text [] Indent.default (.err er toks) ∧ r = .error er) ∨
        ∃ data, Parses L bs text [] Indent.default (.ok data) ∧
          ((r = .error conversionError ∧ ∃ ig, ConvertsWithin d data [] none ig) ∨
            ∃ syn syn' ig, ConvertsWithin d data [] (some syn) ig ∧ Optimizes syn syn' ∧
              optDepths syn.rules syn.rules ≤ d ∧ r = .ok syn')) := by
  constructor
  · rintro ⟨n, h⟩
    obtain ⟨bs, hb, h⟩ := Comp.bind_ok.1 h
    have ho : Optimizes bootstrapRules bs := ⟨n, hb⟩
    obtain ⟨c, hc⟩ : ∃ c, firstCall bs text [] Indent.default = some c := by
      have := (bootOpt hL ho).document
      simp [firstCall, this]
    split at h
    · cases h
    · rename_i hd
      simp only [parseDepth, hc] at hd
      have hp : ∀ o, parse L n bs text [] = o → o ≠ .timeout → Costs L bs text [] Indent.default (callCount L bs.rules n c)
          (callDepth L bs.rules n c) := by
        rintro o rfl hn
        refine ⟨n, c, hc, fun ht => hn ?_, rfl, rfl⟩
        unfold firstCall at hc
        obtain ⟨r, hr, rfl⟩ := Option.map_eq_some_iff.1 hc
        unfold parse parseWithIndent
        rw [hr]
        simp only [Call.run] at ht
        simp only [ht]
      cases hq : parse L n bs text [] with
      | timeout => rw [hq] at h; cases h
      | panic => rw [hq] at h; cases h
      | err e toks =>
        rw [hq] at h
        cases h
        exact ⟨bs, _, _, ho, hp _ hq (by simp), by omega, .inl ⟨e, toks, ⟨by simp, n, hq⟩, rfl⟩⟩
      | ok data =>
        rw [hq] at h
        refine ⟨bs, _, _, ho, hp _ hq (by simp), by omega, .inr ⟨data, ⟨by simp, n, hq⟩, ?_⟩⟩
        obtain ⟨o, h2, h⟩ := Comp.bind_ok.1 h
        obtain ⟨ig, h2⟩ := convertAllTo_iff.1 h2
        cases o with
        | none =>
          cases h
          exact .inl ⟨rfl, ig, n, h2⟩
        | some syn =>
          obtain ⟨syn', h3, h⟩ := Comp.bind_ok.1 h
          cases h
          obtain ⟨h3, h4⟩ := optimizeTo_iff.1 h3
          exact .inr ⟨syn, syn', ig, ⟨n, h2⟩, h3, h4, rfl⟩
  · rintro ⟨bs, m, e, ⟨n1, hb⟩, ⟨n2, c, hc, hne, -, rfl⟩, hd, h⟩
    have hdepth : ∀ n, n2 ≤ n → ¬ d < parseDepth L n bs text := by
      intro n hn
      simp only [parseDepth, hc, callDepth_stable hn hne]
      omega
    have hboot : ∀ {n}, n1 ≤ n → bootstrapRules.optimize n = .ok bs := fun hn => optimize_mono hn hb
    rcases h with ⟨er, toks, ⟨hn, n3, h⟩, rfl⟩ | ⟨data, ⟨hn, n3, h⟩, h'⟩
    · refine ⟨max n1 (max n2 n3), Comp.bind_ok.2 ⟨bs, hboot (by omega), ?_⟩⟩
      have hp := parse_mono (n := n3) (m := max n1 (max n2 n3)) (by omega) (by rw [h]; exact hn)
      rw [h] at hp
      rw [if_neg (hdepth _ (by omega)), show parse L _ bs text [] = .err er toks from hp]
      rfl
    · have hp : ∀ n, n3 ≤ n → parse L n bs text [] = .ok data := by
        intro n h3
        have := parse_mono h3 (by rw [h]; exact hn)
        rwa [h] at this
      rcases h' with ⟨rfl, ig, n4, h4⟩ | ⟨syn, syn', ig, ⟨n4, h4⟩, h5, h6, rfl⟩
      · refine ⟨max (max n1 n2) (max n3 n4), Comp.bind_ok.2 ⟨bs, hboot (by omega), ?_⟩⟩
        rw [if_neg (hdepth _ (by omega)), hp _ (by omega)]
        exact Comp.bind_ok.2 ⟨none, convertAllTo_iff.2 ⟨ig, convertTo_fuel (by omega) h4⟩, rfl⟩
      · refine ⟨max (max n1 n2) (max n3 n4), Comp.bind_ok.2 ⟨bs, hboot (by omega), ?_⟩⟩
        rw [if_neg (hdepth _ (by omega)), hp _ (by omega)]
        exact Comp.bind_ok.2 ⟨some syn, convertAllTo_iff.2 ⟨ig, convertTo_fuel (by omega) h4⟩,
          Comp.bind_ok.2 ⟨syn', optimizeTo_iff.2 ⟨h5, h6⟩, rfl⟩⟩

/-- C102: what `syntax` returns within a depth is what it returns. -/
theorem C102_same (hL : L.Lawful) {d : Nat} {text : Str} {r : Except RErr Syntax} (hw : SyntaxWithin L d text r) :
    SyntaxReturns L text r := by
  obtain ⟨bs, m, e, ⟨n1, hb⟩, -, -, h⟩ := (C102_parts hL).1 hw
  rcases h with ⟨er, toks, ⟨hn, n3, h⟩, rfl⟩ | ⟨data, ⟨hn, n3, h⟩, h'⟩
  · have hp := parse_mono (n := n3) (m := max n1 n3) (by omega) (by rw [h]; exact hn)
    rw [h] at hp
    refine ⟨max n1 n3, Comp.bind_ok.2 ⟨bs, optimize_mono (by omega) hb, ?_⟩⟩
    rw [show parse L _ bs text [] = .err er toks from hp]
    rfl
  · have hp : ∀ n, n3 ≤ n → parse L n bs text [] = .ok data := by
      intro n h3
      have := parse_mono h3 (by rw [h]; exact hn)
      rwa [h] at this
    rcases h' with ⟨rfl, ig, h4⟩ | ⟨syn, syn', ig, h4, ⟨n5, h5⟩, h6, rfl⟩
    · obtain ⟨n4, h4⟩ := C99_same h4
      refine ⟨max n1 (max n3 n4), Comp.bind_ok.2 ⟨bs, optimize_mono (by omega) hb, ?_⟩⟩
      rw [hp _ (by omega)]
      exact Comp.bind_ok.2 ⟨(_, ig), by rw [convert_mono (n := n4) (by omega) (by rw [h4]; simp), h4], rfl⟩
    · obtain ⟨n4, h4⟩ := C99_same h4
      refine ⟨max (max n1 n5) (max n3 n4), Comp.bind_ok.2 ⟨bs, optimize_mono (by omega) hb, ?_⟩⟩
      rw [hp _ (by omega)]
      exact Comp.bind_ok.2 ⟨(some syn, ig), by rw [convert_mono (n := n4) (by omega) (by rw [h4]; simp), h4],
        Comp.bind_ok.2 ⟨syn', optimize_mono (by omega) h5, rfl⟩⟩

/-- C102: and within any larger depth. -/
theorem C102_larger (hL : L.Lawful) {d d' : Nat} (hd : d ≤ d') {text : Str} {r : Except RErr Syntax}
    (hw : SyntaxWithin L d text r) : SyntaxWithin L d' text r := by
  obtain ⟨bs, m, e, hb, hc, he, h⟩ := (C102_parts hL).1 hw
  refine (C102_parts hL).2 ⟨bs, m, e, hb, hc, by omega, ?_⟩
  rcases h with h | ⟨data, h, ⟨rfl, ig, h4⟩ | ⟨syn, syn', ig, h4, h5, h6, rfl⟩⟩
  · exact .inl h
  · exact .inr ⟨data, h, .inl ⟨rfl, ig, C99_larger hd h4⟩⟩
  · exact .inr ⟨data, h, .inr ⟨syn, syn', ig, C99_larger hd h4, h5, by omega, rfl⟩⟩

/-- The rules of a rule file are not more than its characters. -/
theorem rules_file (hL : L.Lawful) (hX : L.Exact) {text : Str} {data : List Tok}
    (hd : Parses L bootstrapRules text [] Indent.default (.ok data)) {syn : Syntax} {ig : List Range}
    (h : Converts data [] (some syn) ig) : outerSizes syn.rules ≤ text.length - 5 := by
  obtain ⟨k, h⟩ := C96_defined.1 h
  obtain ⟨u, v, h1⟩ := C100_convert.1 h
  obtain ⟨e2, e3⟩ := C100_file hL hX hd h1
  obtain ⟨doc, g1, g2⟩ := parses_text hL hX hd
  obtain ⟨-, rs, g3, rfl, g4, -⟩ := resolves_doc g2 h1
  have hs : (syntaxOf rs).rules = Rule.updateRefsL (rs.map (·.1)) (rs.map (·.2)) := by
    rw [updateRefsL_map]
    simp [syntaxOf, Function.comp_def]
  rw [hs, outerSizes_updateRefs, ← g4]
  cases rs with
  | nil => simp [g4, outerSizes]
  | cons x rs => simp only [syntaxOf, List.length_map, List.length_cons] at e2; omega

/-- C102: how deep the three steps after `parse` are at most. -/
theorem C102_steps (hL : L.Lawful) (hX : L.Exact) {text : Str} {syn : Syntax} (h : SaysSyntax L text syn) :
    outerDepths syn.rules ≤ text.length - 5 ∧ optDepths syn.rules syn.rules ≤ 2 * (text.length - 5) := by
  obtain ⟨data, ig, h1, h2⟩ := h
  have h3 := rules_file hL hX h1 h2
  have h4 := outerDepths_le_size syn.rules
  have h5 := (C102_optimize_bounds syn).2
  omega

/-- C102: whenever `syntax` returns, a depth linear in the length of the text is enough. -/
theorem C102_enough (hL : L.Lawful) (hX : L.Exact) {text : Str} {r : Except RErr Syntax} (h : SyntaxReturns L text r) :
    SyntaxWithin L (362 * (text.length + 1)) text r := by
  obtain ⟨n, h⟩ := h
  obtain ⟨bs, hb, h⟩ := Comp.bind_ok.1 h
  have ho : Optimizes bootstrapRules bs := ⟨n, hb⟩
  have hc : ∀ {o}, Parses L bs text [] Indent.default o → ∃ m e, Costs L bs text [] Indent.default m e ∧
      e ≤ 362 * (text.length + 1) := by
    intro o hp
    have hl : bs.rules ≠ [] := by
      intro hl
      have := (bootOpt hL ho).document
      simp [hl] at this
    obtain ⟨m, e, hc⟩ := (C70_cost_defined hl).1 ⟨_, hp⟩
    have := C102_parse hL ho hc
    exact ⟨m, e, hc, by omega⟩
  refine (C102_parts hL).2 ?_
  cases hq : parse L n bs text [] with
  | timeout => rw [hq] at h; cases h
  | panic => rw [hq] at h; cases h
  | err e toks =>
    rw [hq] at h
    cases h
    have hp : Parses L bs text [] Indent.default (.err e toks) := ⟨by simp, n, hq⟩
    obtain ⟨m, d, h1, h2⟩ := hc hp
    exact ⟨bs, m, d, ho, h1, h2, .inl ⟨e, toks, hp, rfl⟩⟩
  | ok data =>
    rw [hq] at h
    have hp : Parses L bs text [] Indent.default (.ok data) := ⟨by simp, n, hq⟩
    have hp' := (C27_accepts_the_same_partial hL ho (boot_tails hL _) text [] data).2 hp
    obtain ⟨m, d, h1, h2⟩ := hc hp
    refine ⟨bs, m, d, ho, h1, h2, .inr ⟨data, hp, ?_⟩⟩
    obtain ⟨⟨o, ig⟩, h3, h⟩ := Comp.bind_ok.1 h
    have h4 := C99_larger (d' := 362 * (text.length + 1)) (by omega) (C99_file hL hX hp' ⟨n, h3⟩)
    cases o with
    | none =>
      cases h
      exact .inl ⟨rfl, ig, h4⟩
    | some syn =>
      obtain ⟨syn', h5, h⟩ := Comp.bind_ok.1 h
      cases h
      have h6 := (C102_steps hL hX ⟨data, ig, hp', n, h3⟩).2
      exact .inr ⟨syn, syn', ig, h4, ⟨n, h5⟩, by omega, rfl⟩

/-- C102: for the rule files `0 a =?...?b` a depth that is linear is needed. -/
theorem C102_needed (hL : L.Lawful) (hX : L.Exact) (hz : ReadsZero L) (k : Nat) (hk : k + 1 < 2 ^ 64) {d : Nat}
    {r : Except RErr Syntax} (h : SyntaxWithin L d (asksFile k) r) : (asksFile k).length - 5 ≤ d := by
  obtain ⟨data, h1, h2⟩ := C99_sharp hL hX hz k hk
  obtain ⟨bs, m, e, hb, -, -, h⟩ := (C102_parts hL).1 h
  have h3 := (C27_accepts_the_same_partial hL hb (boot_tails hL _) _ [] data).1 h1
  rcases h with ⟨er, toks, h, -⟩ | ⟨data', h, h4⟩
  · cases parses_det h3 h
  · cases parses_det h3 h
    refine (h2 [] d).1 ?_
    rcases h4 with ⟨-, ig, h4⟩ | ⟨syn, syn', ig, h4, -⟩
    · exact ⟨_, _, h4⟩
    · exact ⟨_, _, h4⟩

/-- `0 a =??b` is not read within two calls, and is read within 3258. -/
example : (∃ r, SyntaxWithin stdLexer 3258 c!"0 a =??b" r) ∧ ¬ ∃ r, SyntaxWithin stdLexer 2 c!"0 a =??b" r := by
  refine ⟨?_, ?_⟩
  · have hu : (⟨0⟩ : F64).toUsize = 0 := by decide +kernel
    have ho : ¬ (asksDoc 2).Overflows := by
      obtain ⟨r, hr⟩ := asks_rule [] 2 0
      simp only [Doc.Overflows, asksDoc, Doc.Overflow, hu, Nat.zero_mul, Desc.read_rule _ hr]
      rintro (h | ⟨-, h⟩)
      · omega
      · exact h
    have he : (Doc.read (asksDoc 2).strings (asksDoc 2).nodes).1 =
        some [(c!"a", .optional (.optional (.node c!"b" none none 1) 2) 3)] := by
      simp only [asksDoc, Doc.read, hu, Nat.zero_mul, Desc.read]
      rfl
    have h := (C46_meaning stdLexer_lawful (text_writes stdLexer_lawful (exact_noSlash stdLexer_exact)
      (asks_text (L := stdLexer) std_readsZero 2)) ho (.ok ⟨[.optional (.optional (.node c!"b" none none 1) 2) 3], [c!"a"]⟩)).2
    rw [he] at h
    exact ⟨_, C102_enough stdLexer_lawful stdLexer_exact (h ⟨_, ⟨10, rfl⟩, rfl⟩)⟩
  · rintro ⟨r, h⟩
    exact absurd (C102_needed stdLexer_lawful stdLexer_exact std_readsZero 2 (by omega) h) (by decide)

end Verif.Props
