import Verif.Proofs.PegBool
import Verif.Props.Peg
import Verif.Props.Safe
/-
C92: the other texts, the common texts and the texts of either.
-/
namespace Verif.Props
open Spec

/-- The text is accepted. -/
def Acc (L : Lexer) (syn : Syntax) (text : Str) (ind : Indent) : Prop := ∃ toks, Parses L syn text [] ind (.ok toks)

/-- The text is rejected. -/
def Rej (L : Lexer) (syn : Syntax) (text : Str) (ind : Indent) : Prop := ∃ e toks, Parses L syn text [] ind (.err e toks)

/-- No lines, no tables, references in range, and a rule to start with. -/
structure Combinable (syn : Syntax) : Prop where
  flat : ∀ q ∈ syn.rules, Bare q
  ok : SyntaxOk syn
  ne : syn.rules ≠ []

theorem ruleOk_of {refs : List Rule} {r : Rule} (h : IndexOk refs r) (h' : ∀ c, Child c r → RuleOk refs c) : RuleOk refs r := by
  intro x hx
  cases hx with
  | refl => exact h
  | step hx hc => exact h' _ hc x hx

theorem indexOk_rename {refs refs' : List Rule} {k : Nat} {r : Rule} (hle : k + refs.length ≤ refs'.length) (h : IndexOk refs r) :
    IndexOk refs' (renameRule (k + ·) r) := by
  cases r with
  | node name prop ix id =>
    cases ix with
    | none => trivial
    | some i =>
      have : i < refs.length := h
      show k + i < refs'.length
      omega
  | fastSelect t args tail id =>
    obtain ⟨h1, h2⟩ := h
    simp only [renameRule, renameRules_eq, IndexOk]
    exact ⟨by simpa using h1, by simpa using h2⟩
  | _ => trivial

theorem rename_ruleOk {refs refs' : List Rule} {k : Nat} {r : Rule} (hle : k + refs.length ≤ refs'.length) (h : RuleOk refs r) :
    RuleOk refs' (renameRule (k + ·) r) := by
  intro x hx
  obtain ⟨y, hy, rfl⟩ := rename_occurs hx
  exact indexOk_rename hle (h y hy)

theorem ruleOk_mono {refs refs' : List Rule} {r : Rule} (hle : refs.length ≤ refs'.length) (h : RuleOk refs r) : RuleOk refs' r := by
  intro x hx
  have := h x hx
  cases x with
  | node name prop ix id =>
    cases ix with
    | none => trivial
    | some i => exact Nat.lt_of_lt_of_le this hle
  | fastSelect => exact this
  | _ => trivial

section
variable {L : Lexer}

theorem acc_last (hL : L.Lawful) {syn : Syntax} (hf : ∀ q ∈ syn.rules, Bare q) {text : Str} {ind : Indent} :
    Acc L syn text ind ↔ Last L syn text (some text.length) := C91_accepted hL hf

theorem rej_last {syn : Syntax} (hf : ∀ q ∈ syn.rules, Bare q) (hne : syn.rules ≠ []) {text : Str} {ind : Indent} :
    Rej L syn text ind ↔ ∃ x, Last L syn text x ∧ ∀ n, x = some n → n < text.length := by
  rw [Rej, C91_rejected hf]
  constructor
  · rintro (h | ⟨r, x, hr, h, hx⟩)
    · exact absurd h hne
    · exact ⟨x, ⟨r, hr, h⟩, hx⟩
  · rintro ⟨x, ⟨r, hr, h⟩, hx⟩
    exact .inr ⟨r, x, hr, h, hx⟩

theorem last_bound (hL : L.Lawful) {syn : Syntax} (hf : ∀ q ∈ syn.rules, Bare q) {text : Str} {n : Nat} (h : Last L syn text (some n)) :
    n ≤ text.length := by
  obtain ⟨r, hr, h⟩ := h
  obtain ⟨o, j, tr, h', ho⟩ := (C91_rule (ind := Indent.default) (p := ⟨text, 0⟩) (i := 0) hf (hf r (List.mem_of_getLast? hr))).2 h
  cases o with
  | none => cases ho
  | some y =>
    obtain ⟨m, ts⟩ := y
    cases ho
    exact ((run_bounded (E := envOf L syn.rules Indent.default) hL h').1 _ _ rfl).1

/-- A rule and then the end, for a rule that does what the last rule of `syn` does. -/
theorem whole_iff (hL : L.Lawful) {syn : Syntax} (hc : Combinable syn) {G : List Peg} {e : Peg} {text : Str} {ind : Indent}
    (he : ∀ x, Peg.Matches G e text x ↔ Last L syn text x) :
    (∀ n, Peg.Matches G (.seq e (.seq (pegOf L endRule) .empty)) text (some n) ↔ n = text.length ∧ Acc L syn text ind) ∧
      (Peg.Matches G (.seq e (.seq (pegOf L endRule) .empty)) text none ↔ Rej L syn text ind) := by
  have two : ∀ x, Last L syn text x → x = some text.length ∨ ∀ n, x = some n → n < text.length := by
    intro x hx
    cases x with
    | none => exact .inr (by simp)
    | some n =>
      have := last_bound hL hc.flat hx
      rcases Nat.lt_or_eq_of_le this with h | h
      · exact .inr (by simpa using h)
      · exact .inl (by rw [h])
  rw [acc_last hL hc.flat, rej_last hc.flat hc.ne]
  refine ⟨fun n => ⟨fun h => ?_, fun ⟨hn, h⟩ => ?_⟩, fun h => ?_, fun ⟨x, h, hx⟩ => ?_⟩
  · obtain ⟨y, hy⟩ := whole_inv h
    rcases two y ((he y).1 hy) with rfl | hlt
    · cases h.det (whole_ok (L := L) hy)
      exact ⟨rfl, (he _).1 hy⟩
    · cases h.det (whole_no (L := L) hy hlt)
  · rw [hn]
    exact whole_ok ((he _).2 h)
  · obtain ⟨y, hy⟩ := whole_inv h
    rcases two y ((he y).1 hy) with rfl | hlt
    · cases h.det (whole_ok (L := L) hy)
    · exact ⟨y, (he y).1 hy, hlt⟩
  · exact whole_no ((he x).2 h) hx

theorem flat_endRule : Bare endRule := flatB_flat rfl
theorem flat_restRule : Bare restRule := flatB_flat rfl
theorem flat_lastOf (n : Nat) : Bare (lastRuleOf n) := flatB_flat rfl

theorem others_flat {syn : Syntax} (hf : ∀ q ∈ syn.rules, Bare q) : ∀ q ∈ (others syn).rules, Bare q := by
  intro q hq
  simp only [others, List.mem_append, List.mem_singleton] at hq
  rcases hq with hq | rfl
  · exact hf q hq
  · exact flatB_flat rfl

theorem together_flat {a b : Syntax} (ha : ∀ q ∈ a.rules, Bare q) (hb : ∀ q ∈ b.rules, Bare q) : ∀ q ∈ together a b, Bare q := by
  intro q hq
  simp only [together, List.mem_append, List.mem_map] at hq
  rcases hq with hq | ⟨q, hq, rfl⟩
  · exact ha q hq
  · exact rename_flat (hb q hq)

theorem common_flat {a b : Syntax} (ha : ∀ q ∈ a.rules, Bare q) (hb : ∀ q ∈ b.rules, Bare q) : ∀ q ∈ (common a b).rules, Bare q := by
  intro q hq
  simp only [common, List.mem_append, List.mem_singleton] at hq
  rcases hq with hq | rfl
  · exact together_flat ha hb q hq
  · exact flatB_flat rfl

theorem either_flat {a b : Syntax} (ha : ∀ q ∈ a.rules, Bare q) (hb : ∀ q ∈ b.rules, Bare q) : ∀ q ∈ (eitherOf a b).rules, Bare q := by
  intro q hq
  simp only [eitherOf, List.mem_append, List.mem_singleton] at hq
  rcases hq with hq | rfl
  · exact together_flat ha hb q hq
  · exact flatB_flat rfl

/-! ### C92 -/

/-- The other texts: `others` accepts what the syntax rejects, and rejects what it accepts. -/
theorem C92_others (hL : L.Lawful) {syn : Syntax} (hc : Combinable syn) {text : Str} {ind : Indent} :
    (Acc L (others syn) text ind ↔ Rej L syn text ind) ∧ (Rej L (others syn) text ind ↔ Acc L syn text ind) := by
  have hW := whole_iff hL hc (ind := ind) fun x => lastOf_first (L := L) hc.ok hc.ne
    (post := [.sequence [.not (.sequence [lastRuleOf syn.rules.length, endRule] 0) 0, restRule] 0]) (s := text) (x := x)
  have hR : ∀ G : List Peg, Peg.Matches G (.seq (pegOf L restRule) .empty) text (some text.length) := fun G =>
    .seq (o := some 0) (rest_matches text) .empty
  have hl : (others syn).rules.getLast? = some (.sequence [.not (.sequence [lastRuleOf syn.rules.length, endRule] 0) 0, restRule] 0) := by
    simp [others]
  have ok : Rej L syn text ind → Last L (others syn) text (some text.length) := fun h =>
    ⟨_, hl, seq_zero (.neg_ok (hW.2.2 h)) (hR _)⟩
  have no : Acc L syn text ind → Last L (others syn) text none := fun h =>
    ⟨_, hl, .seq_no (.neg_no ((hW.1 _).2 ⟨rfl, h⟩))⟩
  have inv : ∀ x, Last L (others syn) text x → Rej L syn text ind ∨ Acc L syn text ind := by
    rintro x ⟨r, hr, h⟩
    rw [hl] at hr
    cases hr
    have : ∀ {y}, Peg.Matches ((others syn).rules.map (pegOf L)) (.neg (pegOf L (.sequence [lastRuleOf syn.rules.length, endRule] 0))) text y →
        Rej L syn text ind ∨ Acc L syn text ind := by
      intro y h
      cases h with
      | neg_ok h => exact .inl (hW.2.1 h)
      | neg_no h => exact .inr ((hW.1 _).1 h).2
    cases h with
    | seq_no h => exact this h
    | seq h _ => exact this h
  have hf := others_flat hc.flat
  have hne : (others syn).rules ≠ [] := by simp [others]
  rw [acc_last hL hf, rej_last hf hne]
  refine ⟨⟨fun h => ?_, ok⟩, fun ⟨x, h, hx⟩ => ?_, fun h => ⟨none, no h, by simp⟩⟩
  · rcases inv _ h with h' | h'
    · exact h'
    · cases h.det (no h')
  · rcases inv _ h with h' | h'
    · cases h.det (ok h')
      exact absurd (hx _ rfl) (Nat.lt_irrefl _)
    · exact h'

/-- The common texts: `common` accepts what both accept, and rejects what the first rejects or the second does. -/
theorem C92_common (hL : L.Lawful) {a b : Syntax} (ha : Combinable a) (hb : Combinable b) {text : Str} {ind : Indent} :
    (Acc L (common a b) text ind ↔ Acc L a text ind ∧ Acc L b text ind) ∧
      (Rej L (common a b) text ind ↔ Rej L a text ind ∨ Acc L a text ind ∧ Rej L b text ind) := by
  have hW := whole_iff hL ha (ind := ind) (G := (common a b).rules.map (pegOf L)) (e := pegOf L (lastRuleOf a.rules.length)) (text := text)
    fun x => by
      have := lastOf_first (L := L) ha.ok ha.ne (post := b.rules.map (renameRule (a.rules.length + ·)) ++
        [.sequence [.not (.not (.sequence [lastRuleOf a.rules.length, endRule] 0) 0) 0, lastRuleOf (together a b).length] 0]) (s := text) (x := x)
      rwa [← List.append_assoc] at this
  have hB : ∀ x, Peg.Matches ((common a b).rules.map (pegOf L)) (pegOf L (lastRuleOf (together a b).length)) text x ↔ Last L b text x :=
    fun x => lastOf_second hb.ok hb.ne
  have hl : (common a b).rules.getLast? = some (.sequence [.not (.not (.sequence [lastRuleOf a.rules.length, endRule] 0) 0) 0,
      lastRuleOf (together a b).length] 0) := by simp [common]
  have no : Rej L a text ind → Last L (common a b) text none := fun h =>
    ⟨_, hl, .seq_no (.neg_no (.neg_ok (hW.2.2 h)))⟩
  have ok : Acc L a text ind → ∀ x, Last L b text x → Last L (common a b) text x := by
    intro h x hx
    refine ⟨_, hl, ?_⟩
    have h1 : Peg.Matches ((common a b).rules.map (pegOf L)) (.seq (pegOf L (lastRuleOf (together a b).length)) .empty) text x := by
      cases x with
      | none => exact .seq_no ((hB _).2 hx)
      | some n => exact .seq (o := some 0) ((hB _).2 hx) .empty
    exact seq_zero (.neg_ok (.neg_no ((hW.1 _).2 ⟨rfl, h⟩))) h1
  have inv : ∀ x, Last L (common a b) text x → Rej L a text ind ∨ Acc L a text ind ∧ Last L b text x := by
    rintro x h0
    obtain ⟨r, hr, h⟩ := id h0
    rw [hl] at hr
    cases hr
    have : ∀ {y}, Peg.Matches ((common a b).rules.map (pegOf L)) (.neg (.neg (pegOf L (.sequence [lastRuleOf a.rules.length, endRule] 0)))) text y →
        Rej L a text ind ∨ Acc L a text ind ∧ y = some 0 := by
      intro y h
      cases h with
      | neg_ok h =>
        generalize hk : (none : Option Nat) = z at h
        cases h with
        | neg_ok => cases hk
        | neg_no h => exact .inr ⟨((hW.1 _).1 h).2, rfl⟩
      | neg_no h =>
        generalize hk : (some _ : Option Nat) = z at h
        cases h with
        | neg_ok h => exact .inl (hW.2.1 h)
        | neg_no => cases hk
    cases h with
    | seq_no h =>
      rcases this h with h' | ⟨-, h'⟩
      · exact .inl h'
      · cases h'
    | seq h h' =>
      rcases this h with h1 | ⟨h1, h2⟩
      · exact .inl h1
      · cases h2
        obtain ⟨y, hy⟩ : ∃ y, Last L b text y := by
          cases h' with
          | seq_no h' => exact ⟨_, (hB _).1 h'⟩
          | seq h' _ => exact ⟨_, (hB _).1 h'⟩
        cases (ok h1 y hy).det h0
        exact .inr ⟨h1, hy⟩
  have hf := common_flat ha.flat hb.flat
  have hne : (common a b).rules ≠ [] := by simp [common]
  rw [acc_last hL hf, rej_last hf hne, acc_last hL hb.flat, rej_last hb.flat hb.ne]
  refine ⟨⟨fun h => ?_, fun ⟨h, h'⟩ => ok h _ h'⟩, fun ⟨x, h, hx⟩ => ?_, fun h => ?_⟩
  · rcases inv _ h with h' | h'
    · cases h.det (no h')
    · exact h'
  · rcases inv _ h with h' | ⟨h', h''⟩
    · exact .inl h'
    · exact .inr ⟨h', x, h'', hx⟩
  · rcases h with h | ⟨h, x, h', hx⟩
    · exact ⟨none, no h, by simp⟩
    · exact ⟨x, ok h x h', hx⟩

/-- The texts of either: `eitherOf` accepts what the first accepts, or else the second, and rejects what both reject. -/
theorem C92_either (hL : L.Lawful) {a b : Syntax} (ha : Combinable a) (hb : Combinable b) {text : Str} {ind : Indent} :
    (Acc L (eitherOf a b) text ind ↔ Acc L a text ind ∨ Rej L a text ind ∧ Acc L b text ind) ∧
      (Rej L (eitherOf a b) text ind ↔ Rej L a text ind ∧ Rej L b text ind) := by
  have hW := whole_iff hL ha (ind := ind) (G := (eitherOf a b).rules.map (pegOf L)) (e := pegOf L (lastRuleOf a.rules.length)) (text := text)
    fun x => by
      have := lastOf_first (L := L) ha.ok ha.ne (post := b.rules.map (renameRule (a.rules.length + ·)) ++
        [.select [.sequence [lastRuleOf a.rules.length, endRule] 0, lastRuleOf (together a b).length] 0]) (s := text) (x := x)
      rwa [← List.append_assoc] at this
  have hB : ∀ x, Peg.Matches ((eitherOf a b).rules.map (pegOf L)) (pegOf L (lastRuleOf (together a b).length)) text x ↔ Last L b text x :=
    fun x => lastOf_second hb.ok hb.ne
  have hl : (eitherOf a b).rules.getLast? = some (.select [.sequence [lastRuleOf a.rules.length, endRule] 0, lastRuleOf (together a b).length] 0) := by
    simp [eitherOf]
  have ok : Acc L a text ind → Last L (eitherOf a b) text (some text.length) := fun h => ⟨_, hl, .alt_first ((hW.1 _).2 ⟨rfl, h⟩)⟩
  have no : Rej L a text ind → ∀ x, Last L b text x → Last L (eitherOf a b) text x := by
    intro h x hx
    refine ⟨_, hl, .alt_next (hW.2.2 h) ?_⟩
    cases x with
    | none => exact .alt_next ((hB _).2 hx) fail_matches
    | some n => exact .alt_first ((hB _).2 hx)
  have inv : ∀ x, Last L (eitherOf a b) text x → Acc L a text ind ∨ Rej L a text ind ∧ Last L b text x := by
    rintro x h0
    obtain ⟨r, hr, h⟩ := id h0
    rw [hl] at hr
    cases hr
    cases h with
    | alt_first h => exact .inl ((hW.1 _).1 h).2
    | alt_next h h' =>
      have h := hW.2.1 h
      obtain ⟨y, hy⟩ : ∃ y, Last L b text y := by
        cases h' with
        | alt_first h' => exact ⟨_, (hB _).1 h'⟩
        | alt_next h' _ => exact ⟨_, (hB _).1 h'⟩
      cases (no h y hy).det h0
      exact .inr ⟨h, hy⟩
  have hf := either_flat ha.flat hb.flat
  have hne : (eitherOf a b).rules ≠ [] := by simp [eitherOf]
  rw [acc_last hL hf, rej_last hf hne, acc_last hL hb.flat, rej_last hb.flat hb.ne]
  refine ⟨⟨fun h => ?_, fun h => ?_⟩, fun ⟨x, h, hx⟩ => ?_, fun ⟨h, x, h', hx⟩ => ⟨x, no h x h', hx⟩⟩
  · rcases inv _ h with h' | h'
    · exact .inl h'
    · exact .inr h'
  · rcases h with h | ⟨h, h'⟩
    · exact ok h
    · exact no h _ h'
  · rcases inv _ h with h' | ⟨h', h''⟩
    · cases h.det (ok h')
      exact absurd (hx _ rfl) (Nat.lt_irrefl _)
    · exact ⟨h', x, h'', hx⟩

/-- What is put together can be put together again. -/
theorem C92_combinable {a b : Syntax} (ha : Combinable a) (hb : Combinable b) :
    Combinable (others a) ∧ Combinable (common a b) ∧ Combinable (eitherOf a b) := by
  have hla : 0 < a.rules.length := List.length_pos_iff.2 ha.ne
  have hlb : 0 < b.rules.length := List.length_pos_iff.2 hb.ne
  have hend : ∀ n refs, n ≠ 0 → n ≤ refs.length → RuleOk refs (.sequence [lastRuleOf n, endRule] 0) := by
    intro n refs hn h
    refine ruleOk_of trivial fun c hc => ?_
    cases hc with
    | sequence hm =>
      simp only [List.mem_cons, List.not_mem_nil, or_false] at hm
      rcases hm with rfl | rfl
      · exact ruleOk_of (by show n - 1 < _; omega) fun c hc => by cases hc
      · exact ruleOk_of trivial fun c hc => by cases hc; exact ruleOk_of trivial fun c hc => by cases hc
  have hlast : ∀ n refs, n ≠ 0 → n ≤ refs.length → RuleOk refs (lastRuleOf n) := by
    intro n refs hn h
    exact ruleOk_of (by show n - 1 < _; omega) fun c hc => by cases hc
  have hnot : ∀ {refs r id}, RuleOk refs r → RuleOk refs (.not r id) := by
    intro refs r id h
    exact ruleOk_of trivial fun c hc => by cases hc; exact h
  have htog : ∀ post, ∀ q ∈ together a b, RuleOk (together a b ++ post) q := by
    intro post q hq
    simp only [together, List.mem_append, List.mem_map] at hq
    rcases hq with hq | ⟨q, hq, rfl⟩
    · exact ruleOk_mono (by simp [together]) (ha.ok q hq)
    · exact rename_ruleOk (by simp [together]) (hb.ok q hq)
  have hlen : (together a b).length = a.rules.length + b.rules.length := by simp [together]
  refine ⟨⟨others_flat ha.flat, fun q hq => ?_, by simp [others]⟩, ⟨common_flat ha.flat hb.flat, fun q hq => ?_, by simp [common]⟩,
    either_flat ha.flat hb.flat, fun q hq => ?_, by simp [eitherOf]⟩
  · simp only [others, List.mem_append, List.mem_singleton] at hq
    rcases hq with hq | rfl
    · exact ruleOk_mono (by simp [others]) (ha.ok q hq)
    · refine ruleOk_of trivial fun c hc => ?_
      cases hc with
      | sequence hm =>
        simp only [List.mem_cons, List.not_mem_nil, or_false] at hm
        rcases hm with rfl | rfl
        · exact hnot (hend _ _ (by omega) (by simp [others]))
        · exact ruleOk_of trivial fun c hc => by cases hc
  · simp only [common, List.mem_append, List.mem_singleton] at hq
    rcases hq with hq | rfl
    · exact htog _ q hq
    · refine ruleOk_of trivial fun c hc => ?_
      cases hc with
      | sequence hm =>
        simp only [List.mem_cons, List.not_mem_nil, or_false] at hm
        rcases hm with rfl | rfl
        · exact hnot (hnot (hend _ _ (by omega) (by simp [common, hlen]; omega)))
        · exact hlast _ _ (by omega) (by simp [common])
  · simp only [eitherOf, List.mem_append, List.mem_singleton] at hq
    rcases hq with hq | rfl
    · exact htog _ q hq
    · refine ruleOk_of trivial fun c hc => ?_
      cases hc with
      | select hm =>
        simp only [List.mem_cons, List.not_mem_nil, or_false] at hm
        rcases hm with rfl | rfl
        · exact hend _ _ (by omega) (by simp [eitherOf, hlen]; omega)
        · exact hlast _ _ (by omega) (by simp [eitherOf])

/-- A parse with a combined syntax runs for ever when a parse with a part does, unless the first part decides. -/
theorem C92_runs_for_ever (hL : L.Lawful) {a b : Syntax} (ha : Combinable a) (hb : Combinable b) {text : Str} {ind : Indent}
    (hsh : ShortFor ind.tabSpaces text) :
    (ParseDiverges L (others a) text [] ind ↔ ParseDiverges L a text [] ind) ∧
      (ParseDiverges L (common a b) text [] ind ↔
        ParseDiverges L a text [] ind ∨ Acc L a text ind ∧ ParseDiverges L b text [] ind) ∧
      (ParseDiverges L (eitherOf a b) text [] ind ↔
        ParseDiverges L a text [] ind ∨ Rej L a text ind ∧ ParseDiverges L b text [] ind) := by
  obtain ⟨ho, hc, he⟩ := C92_combinable ha hb
  have h1 := C92_others hL ha (text := text) (ind := ind)
  have h2 := C92_common hL ha hb (text := text) (ind := ind)
  have h3 := C92_either hL ha hb (text := text) (ind := ind)
  have hex : ¬ (Acc L a text ind ∧ Rej L a text ind) := by
    rintro ⟨⟨t, h⟩, e, t', h'⟩
    cases parses_det h h'
  simp only [diverges_iff ho.ok hsh, diverges_iff hc.ok hsh, diverges_iff he.ok hsh, diverges_iff ha.ok hsh, diverges_iff hb.ok hsh]
  simp only [Acc, Rej] at h1 h2 h3 hex ⊢
  rw [h1.1, h1.2, h2.1, h2.2, h3.1, h3.2]
  refine ⟨And.comm, ?_, ?_⟩
  · constructor
    · rintro ⟨h, h'⟩
      simp only [not_or, not_and] at h h'
      by_cases hA : ∃ toks, Parses L a text [] ind (.ok toks)
      · exact .inr ⟨hA, h hA, h'.2 hA⟩
      · exact .inl ⟨hA, h'.1⟩
    · rintro (⟨h, h'⟩ | ⟨h, h', h''⟩)
      · exact ⟨fun x => h x.1, fun x => x.elim h' fun y => h y.1⟩
      · exact ⟨fun x => h' x.2, fun x => x.elim (fun y => hex ⟨h, y⟩) fun y => h'' y.2⟩
  · constructor
    · rintro ⟨h, h'⟩
      simp only [not_or, not_and] at h h'
      by_cases hA : ∃ e toks, Parses L a text [] ind (.err e toks)
      · exact .inr ⟨hA, h.2 hA, h' hA⟩
      · exact .inl ⟨h.1, hA⟩
    · rintro (⟨h, h'⟩ | ⟨h, h', h''⟩)
      · exact ⟨fun x => x.elim h fun y => h' y.1, fun x => h' x.1⟩
      · exact ⟨fun x => x.elim (fun y => hex ⟨y, h⟩) fun y => h' y.2, fun x => h'' x.2⟩

end

/-! ### An example -/

/-- One or more `a`. -/
def exAs : Syntax := ⟨[.repeat_ (.tag c!"a" false false none 1) false 2], [c!"doc"]⟩

/-- Words of two characters, by a reference. -/
def exTwos : Syntax :=
  ⟨[.sequence [.select [.tag c!"a" false false none 1, .tag c!"b" false false none 2] 3,
      .select [.tag c!"a" false false none 4, .tag c!"b" false false none 5] 6] 7,
    .repeat_ (.node c!"two" none (some 0) 8) true 9], [c!"two", c!"doc"]⟩

theorem exAs_combinable : Combinable exAs where
  flat q hq := flatB_flat ((by decide : ∀ q ∈ exAs.rules, flatB q = true) q hq)
  ok := C26_check_sound (by decide +kernel)
  ne := by decide

theorem exTwos_combinable : Combinable exTwos where
  flat q hq := flatB_flat ((by decide : ∀ q ∈ exTwos.rules, flatB q = true) q hq)
  ok := C26_check_sound (by decide +kernel)
  ne := by decide

example : Acc stdLexer (common exAs exTwos) c!"aaaa" Indent.default ∧ Rej stdLexer (common exAs exTwos) c!"aaa" Indent.default ∧
    Rej stdLexer (common exAs exTwos) c!"ab" Indent.default ∧ Acc stdLexer (eitherOf exAs exTwos) c!"aaa" Indent.default ∧
    Acc stdLexer (eitherOf exAs exTwos) c!"abba" Indent.default ∧ Rej stdLexer (eitherOf exAs exTwos) c!"abb" Indent.default ∧
    Acc stdLexer (others (eitherOf exAs exTwos)) c!"abb" Indent.default ∧ Rej stdLexer (others exAs) c!"aaa" Indent.default := by
  refine ⟨⟨_, by simp, 20, rfl⟩, ⟨_, _, by simp, 20, rfl⟩, ⟨_, _, by simp, 20, rfl⟩, ⟨_, by simp, 20, rfl⟩, ⟨_, by simp, 20, rfl⟩,
    ⟨_, _, by simp, 20, rfl⟩, ⟨_, by simp, 20, rfl⟩, ⟨_, _, by simp, 20, rfl⟩⟩

end Verif.Props
