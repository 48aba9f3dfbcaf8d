import Verif.Proofs.DataSize
import Verif.Props.Time
import Verif.Props.Sayable
/-
C94: the data is linear in the text, but may be exponential in the rules.
-/
namespace Verif.Props
open Spec

/-! ### From above -/

/-- The numbers of `run_sized` for rules of size `s`. -/
def sizeBound (s : Nat) : SizeBound s (s + 1) where
  z h := (s + 3) ^ (h + 1)
  D := (s + 1) * (s + 3) ^ (s + 1) + 3 * (s + 3) ^ (s + 1) + 2
  S := ((s + 1) * (s + 3) ^ (s + 1) + 3 * (s + 3) ^ (s + 1) + 2) * s + (s + 3) ^ (s + 1)
  K := ((s + 1) * (s + 3) ^ (s + 1) + 3 * (s + 3) ^ (s + 1) + 2) * s + (s + 3) ^ (s + 1) + (s + 3) ^ (s + 1) + 1
  z_one h := Nat.pow_pos (by omega)
  z_node h := by
    have h1 : 1 ≤ (s + 3) ^ (h + 1) := Nat.pow_pos (by omega)
    have h2 : 3 * (s + 3) ^ (h + 1) ≤ (s + 3) * (s + 3) ^ (h + 1) := Nat.mul_le_mul_right _ (by omega)
    rw [Nat.pow_succ (m := h + 1), Nat.mul_comm ((s + 3) ^ (h + 1))]
    omega
  z_width h := by
    rw [Nat.pow_succ (m := h + 1), Nat.mul_comm ((s + 3) ^ (h + 1))]
    exact Nat.mul_le_mul_right _ (by omega)
  z_top h hh := Nat.pow_le_pow_right (by omega) (by omega)
  hS := Nat.le_refl _
  hK := Nat.le_refl _
  hD := Nat.le_refl _

theorem sizeBound_K (s : Nat) : (sizeBound s).K ≤ (s + 3) ^ (s + 3) := by
  show ((s + 1) * (s + 3) ^ (s + 1) + 3 * (s + 3) ^ (s + 1) + 2) * s + (s + 3) ^ (s + 1) + (s + 3) ^ (s + 1) + 1 ≤ _
  have h1 : 3 ≤ (s + 3) ^ (s + 1) := Nat.le_trans (by omega) (Nat.le_self_pow (by omega) _)
  have h0 : (s + 3) ^ (s + 3) = (s + 3) ^ (s + 1) * (s + 1 + 2) ^ 2 := by rw [← Nat.pow_add (s + 1 + 2)]
  rw [h0]
  generalize (s + 3) ^ (s + 1) = z at *
  have h2 : z * (s + 1 + 2) ^ 2 = z * s * s + 6 * (z * s) + 9 * z := by
    have h5 : (s + 1 + 2) ^ 2 = s * s + 6 * s + 9 := by
      rw [Nat.pow_two, Nat.add_assoc, Nat.mul_add, Nat.add_mul]
      omega
    rw [h5, Nat.mul_add, Nat.mul_add, Nat.mul_assoc, Nat.mul_left_comm z 6 s, Nat.mul_comm z 9]
  have h3 : ((s + 1) * z + 3 * z + 2) * s = z * s * s + 4 * (z * s) + 2 * s := by
    have h6 : (s + 1) * z + 3 * z = z * s + 4 * z := by rw [Nat.add_mul, Nat.mul_comm s z]; omega
    rw [h6, Nat.add_mul, Nat.add_mul, Nat.mul_assoc 4 z s]
  have h4 : 1 * s ≤ z * s := Nat.mul_le_mul_right _ (by omega)
  omega

/-- C94: what any rule of a well-formed syntax gives. Reading nothing, at most a number that depends on the rules only; reading
`n` characters, at most `n` times another. -/
theorem C94_rule {L : Lexer} (hL : L.Lawful) {refs : List Rule} {ind : Indent} (hw : WellFormed (envOf L refs ind)) {r : Rule}
    (hr : Part refs r) {p : Pos} {i j n : Nat} {ts : List Tok} {tr : List RErr}
    (h : Run (envOf L refs ind) (.rule r) p i (some (n, ts)) j tr) :
    (n = 0 → ts.length ≤ (rulesSize refs + 3) ^ (rulesSize refs + 1)) ∧
      (n ≠ 0 → ts.length ≤ (rulesSize refs + 3) ^ (rulesSize refs + 3) * n) := by
  have hH : ∀ r, Part (envOf L refs ind).refs r → Ht (Calls (envOf L refs ind)) (rulesSize refs) r :=
    fun r hr => partsL_length refs ▸ wellFormed_ht hw hr
  have hf := run_sized (sizeBound (rulesSize refs)) hL hH (fun r hr => width_le hr) hw.loops h n ts rfl hr _ (Nat.le_refl _) (hH r hr)
  refine ⟨hf.1, fun hn => ?_⟩
  have h1 := (hf.any _ (Nat.le_refl _)).2.2 hn
  have h2 := Nat.mul_le_mul_right n (sizeBound_K (rulesSize refs))
  omega

/-- C94: the data a text adds is linear in the length of the text. -/
theorem C94_linear {L : Lexer} (hL : L.Lawful) {syn : Syntax} {ind : Indent} (hw : WellFormed (envOf L syn.rules ind)) {text : Str}
    {toks toks' : List Tok} (h : Parses L syn text toks ind (.ok toks')) :
    toks'.length ≤ toks.length + (rulesSize syn.rules + 3) ^ (rulesSize syn.rules + 3) * max text.length 1 := by
  obtain ⟨ts, ⟨r, j, tr, hr, hrun⟩, rfl⟩ := (C04_ok_iff_meaning hL).1 h
  obtain ⟨h1, h2⟩ := C94_rule hL hw ⟨r, List.mem_of_getLast? hr, .refl⟩ hrun
  rw [List.length_append]
  by_cases h0 : text.length = 0
  · have h3 := h1 h0
    have h4 : (rulesSize syn.rules + 3) ^ (rulesSize syn.rules + 1) ≤ (rulesSize syn.rules + 3) ^ (rulesSize syn.rules + 3) :=
      Nat.pow_le_pow_right (by omega) (by omega)
    rw [h0]
    simp only [Nat.zero_max, Nat.mul_one]
    omega
  · have h3 := h2 h0
    rw [Nat.max_eq_left (by omega)]
    omega

/-! ### From below -/

/-- A rule that gives one token and reads nothing, `k` rules that each refer twice to the one before, and a last rule that reads
the letter `a` and calls the last of them, as often as it can:
`0 r0 = "":"ha"`, `1 r1 = [r0 r0]`, ..., `k+1 last = .r?(["a" rk])`. -/
def laughRules : Nat → List Rule
  | 0 => [.tag [] false false (some c!"ha") 0]
  | k + 1 => laughRules k ++ [.sequence [.node [] none (some k) 0, .node [] none (some k) 0] 0]

def laughs (k : Nat) : Syntax :=
  ⟨laughRules k ++ [.repeat_ (.sequence [.tag c!"a" false false none 0, .node [] none (some k) 0] 0) true 0], []⟩

theorem laughRules_length (k : Nat) : (laughRules k).length = k + 1 := by
  induction k with
  | zero => rfl
  | succ k ih => simp [laughRules, ih]

theorem laughRules_get (d : Nat) : ∀ k, (laughRules (k + d))[k]? = (laughRules k)[k]? := by
  induction d with
  | zero => exact fun k => rfl
  | succ d ih =>
    intro k
    rw [← Nat.add_assoc, laughRules, List.getElem?_append_left (by rw [laughRules_length]; omega), ih]

/-- The first rule, and those made from the one before. -/
theorem laughs_rule {k i : Nat} (hi : i ≤ k) :
    (laughs k).rules[i]? = some (match i with
      | 0 => .tag [] false false (some c!"ha") 0
      | j + 1 => .sequence [.node [] none (some j) 0, .node [] none (some j) 0] 0) := by
  obtain ⟨d, rfl⟩ := Nat.exists_eq_add_of_le hi
  show (laughRules (i + d) ++ _)[i]? = _
  rw [List.getElem?_append_left (by rw [laughRules_length]; omega), laughRules_get]
  cases i with
  | zero => rfl
  | succ j => rw [laughRules, List.getElem?_append_right (by rw [laughRules_length]; omega), laughRules_length]; simp

theorem laughs_last (k : Nat) : (laughs k).rules[k + 1]? =
    some (.repeat_ (.sequence [.tag c!"a" false false none 0, .node [] none (some k) 0] 0) true 0) := by
  show (laughRules k ++ _)[k + 1]? = _
  rw [List.getElem?_append_right (by rw [laughRules_length]; omega), laughRules_length]
  simp

theorem laughs_size (k : Nat) : rulesSize (laughs k).rules = 3 * k + 5 := by
  have happ : ∀ a b : List Rule, rulesSize (a ++ b) = rulesSize a + rulesSize b := by
    intro a b
    induction a with
    | nil => simp [rulesSize]
    | cons x a ih => simp only [List.cons_append, rulesSize, ih]; omega
  have h : rulesSize (laughRules k) = 3 * k + 1 := by
    induction k with
    | zero => rfl
    | succ k ih => rw [laughRules, happ, ih]; simp [rulesSize, ruleSize]; omega
  show rulesSize (laughRules k ++ _) = _
  rw [happ, h]
  simp [rulesSize, ruleSize]

theorem laughs_occurs {k : Nat} {q x : Rule} {i : Nat} (hi : (laughs k).rules[i]? = some q) (ho : Occurs x q) :
    (∀ name prop ix id, x = .node name prop (some ix) id → ix < i) ∧ (∀ name prop id, x ≠ .node name prop none id) ∧
      (∀ tb args tl id, x ≠ .fastSelect tb args tl id) ∧ (∀ r b o t id, x ≠ .separateBy r b o t id) ∧
      (∀ r o id, x = .repeat_ r o id → r = .sequence [.tag c!"a" false false none 0, .node [] none (some k) 0] 0) := by
  have hlen : (laughs k).rules.length = k + 2 := by simp [laughs, laughRules_length]
  have hlt : i < k + 2 := by rw [← hlen]; exact (List.getElem?_eq_some_iff.1 hi).1
  have hsub : ∀ {c r : Rule}, Occurs c r → c = r ∨ ∃ d, Child d r ∧ Occurs c d := by
    intro c r h
    induction h with
    | refl => exact .inl rfl
    | step h hc ih => exact .inr ⟨_, hc, h⟩
  have hleaf : ∀ {c r : Rule}, Occurs c r → (∀ d, ¬ Child d r) → c = r := fun h hn => by
    rcases hsub h with h | ⟨d, hd, -⟩
    · exact h
    · exact absurd hd (hn d)
  by_cases hik : i ≤ k
  · rw [laughs_rule hik] at hi
    cases i with
    | zero =>
      cases hi
      cases hleaf ho (by rintro d ⟨⟩)
      exact ⟨by simp, by simp, by simp, by simp, by simp⟩
    | succ j =>
      cases hi
      rcases hsub ho with rfl | ⟨d, hd, ho⟩
      · exact ⟨by simp, by simp, by simp, by simp, by simp⟩
      · cases hd with
        | sequence hd =>
          simp only [List.mem_cons, List.not_mem_nil, or_false, or_self] at hd
          subst hd
          cases hleaf ho (by rintro d ⟨⟩)
          refine ⟨?_, by simp, by simp, by simp, by simp⟩
          rintro name prop ix id ⟨⟩
          omega
  · obtain rfl : i = k + 1 := by omega
    rw [laughs_last] at hi
    cases hi
    rcases hsub ho with rfl | ⟨d, hd, ho⟩
    · refine ⟨by simp, by simp, by simp, by simp, ?_⟩
      rintro r o id ⟨⟩
      rfl
    · cases hd with
      | repeat_ =>
        rcases hsub ho with rfl | ⟨d, hd, ho⟩
        · exact ⟨by simp, by simp, by simp, by simp, by simp⟩
        · cases hd with
          | sequence hd =>
            simp only [List.mem_cons, List.not_mem_nil, or_false] at hd
            rcases hd with rfl | rfl
            · cases hleaf ho (by rintro d ⟨⟩)
              exact ⟨by simp, by simp, by simp, by simp, by simp⟩
            · cases hleaf ho (by rintro d ⟨⟩)
              refine ⟨?_, by simp, by simp, by simp, by simp⟩
              rintro name prop ix id ⟨⟩
              omega

/-- The rules are in order: all references in range, none leads back, what is repeated reads something. -/
theorem C94_laughs_ok {L : Lexer} (k : Nat) (ind : Indent) :
    SyntaxOk (laughs k) ∧ NonRecursive (laughs k).rules ∧ WellFormed (envOf L (laughs k).rules ind) := by
  have hlen : (laughs k).rules.length = k + 2 := by simp [laughs, laughRules_length]
  have hn : NonRecursive (laughs k).rules := C87_backward fun i q hi name prop ix id ho => (laughs_occurs hi ho).1 _ _ _ _ rfl
  refine ⟨?_, hn, C87_wellFormed hn ?_⟩
  · intro q hq x hx
    obtain ⟨i, hi, hiq⟩ := List.getElem_of_mem hq
    obtain ⟨h1, h2, h3, -⟩ := laughs_occurs (List.getElem?_eq_some_iff.2 ⟨hi, hiq⟩) hx
    cases x with
    | node name prop ix id =>
      cases ix with
      | none => trivial
      | some ix => have := h1 _ _ _ _ rfl; show ix < _; omega
    | fastSelect tb args tl id => exact absurd rfl (h3 _ _ _ _)
    | _ => trivial
  · rintro x ⟨q, hq, hx⟩
    obtain ⟨i, hi, hiq⟩ := List.getElem_of_mem hq
    obtain ⟨-, -, -, h4, h5⟩ := laughs_occurs (List.getElem?_eq_some_iff.2 ⟨hi, hiq⟩) hx
    cases x with
    | separateBy r b o t id => exact absurd rfl (h4 _ _ _ _ _)
    | repeat_ r o id =>
      cases h5 _ _ _ rfl
      rintro ⟨p, i, ts, j, tr, h⟩
      generalize ho : (some (0, ts) : Option (Nat × List Tok)) = o' at h
      cases h with
      | sequence h =>
        cases h with
        | seq_cons h h' =>
          obtain ⟨m, us, -, hm, -⟩ := before_some ho.symm
          cases h
          simp at hm
          omega
        | seq_fail => cases ho
    | _ => trivial

/-- What the rules before the last one give. -/
theorem laughs_run {L : Lexer} {ind : Indent} {k : Nat} : ∀ {m : Nat}, m ≤ k → ∀ (p : Pos) (i : Nat), ∃ r ts,
    (laughs k).rules[m]? = some r ∧ Run (envOf L (laughs k).rules ind) (.rule r) p i (some (0, ts)) i [] ∧ ts.length = 2 ^ m
  | 0, hm, p, i => ⟨_, _, laughs_rule hm, .tag_ok (List.nil_prefix), rfl⟩
  | m + 1, hm, p, i => by
    obtain ⟨r, ts, hr, h, hl⟩ := laughs_run (by omega : m ≤ k) p i
    have hn : Run (envOf L (laughs k).rules ind) (.rule (.node [] none (some m) 0)) p i (some (0, ts)) i [] := .node_ok hr h
    have hn' : Run (envOf L (laughs k).rules ind) (.rule (.node [] none (some m) 0)) (adv p 0) i (some (0, ts)) i [] := hn
    have hs := Run.sequence (id := 0) (Run.seq_cons hn (Run.seq_cons hn' .seq_nil))
    refine ⟨_, ts ++ ts, laughs_rule hm, ?_, by rw [List.length_append, hl, Nat.pow_succ]; omega⟩
    simpa [before] using hs

/-- C94: and in the worst case the factor is exponential in the rules: the syntax `laughs k` has size `3 * k + 5`, and from `n`
letters it makes `n * 2 ^ k` tokens. -/
theorem C94_laughs {L : Lexer} (hL : L.Lawful) (k n : Nat) (toks : List Tok) (ind : Indent) :
    rulesSize (laughs k).rules = 3 * k + 5 ∧
      ∃ toks', Parses L (laughs k) (List.replicate n 'a') toks ind (.ok toks') ∧ toks'.length = toks.length + n * 2 ^ k := by
  refine ⟨laughs_size k, ?_⟩
  have hrep : ∀ n (p : Pos) (i : Nat), p.src = List.replicate n 'a' → ∃ ts tr,
      Run (envOf L (laughs k).rules ind) (.rep (.sequence [.tag c!"a" false false none 0, .node [] none (some k) 0] 0)) p i
        (some (n, ts)) i tr ∧ ts.length = n * 2 ^ k := by
    intro n
    induction n with
    | zero =>
      intro p i hp
      refine ⟨[], _, .rep_stop (.sequence (.seq_fail (.tag_fail ?_))), by simp⟩
      rw [hp]
      decide
    | succ n ih =>
      intro p i hp
      obtain ⟨r, ts, hr, h, hl⟩ := laughs_run (L := L) (ind := ind) (Nat.le_refl k) (adv p 1) i
      obtain ⟨ts', tr', h', hl'⟩ := ih (adv p 1) i (by simp [adv, hp, List.replicate_succ])
      have h1 : Run (envOf L (laughs k).rules ind)
          (.rule (.sequence [.tag c!"a" false false none 0, .node [] none (some k) 0] 0)) p i (some (1, ts)) i [] := by
        have := Run.sequence (id := 0) (Run.seq_cons (.tag_ok (E := envOf L (laughs k).rules ind) (t := c!"a") (inv := false) (prop := none) (id := 0)
          (p := p) (i := i) (by rw [hp, List.replicate_succ]; exact ⟨_, rfl⟩)) (.seq_cons (.node_ok (name := []) (prop := none) (id := 0) hr h) .seq_nil))
        simpa [before, named, wrapped] using this
      refine ⟨ts ++ ts', [] ++ tr', ?_, by rw [List.length_append, hl, hl', Nat.succ_mul]; omega⟩
      have := Run.rep_more h1 h'
      rw [Nat.add_comm n 1]
      exact this
  obtain ⟨ts, tr, h, hl⟩ := hrep n ⟨List.replicate n 'a', 0⟩ ind.indent rfl
  have hlast : (laughs k).rules.getLast? =
      some (.repeat_ (.sequence [.tag c!"a" false false none 0, .node [] none (some k) 0] 0) true 0) := by simp [laughs]
  refine ⟨toks ++ ts, (C04_ok_iff_meaning hL).2 ⟨ts, ⟨_, ind.indent, tr, hlast, .repeat_opt ?_⟩, rfl⟩,
    by rw [List.length_append, hl]⟩
  rw [List.length_replicate]
  exact h

theorem laughs_mem {k : Nat} {q : Rule} (h : q ∈ (laughs k).rules) : q = .tag [] false false (some c!"ha") 0 ∨
    (∃ j, q = .sequence [.node [] none (some j) 0, .node [] none (some j) 0] 0) ∨
    q = .repeat_ (.sequence [.tag c!"a" false false none 0, .node [] none (some k) 0] 0) true 0 := by
  have hlen : (laughs k).rules.length = k + 2 := by simp [laughs, laughRules_length]
  obtain ⟨i, hi, hiq⟩ := List.getElem_of_mem h
  have hq := List.getElem?_eq_some_iff.2 ⟨hi, hiq⟩
  by_cases hik : i ≤ k
  · rw [laughs_rule hik] at hq
    cases i with
    | zero => exact .inl (Option.some.inj hq).symm
    | succ j => exact .inr (.inl ⟨j, (Option.some.inj hq).symm⟩)
  · obtain rfl : i = k + 1 := by omega
    rw [laughs_last] at hq
    exact .inr (.inr (Option.some.inj hq).symm)

/-- C94: these rules can be written in the language of the library. -/
theorem C94_said {L : Lexer} (hL : L.Lawful) (hz : ReadsZero L) (k : Nat) : ∃ text rs, Says L text rs ∧
    ∀ n toks ind, ∃ toks', Parses L (syntaxOf rs) (List.replicate n 'a') toks ind (.ok toks') ∧
      toks'.length = toks.length + n * 2 ^ k := by
  obtain ⟨text, rs, h1, h2, -⟩ := C83_says (syn := laughs k) hL hz (C94_laughs_ok (L := L) k Indent.default).1
    (fun q hq => by rcases laughs_mem hq with rfl | ⟨j, rfl⟩ | rfl <;> simp [Rule.NoTable, Rule.NoTableL])
    (fun q hq r b opt id ho => by
      obtain ⟨i, hi, hiq⟩ := List.getElem_of_mem hq
      exact (laughs_occurs (List.getElem?_eq_some_iff.2 ⟨hi, hiq⟩) ho).2.2.2.1 _ _ _ _ _ rfl)
    (fun q hq => by rcases laughs_mem hq with rfl | ⟨j, rfl⟩ | rfl <;> simp [Rule.ids, Rule.idsL])
  refine ⟨text, rs, h1, fun n toks ind => ?_⟩
  obtain ⟨-, toks', h3, h4⟩ := C94_laughs hL k n toks ind
  exact ⟨toks', ((h2 ind _ toks).1 toks').1 h3, h4⟩

/-- A syntax of size 95 that makes more than 10^9 tokens of one letter. -/
example (toks : List Tok) (ind : Indent) : rulesSize (laughs 30).rules = 95 ∧ ∃ toks',
    Parses stdLexer (laughs 30) c!"a" toks ind (.ok toks') ∧ toks'.length = toks.length + 1073741824 :=
  C94_laughs stdLexer_lawful 30 1 toks ind

/-- What the check of C25 says about it. -/
example : wellFormed (laughs 8).rules = true := by decide +kernel

end Verif.Props
