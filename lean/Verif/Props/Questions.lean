import Verif.Proofs.Questions
import Verif.Props.Cost
/-
C106: how many different questions a parse asks, and how often it asks the same one.
-/
namespace Verif.Props
open Spec

variable {L : Lexer} {syn : Syntax} {text : Str} {toks : List Tok} {ind : Indent}

/-! ### The calls -/

theorem allCalls_stable {refs : List Rule} : ∀ {n m : Nat}, n ≤ m → ∀ {c : Call}, c.run (eval L refs n) ≠ .timeout →
    allCalls L refs m c = allCalls L refs n c
  | 0, _, _, _, h => by simp [Call.run, eval] at h
  | n + 1, m + 1, hm, c, h => by
    have := subcalls_stable (Nat.le_of_succ_le_succ hm) h
    simp only [allCalls, this.1]
    congr 1
    rw [List.flatMap_def, List.flatMap_def]
    congr 1
    exact List.map_congr_left fun c' hc' => allCalls_stable (Nat.le_of_succ_le_succ hm) (this.2 c' hc')

theorem allCalls_length {refs : List Rule} : ∀ (n : Nat) (c : Call), (allCalls L refs n c).length = callCount L refs n c
  | 0, _ => rfl
  | n + 1, c => by
    simp only [allCalls, callCount, List.length_cons, List.length_flatMap]
    rw [Nat.add_comm]
    congr 2
    exact List.map_congr_left fun c' _ => allCalls_length n c'

/-- What all calls have that the first has, and that goes from a call to those it makes. -/
theorem allCalls_ind {refs : List Rule} {P : Call → Prop}
    (h : ∀ n c c', P c → c' ∈ subcalls L refs (eval L refs n) n c → P c') : ∀ (n : Nat) {c c' : Call}, P c →
    c' ∈ allCalls L refs n c → P c'
  | 0, _, _, _, hm => by simp [allCalls] at hm
  | n + 1, c, c', hc, hm => by
    simp only [allCalls, List.mem_cons, List.mem_flatMap] at hm
    rcases hm with rfl | ⟨d, hd, hm⟩
    · exact hc
    · exact allCalls_ind h n (h n c d hc hd) hm

/-- All of them come to an end. -/
theorem allCalls_end {refs : List Rule} : ∀ (n : Nat) {c c' : Call}, c.run (eval L refs n) ≠ .timeout →
    c' ∈ allCalls L refs n c → c'.run (eval L refs n) ≠ .timeout
  | 0, _, _, _, hm => by simp [allCalls] at hm
  | n + 1, c, c', hc, hm => by
    simp only [allCalls, List.mem_cons, List.mem_flatMap] at hm
    rcases hm with rfl | ⟨d, hd, hm⟩
    · exact hc
    · have h1 := allCalls_end n ((subcalls_stable (Nat.le_refl n) hc).2 d hd) hm
      have h2 : c'.run (eval L refs (n + 1)) = c'.run (eval L refs n) := eval_mono (Nat.le_succ n) rfl h1
      rwa [h2]

/-- C106: a parse makes a list of calls exactly if it comes to an end. -/
theorem C106_exists (hr : syn.rules ≠ []) :
    (∃ o, Parses L syn text toks ind o) ↔ ∃ cs, Makes L syn text toks ind cs := by
  rw [C70_cost_defined hr]
  constructor
  · rintro ⟨m, d, n, c, hc, hne, -, -⟩
    exact ⟨_, n, c, hc, hne, rfl⟩
  · rintro ⟨cs, n, c, hc, hne, -⟩
    exact ⟨_, _, n, c, hc, hne, rfl, rfl⟩

/-- C106: only one. -/
theorem C106_unique {cs cs' : List Call} (h : Makes L syn text toks ind cs) (h' : Makes L syn text toks ind cs') : cs = cs' := by
  obtain ⟨n, c, hc, hne, rfl⟩ := h
  obtain ⟨n', c', hc', hne', rfl⟩ := h'
  rw [hc] at hc'
  cases hc'
  rcases Nat.le_total n n' with hn | hn
  · exact (allCalls_stable hn hne).symm
  · exact allCalls_stable hn hne'

/-- C106: as many as it costs. -/
theorem C106_length {cs : List Call} (h : Makes L syn text toks ind cs) : ∃ d, Costs L syn text toks ind cs.length d := by
  obtain ⟨n, c, hc, hne, rfl⟩ := h
  exact ⟨_, n, c, hc, hne, (allCalls_length n c).symm, rfl⟩

/-- Calls are of rules of the syntax, at places of the text, with a vector that is long enough. -/
theorem makes_calls (hL : L.Lawful) {cs : List Call} (h : Makes L syn text toks ind cs) {c : Call} (hc : c ∈ cs) :
    Part syn.rules c.rule ∧ On text c.p ∧ c.Fine (envOf L syn.rules ind) := by
  obtain ⟨n, c0, h0, -, rfl⟩ := h
  simp only [firstCall, Option.map_eq_some_iff] at h0
  obtain ⟨r, hr, rfl⟩ := h0
  refine allCalls_ind (P := fun c => Part syn.rules c.rule ∧ On text c.p ∧ c.Fine (envOf L syn.rules ind)) ?_ n
    ⟨⟨r, List.mem_of_getLast? hr, .refl⟩, ⟨Nat.zero_le _, rfl⟩, ⟨ind.indent, rfl⟩, Nat.le_refl _⟩ hc
  rintro n c c' ⟨h1, h2, h3⟩ hm
  have hnear := subcalls_near (E := envOf L syn.rules ind) hL (eval_sound _ n) h3 hm
  refine ⟨?_, subcalls_on hL h2 hm, hnear.1⟩
  rcases hnear.2 with ⟨-, hch⟩ | ⟨-, hcl⟩
  · obtain ⟨q, hq, ho⟩ := h1
    exact ⟨q, hq, Occurs.trans (.step .refl hch) ho⟩
  · exact calls_part hcl h1

/-- C106: every call is of a rule in the syntax and at a place of the text, and with what follows there. -/
theorem C106_places (hL : L.Lawful) {cs : List Call} (h : Makes L syn text toks ind cs) {c : Call} (hc : c ∈ cs) :
    Part syn.rules c.rule ∧ c.p.off ≤ text.length ∧ c.p.src = text.drop c.p.off :=
  ⟨(makes_calls hL h hc).1, (makes_calls hL h hc).2.1⟩

/-- C106: and it comes to an end. -/
theorem C106_end {cs : List Call} (h : Makes L syn text toks ind cs) : ∃ n, ∀ c ∈ cs, c.run (eval L syn.rules n) ≠ .timeout := by
  obtain ⟨n, c0, -, hne, rfl⟩ := h
  exact ⟨n, fun c hc => allCalls_end n hne hc⟩

/-! ### Few questions -/

/-- All questions there are. -/
def questions (refs : List Rule) (n : Nat) : List (Rule × Nat) :=
  (Rule.partsL refs).flatMap fun r => (List.range (n + 1)).map fun k => (r, k)

theorem questions_length (refs : List Rule) (n : Nat) : (questions refs n).length = rulesSize refs * (n + 1) := by
  rw [← partsL_length, questions]
  induction Rule.partsL refs with
  | nil => simp
  | cons r rs ih => simp [ih, Nat.add_mul]; omega

theorem asks_mem (hL : L.Lawful) {cs : List Call} (h : Makes L syn text toks ind cs) {c : Call} (hc : c ∈ cs) :
    asks c ∈ questions syn.rules text.length := by
  obtain ⟨⟨q, hq, ho⟩, hk, -⟩ := C106_places hL h hc
  simp only [questions, asks, List.mem_flatMap, List.mem_map, List.mem_range]
  exact ⟨c.rule, mem_partsL hq (mem_parts ho), c.p.off, by omega, rfl⟩

/-- C106: a parse asks at most as many different questions as there are rules in the syntax, for every place of the
text and its end. -/
theorem C106_few (hL : L.Lawful) {cs : List Call} (h : Makes L syn text toks ind cs) {qs : List (Rule × Nat)} (hn : qs.Nodup)
    (hq : ∀ q ∈ qs, ∃ c ∈ cs, asks c = q) : qs.length ≤ rulesSize syn.rules * (text.length + 1) := by
  rw [← questions_length]
  refine hn.length_le_of_subset fun q h' => ?_
  obtain ⟨c, hc, rfl⟩ := hq q h'
  exact asks_mem hL h hc

/-- C106: the same question, with the same indentation, has the same answer: the same range, error, data and
indentation. -/
theorem C106_same (hL : L.Lawful) {cs : List Call} (h : Makes L syn text toks ind cs) {c c' : Call} (hc : c ∈ cs) (hc' : c' ∈ cs)
    (hq : asks c = asks c') (hi : c.st.ind.indent = c'.st.ind.indent) (n : Nat) :
    SameAnswer c c' (c.run (eval L syn.rules n)) (c'.run (eval L syn.rules n)) := by
  obtain ⟨-, hon, hf⟩ := makes_calls hL h hc
  obtain ⟨-, hon', hf'⟩ := makes_calls hL h hc'
  obtain ⟨r, ⟨t, i⟩, s, p, off⟩ := c
  obtain ⟨r', ⟨t', i'⟩, s', p', off'⟩ := c'
  simp only [asks, Prod.mk.injEq] at hq
  obtain ⟨rfl, rfl⟩ := hq
  have hp : p = text.drop off := hon.2
  have hp' : p' = text.drop off := hon'.2
  clear hon hon'
  subst hp hp'
  obtain ⟨⟨k, hk⟩, hs⟩ := hf
  obtain ⟨⟨k', hk'⟩, hs'⟩ := hf'
  simp only at hk hk' hs hs' hi
  subst hk hk'
  have : k = k' := hi
  subst this
  have h1 := eval_sound (envOf L syn.rules ind) n r k t s ⟨text.drop off, off⟩ hs
  have h2 := eval_sound (envOf L syn.rules ind) n r k t' s' ⟨text.drop off, off⟩ hs'
  have h3 := eval_sim L syn.rules n r t s t' s' ((envOf L syn.rules ind).ind k) ⟨text.drop off, off⟩
  simp only [Call.run]
  change Good _ _ _ _ _ _ _ _ (eval L syn.rules n _ _ _ _) at h1 h2
  generalize eval L syn.rules n r ⟨t, (envOf L syn.rules ind).ind k⟩ s ⟨text.drop off, off⟩ = a at *
  generalize eval L syn.rules n r ⟨t', (envOf L syn.rules ind).ind k⟩ s' ⟨text.drop off, off⟩ = b at *
  cases h3 with
  | timeout => exact .timeout
  | panic => exact .panic
  | err => exact .err
  | ok =>
    obtain ⟨m, ts, j, tr, hr, -, -, h1, -⟩ := h1
    obtain ⟨m', ts', j', tr', hr', -, -, h2, -⟩ := h2
    have := (hr.det hr').1
    simp only [Option.some.injEq, Prod.mk.injEq] at this
    obtain ⟨-, rfl⟩ := this
    exact .ok h1 h2

/-- C106: without indented lines the indentation is that of the first call. -/
theorem C106_indent (hL : L.Lawful) (hn : NoIndent syn.rules) {cs : List Call} (h : Makes L syn text toks ind cs) {c : Call}
    (hc : c ∈ cs) : c.st.ind = ind := by
  obtain ⟨n, c0, h0, -, rfl⟩ := h
  simp only [firstCall, Option.map_eq_some_iff] at h0
  obtain ⟨r, hr, rfl⟩ := h0
  refine (allCalls_ind (P := fun c => Part syn.rules c.rule ∧ c.Fine (envOf L syn.rules ind) ∧ c.st.ind = ind) ?_ n
    ⟨⟨r, List.mem_of_getLast? hr, .refl⟩, ⟨⟨ind.indent, rfl⟩, Nat.le_refl _⟩, rfl⟩ hc).2.2
  rintro n c c' ⟨⟨q, hq, ho⟩, h3, h2⟩ hm
  have hnear := subcalls_near (E := envOf L syn.rules ind) hL (eval_sound _ n) h3 hm
  refine ⟨?_, hnear.1, (subcalls_flat hn (fun x id hx => hn q hq x id (Occurs.trans hx ho)) hm).trans h2⟩
  rcases hnear.2 with ⟨-, hch⟩ | ⟨-, hcl⟩
  · exact ⟨q, hq, Occurs.trans (.step .refl hch) ho⟩
  · exact calls_part hcl ⟨q, hq, ho⟩

/-- C106: so it is the rule and the place that make the answer. -/
theorem C106_answer (hL : L.Lawful) (hn : NoIndent syn.rules) {cs : List Call} (h : Makes L syn text toks ind cs) {c c' : Call}
    (hc : c ∈ cs) (hc' : c' ∈ cs) (hq : asks c = asks c') :
    ∃ n, c.run (eval L syn.rules n) ≠ .timeout ∧ SameAnswer c c' (c.run (eval L syn.rules n)) (c'.run (eval L syn.rules n)) := by
  obtain ⟨n, hn'⟩ := C106_end h
  exact ⟨n, hn' c hc, C106_same hL h hc hc' hq (by rw [C106_indent hL hn h hc, C106_indent hL hn h hc']) n⟩

/-! ### Many calls -/

theorem length_le_classes {α β : Type} [DecidableEq β] (f : α → β) {b : Nat} : ∀ (qs : List β) (l : List α), (∀ a ∈ l, f a ∈ qs) →
    (∀ q, (l.filter (f · = q)).length ≤ b) → l.length ≤ qs.length * b
  | [], l, h, _ => by
    cases l with
    | nil => simp
    | cons a l => exact absurd (h a (by simp)) (by simp)
  | q :: qs, l, h, hb => by
    have ih := length_le_classes f qs (l.filter (f · ≠ q)) (by
      intro a ha
      obtain ⟨ha, hq⟩ := List.mem_filter.1 ha
      rcases List.mem_cons.1 (h a ha) with hc | hc
      · simp [hc] at hq
      · exact hc) (by
      intro q'
      refine Nat.le_trans ?_ (hb q')
      exact (List.Sublist.filter _ (List.filter_sublist)).length_le)
    have hs : (l.filter (f · = q)).length + (l.filter (f · ≠ q)).length = l.length := by
      clear ih h hb
      induction l with
      | nil => rfl
      | cons a l ihl =>
        by_cases hq : f a = q
        · simp [hq] at ihl ⊢; omega
        · simp [hq] at ihl ⊢; omega
    have := hb q
    simp only [List.length_cons, Nat.add_mul, Nat.one_mul]
    omega

/-- C106: some question is asked at least as often as there are calls for each question. -/
theorem C106_again (hL : L.Lawful) {cs : List Call} (h : Makes L syn text toks ind cs) :
    ∃ (q : Rule × Nat) (ds : List Call), ds.Sublist cs ∧ (∀ c ∈ ds, asks c = q) ∧ cs.length ≤ rulesSize syn.rules * (text.length + 1) * ds.length := by
  classical
  refine Classical.byContradiction fun hcon => ?_
  simp only [not_exists, not_and, Nat.not_le] at hcon
  have hlt : ∀ q, rulesSize syn.rules * (text.length + 1) * (cs.filter (asks · = q)).length < cs.length := fun q =>
    hcon q _ List.filter_sublist fun c hc => by simpa using (List.mem_filter.1 hc).2
  have hpos : 0 < cs.length := Nat.lt_of_le_of_lt (Nat.zero_le _) (hlt (default, 0))
  rw [← questions_length] at hlt
  have hq : 0 < (questions syn.rules text.length).length := by
    cases cs with
    | nil => simp at hpos
    | cons c cs => exact List.length_pos_of_mem (asks_mem hL h (c := c) (by simp))
  have := length_le_classes asks (b := (cs.length - 1) / (questions syn.rules text.length).length)
    (questions syn.rules text.length) cs (fun c hc => asks_mem hL h hc) (fun q => by
      rw [Nat.le_div_iff_mul_le hq, Nat.mul_comm]
      have := hlt q
      omega)
  have h2 := Nat.mul_div_le (cs.length - 1) (questions syn.rules text.length).length
  omega

/-- C106: the hard-coded rules ask at most 180 questions for every place, and they ask the same question again and again:
reading `/* `, `k` times, at least one of them as often as two to the power of `k` divided by the number of questions. -/
theorem C106_bootstrap (hL : L.Lawful) (k : Nat) (hk : k ≠ 0) (toks : List Tok) (ind : Indent) :
    ∃ text : Str, text.length = 3 * k ∧ ∃ cs, Makes L bootstrapRules text toks ind cs ∧
      (∀ qs : List (Rule × Nat), qs.Nodup → (∀ q ∈ qs, ∃ c ∈ cs, asks c = q) → qs.length ≤ 180 * (3 * k + 1)) ∧
      ∃ (q : Rule × Nat) (ds : List Call), ds.Sublist cs ∧ (∀ c ∈ ds, asks c = q) ∧ 2 ^ k ≤ 180 * (3 * k + 1) * ds.length := by
  have hsize : rulesSize bootstrapRules.rules = 180 := by decide +kernel
  obtain ⟨text, ht, m, d, hc, hm, -⟩ := C71_short_file hL k hk toks ind
  obtain ⟨cs, hcs⟩ := (C106_exists (by decide +kernel)).1 ((C70_cost_defined (by decide +kernel)).2 ⟨m, d, hc⟩)
  obtain ⟨d', hc'⟩ := C106_length hcs
  have hl := (C70_cost_unique hc hc').1
  refine ⟨text, ht, cs, hcs, fun qs hn hq => ?_, ?_⟩
  · have := C106_few hL hcs hn hq
    rwa [hsize, ht] at this
  · obtain ⟨q, ds, h1, h2, h3⟩ := C106_again hL hcs
    rw [hsize, ht] at h3
    exact ⟨q, ds, h1, h2, by omega⟩

/-- `x = "a"`, `document = {[x "b"] [x "c"]}`. -/
def twice : Syntax where
  rules := [.tag ['a'] false false none 1, .select [.sequence [.node ['x'] none (some 0) 3, .tag ['b'] false false none 4] 2,
    .sequence [.node ['x'] none (some 0) 6, .tag ['c'] false false none 7] 5] 8]
  names := [['x'], ['d']]

/-- Reading `ac` makes nine calls, and the fourth and the eighth ask the same: whether there is an `a` at the beginning. -/
example : ∃ cs, Makes stdLexer twice ['a', 'c'] [] Indent.default cs ∧ cs.length = 9 ∧
    cs[3]?.map asks = some (.tag ['a'] false false none 1, 0) ∧ cs[7]?.map asks = some (.tag ['a'] false false none 1, 0) :=
  ⟨_, ⟨6, _, rfl, by decide +kernel, rfl⟩, by decide +kernel, rfl, rfl⟩

end Verif.Props
