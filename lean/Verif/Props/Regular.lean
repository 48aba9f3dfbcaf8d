import Verif.Proofs.Automaton
import Verif.Props.Counts
import Verif.Props.PegBool
import Verif.Props.Change
import Verif.Props.Sayable
import Mathlib.Computability.DFA
/-
C122: every regular language is what some syntax accepts, with a number of calls proportional to the length of the text,
and there are syntaxes whose texts are no regular language.
-/
namespace Verif.Props
open Spec

section
variable {L : Lexer} {a : Automaton}

/-- The rules refer to rules that exist. -/
theorem automaton_ok (hs : a.start < a.states) (hn : ∀ q c, q < a.states → a.next q c < a.states) : SyntaxOk a.syn := by
  intro r hr
  have hlen : a.syn.rules.length = a.states + 1 := by simp [Automaton.syn]
  simp only [Automaton.syn, List.mem_append, List.mem_map, List.mem_range, List.mem_singleton] at hr
  rcases hr with ⟨q, hq, rfl⟩ | rfl
  · have hsel : RuleOk a.syn.rules (.select (a.alphabet.map (a.arrow q)) 0) := by
      refine ruleOk_of trivial fun x hx => ?_
      cases hx with
      | select hx =>
        obtain ⟨c, _, rfl⟩ := List.mem_map.1 hx
        refine ruleOk_of trivial fun y hy => ?_
        cases hy with
        | sequence hy =>
          simp only [List.mem_cons, List.not_mem_nil, or_false] at hy
          rcases hy with rfl | rfl
          · exact ruleOk_of trivial fun z hz => by cases hz
          · refine ruleOk_of ?_ fun z hz => by cases hz
            have := hn q c hq
            simp only [IndexOk, hlen]
            omega
    unfold Automaton.rule
    split
    · refine ruleOk_of trivial fun x hx => ?_
      cases hx
      exact hsel
    · exact hsel
  · refine ruleOk_of ?_ fun z hz => by cases hz
    simp only [IndexOk, hlen]
    omega

/-- What happens when a text is parsed by the rules of an automaton. -/
theorem automaton_parses (hs : a.start < a.states) (hn : ∀ q c, q < a.states → a.next q c < a.states) (ha : a.alphabet.Nodup)
    (text : Str) (ind : Indent) : ∃ r o tr m d, a.syn.rules.getLast? = some r ∧
      Run (envOf L a.syn.rules ind) (.rule r) ⟨text, 0⟩ ind.indent o ind.indent tr ∧
      Counts (envOf L a.syn.rules ind) (.rule r) ⟨text, 0⟩ ind.indent m d ∧
      m ≤ (2 * a.alphabet.length + 3) * (text.length + 1) + 1 ∧ GivesWhole (a.Reads a.start text) text o := by
  have hE : ∀ q < a.states, (envOf L a.syn.rules ind).refs[q]? = some (a.rule q) := by
    intro q hq
    simp [envOf, Automaton.syn, List.getElem?_append_left, hq]
  obtain ⟨o, tr, m, d, h1, h2, h3, h4⟩ := automaton_runs (E := envOf L a.syn.rules ind) hE hn ha text hs 0 ind.indent
  refine ⟨.node [] none (some a.start) 0, o, tr, 1 + m, 1 + d, by simp [Automaton.syn], ?_, .node (hE _ hs) h2, by omega, h4⟩
  match o, h1 with
  | none, h1 => exact .node_fail (hE _ hs) h1
  | some (n, ts), h1 => exact .node_ok (hE _ hs) h1

/-- The rules of an automaton accept the texts that it reads and reject the others. -/
theorem C122_automaton (hL : L.Lawful) (hs : a.start < a.states) (hn : ∀ q c, q < a.states → a.next q c < a.states)
    (ha : a.alphabet.Nodup) (text : Str) (toks : List Tok) (ind : Indent) :
    (a.Reads a.start text → Parses L a.syn text toks ind (.ok toks)) ∧
    (¬ a.Reads a.start text → ∃ e toks', Parses L a.syn text toks ind (.err e toks')) ∧
    ∀ m d, Costs L a.syn text toks ind m d → m ≤ (2 * a.alphabet.length + 3) * (text.length + 1) + 1 := by
  obtain ⟨r, o, tr, m, d, hr, h1, h2, h3, h4⟩ := automaton_parses (L := L) hs hn ha text ind
  refine ⟨fun h => ?_, fun h => ?_, fun m' d' h => ?_⟩
  · rcases h4 with ⟨_, rfl⟩ | ⟨h4, _⟩
    · exact (C04_ok_iff_meaning hL).2 ⟨[], ⟨r, _, _, hr, h1⟩, by simp⟩
    · exact absurd h h4
  · rcases h4 with ⟨h4, _⟩ | ⟨_, h4⟩
    · exact absurd h4 h
    · match o, h1, h4 with
      | none, h1, _ => exact rejects_err (.fails hr h1)
      | some (n, ts), h1, h4 => exact rejects_err (.short hr h1 (h4 n ts rfl).1)
  · rw [C114_costs hr h1] at h
    rw [(h.det h2).1]
    exact h3

/-- The states of a deterministic automaton, numbered. -/
noncomputable def counted {σ : Type} [Fintype σ] (M : DFA Char σ) (A : List Char) : Automaton :=
  open Classical in
  { alphabet := A.dedup
    states := Fintype.card σ
    next := fun q c => if h : q < Fintype.card σ then Fintype.equivFin σ (M.step ((Fintype.equivFin σ).symm ⟨q, h⟩) c) else 0
    final := fun q => if h : q < Fintype.card σ then decide ((Fintype.equivFin σ).symm ⟨q, h⟩ ∈ M.accept) else false
    start := Fintype.equivFin σ M.start }

theorem counted_next {σ : Type} [Fintype σ] (M : DFA Char σ) (A : List Char) (x : σ) (c : Char) :
    (counted M A).next (Fintype.equivFin σ x) c = Fintype.equivFin σ (M.step x c) := by
  simp [counted]

theorem counted_reads {σ : Type} [Fintype σ] (M : DFA Char σ) (A : List Char) : ∀ (s : Str) (x : σ),
    (counted M A).Reads (Fintype.equivFin σ x) s ↔ (∀ c ∈ s, c ∈ A) ∧ M.evalFrom x s ∈ M.accept
  | [], x => by simp [Automaton.Reads, counted]
  | c :: s, x => by
    rw [Automaton.Reads, counted_next, counted_reads M A s]
    simp [counted, and_assoc]

/-- Every regular language over finitely many characters is what some syntax accepts, with a number of calls proportional
to the length of the text. -/
theorem C122_regular {K : Language Char} (hK : K.IsRegular) {A : List Char} (hA : ∀ w ∈ K, ∀ c ∈ w, c ∈ A) :
    ∃ syn, SyntaxOk syn ∧ ∃ m b, ∀ L : Lexer, L.Lawful → ∀ (text : Str) (toks : List Tok) (ind : Indent),
      (text ∈ K → Parses L syn text toks ind (.ok toks)) ∧
      (text ∉ K → ∃ e toks', Parses L syn text toks ind (.err e toks')) ∧
      ∀ k d, Costs L syn text toks ind k d → k ≤ m * text.length + b := by
  obtain ⟨σ, _, M, rfl⟩ := hK
  have hs : (counted M A).start < (counted M A).states := (Fintype.equivFin σ M.start).2
  have hn : ∀ q c, q < (counted M A).states → (counted M A).next q c < (counted M A).states := by
    intro q c hq
    have hq' : q < Fintype.card σ := hq
    simp [counted, hq']
  have hr : ∀ text, (counted M A).Reads (counted M A).start text ↔ text ∈ M.accepts := fun text =>
    (counted_reads M A text M.start).trans ⟨fun h => h.2, fun h => ⟨hA text h, h⟩⟩
  refine ⟨(counted M A).syn, automaton_ok hs hn, 2 * (counted M A).alphabet.length + 3, 2 * (counted M A).alphabet.length + 3 + 1,
    fun L hL text toks ind => ?_⟩
  obtain ⟨h1, h2, h3⟩ := C122_automaton hL hs hn (List.nodup_dedup A) text toks ind
  rw [hr] at h1 h2
  refine ⟨h1, h2, fun k d h => ?_⟩
  have := h3 k d h
  rwa [Nat.mul_add, Nat.mul_one, Nat.add_assoc] at this

/-- There are no more than 1114112 characters. -/
theorem dedup_small (A : List Char) : A.dedup.length ≤ 1114112 := by
  have h1 : (A.dedup.map Char.toNat).Nodup := (List.nodup_dedup A).map fun x y h => by
    rw [← Char.ofNat_toNat x, h, Char.ofNat_toNat]
  have h2 : A.dedup.map Char.toNat ⊆ List.range 1114112 := by
    intro n hn
    obtain ⟨c, -, rfl⟩ := List.mem_map.1 hn
    have := c.valid
    rw [List.mem_range]
    change c.toNat.isValidChar at this
    rcases this with h | ⟨-, h⟩ <;> omega
  have := (List.subperm_of_subset h1 h2).length_le
  simpa only [List.length_map, List.length_range] using this

theorem automaton_ids (q : Nat) : (Rule.ids (a.rule q)).length ≤ 3 * a.alphabet.length + 2 := by
  have h : ∀ A : List Char, (Rule.idsL (A.map (a.arrow q))).length = 3 * A.length := by
    intro A
    induction A with
    | nil => rfl
    | cons c A ih =>
      simp [Rule.idsL, Automaton.arrow, Rule.ids, ih]
      omega
  simp only [Automaton.rule]
  split <;> simp [Rule.ids, h] <;> omega

theorem automaton_noTable (q : Nat) : Rule.NoTable (a.rule q) := by
  have h : ∀ A : List Char, Rule.NoTableL (A.map (a.arrow q)) := by
    intro A
    induction A with
    | nil => trivial
    | cons c A ih => exact ⟨⟨trivial, trivial, trivial⟩, ih⟩
  simp only [Automaton.rule]
  split <;> exact h _

theorem automaton_noList (q : Nat) (r b : Rule) (opt : Bool) (id : DebugId) : ¬ Occurs (.separateBy r b opt false id) (a.rule q) := by
  have h : ∀ x, x ∈ a.alphabet.map (a.arrow q) → ¬ Occurs (.separateBy r b opt false id) x := by
    intro x hx ho
    obtain ⟨c, -, rfl⟩ := List.mem_map.1 hx
    cases ho with
    | step ho hc =>
      cases hc with
      | sequence hm =>
        simp only [List.mem_cons, List.not_mem_nil, or_false] at hm
        rcases hm with rfl | rfl <;> cases ho with | step _ hc => cases hc
  have h' : ¬ Occurs (.separateBy r b opt false id) (.select (a.alphabet.map (a.arrow q)) 0) := by
    intro ho
    cases ho with
    | step ho hc =>
      cases hc with
      | select hm => exact h _ hm ho
  simp only [Automaton.rule]
  split
  · intro ho
    cases ho with
    | step ho hc =>
      cases hc with
      | optional => exact h' ho
  · exact h'

/-- There is a file of rules for every regular language. -/
theorem C122_file (hL : L.Lawful) (hz : ReadsZero L) {K : Language Char} (hK : K.IsRegular) {A : List Char}
    (hA : ∀ w ∈ K, ∀ c ∈ w, c ∈ A) : ∃ rules rs, Says L rules rs ∧ ∀ (text : Str) (toks : List Tok) (ind : Indent),
      (text ∈ K → Parses L (syntaxOf rs) text toks ind (.ok toks)) ∧
      (text ∉ K → ∃ e toks', Parses L (syntaxOf rs) text toks ind (.err e toks')) := by
  obtain ⟨σ, _, M, rfl⟩ := hK
  have hs : (counted M A).start < (counted M A).states := (Fintype.equivFin σ M.start).2
  have hn : ∀ q c, q < (counted M A).states → (counted M A).next q c < (counted M A).states := by
    intro q c hq
    have hq' : q < Fintype.card σ := hq
    simp [counted, hq']
  have hr : ∀ text, (counted M A).Reads (counted M A).start text ↔ text ∈ M.accepts := fun text =>
    (counted_reads M A text M.start).trans ⟨fun h => h.2, fun h => ⟨hA text h, h⟩⟩
  have hq : ∀ r ∈ (counted M A).syn.rules, (∃ q, r = (counted M A).rule q) ∨ r = .node [] none (some (counted M A).start) 0 := by
    intro r hr
    simp only [Automaton.syn, List.mem_append, List.mem_map, List.mem_singleton] at hr
    rcases hr with ⟨q, -, rfl⟩ | rfl
    · exact .inl ⟨q, rfl⟩
    · exact .inr rfl
  obtain ⟨rules, rs, h1, h2, -⟩ := C83_says (syn := (counted M A).syn) hL hz (automaton_ok hs hn)
    (fun r hr => by
      rcases hq r hr with ⟨q, rfl⟩ | rfl
      · exact automaton_noTable q
      · trivial)
    (fun r hr => by
      rcases hq r hr with ⟨q, rfl⟩ | rfl
      · exact automaton_noList q
      · intro r b opt id ho
        cases ho with | step _ hc => cases hc)
    (fun r hr => by
      rcases hq r hr with ⟨q, rfl⟩ | rfl
      · have h1 := automaton_ids (a := counted M A) q
        have h2 : (counted M A).alphabet.length ≤ 1114112 := dedup_small A
        omega
      · simp [Rule.ids])
  refine ⟨rules, rs, h1, fun text toks ind => ?_⟩
  obtain ⟨h3, h4, -⟩ := C122_automaton hL hs hn (List.nodup_dedup A) text toks ind
  rw [hr] at h3 h4
  exact ⟨fun h => ((h2 ind text toks).1 toks).1 (h3 h), fun h => (h2 ind text toks).2.1.1 (h4 h)⟩

end

/-! ### Texts that are no regular language -/

namespace Pairs

/-- `?["a" pairs "b"]`. -/
def rule : Rule := .optional (.sequence [.tag ['a'] false false none 1, .node c!"pairs" none (some 0) 2, .tag ['b'] false false none 3] 4) 5
def syn : Syntax := ⟨[rule], [c!"pairs"]⟩

/-- As many `a` as `b`. -/
def text (n : Nat) : Str := List.replicate n 'a' ++ List.replicate n 'b'

theorem text_succ (n : Nat) (rest : Str) : text (n + 1) ++ rest = 'a' :: (text n ++ ('b' :: rest)) := by
  simp only [text]
  rw [List.replicate_succ (a := 'a'), List.replicate_succ' (a := 'b')]
  simp

theorem text_length (n : Nat) : (text n).length = 2 * n := by
  simp [text]
  omega

variable {L : Lexer} {ind : Indent}

theorem reads (n : Nat) : ∀ {rest : Str} {off i : Nat}, ¬ ['a'] <+: rest →
    ∃ tr, Run (envOf L syn.rules ind) (.rule rule) ⟨text n ++ rest, off⟩ i (some (2 * n, [])) i tr := by
  induction n with
  | zero =>
    intro rest off i h
    exact ⟨_, .optional_none (.sequence (.seq_fail (.tag_fail (by simpa [text] using h))))⟩
  | succ n ih =>
    intro rest off i h
    rw [text_succ]
    obtain ⟨tr, h1⟩ := ih (rest := 'b' :: rest) (off := off + 1) (i := i) (by simp)
    have h2 : Run (envOf L syn.rules ind) (.rule (.node c!"pairs" none (some 0) 2)) (adv ⟨'a' :: (text n ++ ('b' :: rest)), off⟩ 1) i
        (some (2 * n, [])) i tr := .node_ok (r := rule) rfl h1
    have h3 : ['b'] <+: (adv (adv ⟨'a' :: (text n ++ ('b' :: rest)), off⟩ 1) (2 * n)).src := by
      simp only [adv, List.drop_succ_cons, List.drop_zero]
      rw [← text_length n, List.drop_left]
      exact ⟨rest, rfl⟩
    have h4 := Run.optional_some (id := 5) (.sequence (id := 4) (.seq_cons (Run.tag_ok (E := envOf L syn.rules ind) (t := ['a']) (inv := false) (prop := none)
      (id := 1) (p := ⟨'a' :: (text n ++ ('b' :: rest)), off⟩) (i := i) ⟨_, rfl⟩) (.seq_cons h2 (.seq_cons
      (.tag_ok (inv := false) (prop := none) (id := 3) h3) .seq_nil))))
    simp only [named, List.length_cons, List.length_nil, List.append_nil] at h4
    rw [show 0 + 1 + (2 * n + (0 + 1 + 0)) = 2 * (n + 1) by omega] at h4
    exact ⟨_, h4⟩

/-- What is read are as many `a` as `b`. -/
theorem read : ∀ (k : Nat) {p : Pos} {i j : Nat} {o : Outcome} {tr : List RErr}, p.src.length ≤ k →
    Run (envOf L syn.rules ind) (.rule rule) p i o j tr → ∀ m ts, o = some (m, ts) → ∃ n, m = 2 * n ∧ text n <+: p.src := by
  intro k
  induction k with
  | zero =>
    intro p i j o tr hp h m ts ho
    have hp : p.src = [] := List.eq_nil_of_length_eq_zero (by omega)
    cases h with
    | optional_none h =>
      cases ho
      exact ⟨0, rfl, by simp [text]⟩
    | @optional_some _ _ _ _ y _ _ h =>
      generalize hx : some y = x at h
      cases h with
      | sequence h =>
        cases h with
        | seq_fail => cases hx
        | seq_cons h h' =>
          cases h with
          | tag_ok h => rw [hp] at h; simp at h
  | succ k ih =>
    intro p i j o tr hp h m ts ho
    cases h with
    | optional_none h =>
      cases ho
      exact ⟨0, rfl, by simp [text]⟩
    | @optional_some _ _ _ _ y _ _ h =>
      generalize hx : some y = x at h
      cases h with
      | sequence h =>
        cases h with
        | seq_fail => cases hx
        | seq_cons h h' =>
          cases h with
          | tag_ok h =>
            cases h' with
            | seq_fail => cases hx
            | seq_cons h1 h2 =>
              cases h1 with
              | node_ok hr h1 =>
                cases hr
                cases h2 with
                | seq_fail => cases hx
                | seq_cons h2 h3 =>
                  cases h2 with
                  | tag_ok h2 =>
                    cases h3
                    obtain ⟨s, hs⟩ := h
                    have hs' : p.src = 'a' :: s := hs.symm
                    obtain ⟨n, hn, t, ht⟩ := ih (by simp [adv, hs'] at hp ⊢; omega) h1 _ _ rfl
                    subst hn
                    have e : s = text n ++ t := by simpa [adv, hs'] using ht.symm
                    obtain ⟨u, hu⟩ := h2
                    have e' : t = 'b' :: u := by
                      simp only [adv, hs', e, List.length_cons, List.length_nil, List.drop_succ_cons, List.drop_zero] at hu
                      rw [← text_length n, List.drop_left] at hu
                      exact hu.symm
                    refine ⟨n + 1, ?_, u, ?_⟩
                    · cases ho
                      simp only [before] at hx
                      cases hx
                      simp
                      omega
                    · rw [text_succ, hs', e, e']

theorem accepts_iff {s : Str} : (∃ ts, Accepts L syn s ind ts) ↔ ∃ n, s = text n := by
  constructor
  · rintro ⟨ts, r, j, tr, hr, h⟩
    cases hr
    obtain ⟨n, hn, t, ht⟩ := read _ (Nat.le_refl _) h _ _ rfl
    have ht : text n ++ t = s := ht
    have : t.length = 0 := by
      have := congrArg List.length ht
      rw [List.length_append, text_length] at this
      omega
    rw [List.eq_nil_of_length_eq_zero this, List.append_nil] at ht
    exact ⟨n, ht.symm⟩
  · rintro ⟨n, rfl⟩
    obtain ⟨tr, h⟩ := reads (L := L) (ind := ind) n (rest := []) (off := 0) (i := ind.indent) (by simp)
    rw [List.append_nil, ← text_length n] at h
    exact ⟨_, rule, _, _, rfl, h⟩

theorem text_ends {i j n : Nat} (h : List.replicate j 'a' ++ List.replicate i 'b' = text n) : j = i := by
  have h1 := congrArg (List.count 'a') h
  have h2 := congrArg (List.count 'b') h
  simp [text, List.count_append, List.count_replicate] at h1 h2
  omega

/-- No automaton reads just these texts. -/
theorem not_regular : ¬ Language.IsRegular ({s | ∃ n, s = text n} : Language Char) := by
  rintro ⟨σ, _, M, hM⟩
  obtain ⟨i, j, hij, h⟩ := Finite.exists_ne_map_eq_of_infinite fun n : Nat => M.eval (List.replicate n 'a')
  have hm : ∀ s, s ∈ M.accepts ↔ ∃ n, s = text n := fun s => by rw [hM]; rfl
  have h1 : List.replicate i 'a' ++ List.replicate i 'b' ∈ M.accepts := (hm _).2 ⟨i, rfl⟩
  have h2 : List.replicate j 'a' ++ List.replicate i 'b' ∈ M.accepts := by
    rw [DFA.mem_accepts, DFA.eval, DFA.evalFrom_of_append] at h1 ⊢
    have h : M.evalFrom M.start (List.replicate i 'a') = M.evalFrom M.start (List.replicate j 'a') := h
    rw [← h]
    exact h1
  obtain ⟨n, hn⟩ := (hm _).1 h2
  exact hij (text_ends hn).symm

end Pairs

/-- There are syntaxes whose texts are no regular language. -/
theorem C122_more : ∃ syn, SyntaxOk syn ∧ ∃ K : Language Char, ¬ K.IsRegular ∧ ∀ (L : Lexer) (text : Str) (ind : Indent),
    (∃ ts, Accepts L syn text ind ts) ↔ text ∈ K :=
  ⟨Pairs.syn, C26_check_sound (by decide), {s | ∃ n, s = Pairs.text n}, Pairs.not_regular, fun _ _ _ => Pairs.accepts_iff⟩

/-! ### Example -/

/-- Even numbers of `a`, and anything of `b`. -/
def evenly : Automaton := ⟨['a', 'b'], 2, fun q c => if c = 'a' then 1 - q else q, fun q => q == 0, 0⟩

/-- `abba` is accepted and `ab` is rejected. -/
example : Parses stdLexer evenly.syn c!"abba" [] Indent.default (.ok []) ∧
    ∃ e toks, Parses stdLexer evenly.syn c!"ab" [] Indent.default (.err e toks) := by
  have hn : ∀ q c, q < evenly.states → evenly.next q c < evenly.states := by
    intro q c hq
    simp only [evenly] at hq ⊢
    split <;> omega
  have ha : evenly.alphabet.Nodup := by decide
  refine ⟨(C122_automaton stdLexer_lawful (by decide) hn ha _ _ _).1 ?_, (C122_automaton stdLexer_lawful (by decide) hn ha _ _ _).2.1 ?_⟩ <;>
    simp [Automaton.Reads, evenly]

end Verif.Props
