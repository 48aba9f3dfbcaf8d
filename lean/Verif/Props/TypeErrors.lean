import Verif.Props.TypeTest
import Verif.Props.Hello
/-
The reports of `test_type` in src/optimize.rs: C79.
-/
namespace Verif.Props
open Verif Verif.Spec

section
variable {L : Lexer} {ind : Indent} {i : Nat}

/-- The rule after optimization. -/
def typeRule : Rule := .fastSelect typeTable typeArgs false 100007

theorem typeText_head {name prop : Str} (hb : (name, prop) ∈ baseTypes) (k off i : Nat) (rest : Str) :
    Run (envOf L typeFast.rules ind) (.rule typeRule) ⟨typeText name k ++ rest, off⟩ i
      (some (2 * k + 3, typeData prop k off)) i [] := by
  induction k generalizing off rest with
  | zero =>
    simp only [baseTypes, List.mem_cons, List.not_mem_nil, or_false, Prod.mk.injEq] at hb
    rcases hb with ⟨rfl, rfl⟩ | ⟨rfl, rfl⟩
    · exact .fast_hit (b := 0x66) rfl rfl (by decide) rfl (.tag_ok (t := c!"f64") ⟨rest, rfl⟩)
    · exact .fast_hit (b := 0x74) rfl rfl (by decide) rfl (.tag_ok (t := c!"thr") ⟨rest, rfl⟩)
  | succ k ih =>
    have htext : typeText name (k + 1) ++ rest = '[' :: (typeText name k ++ (c!"]" ++ rest)) := by simp [typeText_succ]
    have h1 := Run.node_ok (E := envOf L typeFast.rules ind) (name := c!"type") (prop := some c!"arr") (ix := 0)
      (id := 100003) rfl (ih (off + 1) (c!"]" ++ rest))
    have h2 : Run (envOf L typeFast.rules ind) (.seq [.tag c!"]" false false none 100004])
        (adv ⟨typeText name k ++ (c!"]" ++ rest), off + 1⟩ (2 * k + 3)) i (some (1 + 0, [] ++ [])) i [] := by
      rw [← typeText_length hb k, adv_left]
      exact .seq_cons (n := 1) (ts := []) (tr := []) (tr' := []) (o := some (0, [])) (.tag_ok (t := c!"]") (List.prefix_append _ _)) .seq_nil
    have h3 := Run.seq_cons h1 h2
    have h4 := Run.sequence (id := 100005) (Run.seq_cons (n := 1) (ts := []) (tr := [])
      (p := ⟨'[' :: (typeText name k ++ (c!"]" ++ rest)), off⟩)
      (.tag_ok (t := c!"[") (inv := false) (prop := none) (id := 100002) (List.prefix_append c!"[" _)) h3)
    rw [htext]
    refine .fast_hit (b := 0x5b) rfl rfl (by decide) rfl ?_
    have e : before 1 [] (before (2 * k + 3) (wrapped (some c!"arr") (off + 1) (2 * k + 3) (typeData prop k (off + 1)))
        (some (1 + 0, [] ++ []))) = some (2 * (k + 1) + 3, typeData prop (k + 1) off) := by
      simp [before, wrapped, typeData]
      omega
    rw [← e]
    exact h4

/-- What fails inside brackets fails with them. -/
theorem type_inside {s : Str} {off : Nat} {tr : List RErr}
    (h : Run (envOf L typeFast.rules ind) (.rule typeRule) ⟨s, off + 1⟩ i none i tr) :
    Run (envOf L typeFast.rules ind) (.rule typeRule) ⟨'[' :: s, off⟩ i none i tr := by
  refine .fast_hit (b := 0x5b) rfl rfl (by decide) rfl (.sequence ?_)
  exact .seq_cons (n := 1) (ts := []) (tr := []) (o := none) (.tag_ok (t := c!"[") (List.prefix_append c!"[" _))
    (.seq_fail (.node_fail rfl h))

theorem type_inside_all (k : Nat) {s : Str} {off : Nat} {tr : List RErr}
    (h : Run (envOf L typeFast.rules ind) (.rule typeRule) ⟨s, off + k⟩ i none i tr) :
    Run (envOf L typeFast.rules ind) (.rule typeRule) ⟨List.replicate k '[' ++ s, off⟩ i none i tr := by
  induction k generalizing off with
  | zero => exact h
  | succ k ih =>
    exact type_inside (ih (by rw [show off + 1 + k = off + (k + 1) by omega]; exact h))

theorem type_not_closed {name prop : Str} (hb : (name, prop) ∈ baseTypes) {j off : Nat} {s : Str} (h : s.head? ≠ some ']') :
    Run (envOf L typeFast.rules ind) (.rule typeRule) ⟨'[' :: (typeText name j ++ s), off⟩ i none i
      [⟨⟨off + 1 + (2 * j + 3), 0⟩, .expectedTag c!"]" 100004⟩] := by
  refine .fast_hit (b := 0x5b) rfl rfl (by decide) rfl (.sequence ?_)
  refine .seq_cons (n := 1) (ts := []) (tr := []) (o := none) (.tag_ok (t := c!"[") (List.prefix_append c!"[" _)) ?_
  refine .seq_cons (tr := []) (o := none) (.node_ok rfl (typeText_head hb j (off + 1) i s)) (.seq_fail ?_)
  have : adv (adv ⟨'[' :: (typeText name j ++ s), off⟩ 1) (2 * j + 3) = ⟨s, off + 1 + (2 * j + 3)⟩ := by
    have := adv_left (a := typeText name j) (b := s) (off := off + 1)
    rw [typeText_length hb] at this
    exact this
  rw [this]
  refine .tag_fail (p := ⟨s, _⟩) ?_
  rintro ⟨r, rfl⟩
  exact h rfl

theorem type_reject {text : Str} {e : RErr} (h : Run (envOf L typeFast.rules ind) (.rule typeRule) ⟨text, 0⟩
    ind.indent none ind.indent [e]) : ∃ toks, Parses L typeFast text [] ind (.err e toks) :=
  parses_err_run.2 ⟨[e], .fails rfl h, [], [], rfl, by simp, by simp⟩

theorem type_wrong {text : Str} {e : RErr} (h : TypeWrong text e) : ∃ toks, Parses L typeFast text [] ind (.err e toks) := by
  cases h with
  | @noType k s h =>
    refine type_reject (type_inside_all k ?_)
    rw [Nat.zero_add]
    cases s with
    | nil => exact .fast_end (p := ⟨[], k⟩) rfl
    | cons c cs =>
      obtain ⟨h1, h2, h3⟩ := h c rfl
      obtain ⟨b, bs, hb⟩ := utf8_ne_nil c
      refine .fast_miss (p := ⟨c :: cs, k⟩) rfl hb ?_
      have hf := firstByte_eq hb
      have e1 : b ≠ 0x66 := fun e => h1 (firstByte_ascii (k := 0x66) (by decide) (hf.trans e))
      have e2 : b ≠ 0x5b := fun e => h2 (firstByte_ascii (k := 0x5b) (by decide) (hf.trans e))
      have e3 : b ≠ 0x74 := fun e => h3 (firstByte_ascii (k := 0x74) (by decide) (hf.trans e))
      simp [typeTable, Table.set, e1, e2, e3]
  | @f64 k s h h' =>
    refine type_reject (type_inside_all k ?_)
    rw [Nat.zero_add]
    cases s with
    | nil => cases h
    | cons c cs =>
      cases h
      exact .fast_hit (b := 0x66) rfl rfl (by decide) rfl (.tag_fail h')
  | @thr k s h h' =>
    refine type_reject (type_inside_all k ?_)
    rw [Nat.zero_add]
    cases s with
    | nil => cases h
    | cons c cs =>
      cases h
      exact .fast_hit (b := 0x74) rfl rfl (by decide) rfl (.tag_fail h')
  | @notClosed name prop k j s hb hj h =>
    obtain ⟨m, rfl⟩ : ∃ m, k = m + (1 + j) := ⟨k - (1 + j), by omega⟩
    have e : List.replicate (m + (1 + j)) '[' ++ (name ++ (List.replicate j ']' ++ s)) =
        List.replicate m '[' ++ ('[' :: (typeText name j ++ s)) := by
      simp [typeText, ← List.replicate_append_replicate]
    rw [e]
    refine type_reject (type_inside_all m ?_)
    have := type_not_closed (L := L) (ind := ind) (i := ind.indent) hb (j := j) (off := 0 + m) h
    rwa [show 0 + m + 1 + (2 * j + 3) = m + (1 + j) + 3 + j by omega] at this
  | @more name prop k s hb h =>
    have hrun := typeText_head (L := L) (ind := ind) hb k 0 ind.indent s
    refine parses_err_run.2 ⟨_, .short rfl hrun ?_, [], [], rfl, by simp, by simp⟩
    have : 0 < s.length := List.length_pos_iff.2 h
    simp [typeText_length hb]
    omega

end

/-- The leading characters `c`. -/
theorem leading (c : Char) (s : Str) : ∃ k r, s = List.replicate k c ++ r ∧ r.head? ≠ some c := by
  induction s with
  | nil => exact ⟨0, [], rfl, by simp⟩
  | cons a s ih =>
    by_cases h : a = c
    · obtain ⟨k, r, rfl, hr⟩ := ih
      exact ⟨k + 1, r, by simp [h, List.replicate_succ], hr⟩
    · exact ⟨0, a :: s, rfl, by simpa using h⟩

/-- Every text is a type, or there is something wrong with it. -/
theorem type_total (text : Str) : (∃ name prop k, (name, prop) ∈ baseTypes ∧ text = typeText name k) ∨ ∃ e, TypeWrong text e := by
  obtain ⟨k, s, rfl, hs⟩ := leading '[' text
  have named : ∀ {name prop t}, (name, prop) ∈ baseTypes → s = name ++ t →
      (∃ name prop k', (name, prop) ∈ baseTypes ∧ List.replicate k '[' ++ s = typeText name k') ∨
        ∃ e, TypeWrong (List.replicate k '[' ++ s) e := by
    intro name prop t hb he
    obtain ⟨j, r, rfl, hr⟩ := leading ']' t
    subst he
    by_cases hj : j < k
    · exact .inr ⟨_, .notClosed hb hj hr⟩
    · obtain ⟨m, rfl⟩ : ∃ m, j = k + m := ⟨j - k, by omega⟩
      have e : List.replicate k '[' ++ (name ++ (List.replicate (k + m) ']' ++ r)) =
          typeText name k ++ (List.replicate m ']' ++ r) := by
        simp [typeText, ← List.replicate_append_replicate]
      rw [e]
      by_cases h0 : List.replicate m ']' ++ r = []
      · exact .inl ⟨name, prop, k, hb, by simp [h0]⟩
      · exact .inr ⟨_, .more hb h0⟩
  cases s with
  | nil => exact .inr ⟨_, .noType (by simp)⟩
  | cons c cs =>
    by_cases h1 : c = 'f'
    · by_cases h : c!"f64" <+: c :: cs
      · obtain ⟨t, ht⟩ := h
        exact named (prop := c!"f64") (by simp [baseTypes]) ht.symm
      · exact .inr ⟨_, .f64 (by simp [h1]) h⟩
    · by_cases h2 : c = 't'
      · by_cases h : c!"thr" <+: c :: cs
        · obtain ⟨t, ht⟩ := h
          exact named (prop := c!"thr_any") (by simp [baseTypes]) ht.symm
        · exact .inr ⟨_, .thr (by simp [h2]) h⟩
      · refine .inr ⟨_, .noType fun d hd => ?_⟩
        simp at hd hs
        subst hd
        exact ⟨h1, hs, h2⟩

/-- C79: the report for a text that is not a type. -/
theorem C79_reports {L : Lexer} (hL : L.Lawful) (hs : NoSlash L) (h100 : ReadsHundred L) (E : ErrText) (text msg : Str) :
    TestTypeEnds L E testTypeRules text (.error msg) ↔ ∃ e, TypeWrong text e ∧ reportErr E text e = .ok msg := by
  obtain ⟨syn', ho, h⟩ := syntax_unoptimized hL hs (rules := testTypeRules) (type_doc hL h100) (by decide +kernel)
    type_read (by decide +kernel) (C26_check_sound (by decide +kernel))
  cases C31_deterministic ho type_optimizes
  rw [test_type_ends hL, (bench_ends h).2]
  constructor
  · rintro ⟨e, toks, h1, h2⟩
    rcases type_total text with ⟨name, prop, k, hb, rfl⟩ | ⟨e', he⟩
    · have := (parses_ok_run (toks := [])).2 ⟨_, _, _, _, _, rfl, by
        simpa using typeText_head (L := L) (ind := Indent.default) hb k 0 Indent.default.indent [],
        by simp [typeText_length hb], rfl⟩
      cases parses_det h1 this
    · obtain ⟨toks', h3⟩ := type_wrong (L := L) (ind := Indent.default) he
      cases parses_det h1 h3
      exact ⟨e, he, h2⟩
  · rintro ⟨e, he, h2⟩
    obtain ⟨toks', h3⟩ := type_wrong (L := L) (ind := Indent.default) he
    exact ⟨e, toks', h3, h2⟩

/-- C79: one thing is wrong with a text, and nothing with a type. -/
theorem C79_one_wrong {text : Str} {e : RErr} (h : TypeWrong text e) :
    (∀ e', TypeWrong text e' → e' = e) ∧ ∀ name prop k, (name, prop) ∈ baseTypes → text ≠ typeText name k := by
  obtain ⟨toks, h1⟩ := type_wrong (L := stdLexer) (ind := Indent.default) h
  refine ⟨fun e' h' => ?_, ?_⟩
  · obtain ⟨toks', h2⟩ := type_wrong (L := stdLexer) (ind := Indent.default) h'
    cases parses_det h1 h2
    rfl
  · rintro name prop k hb rfl
    have := (parses_ok_run (toks := [])).2 ⟨_, _, _, _, _, rfl, by
      simpa using typeText_head (L := stdLexer) (ind := Indent.default) hb k 0 Indent.default.indent [],
      by simp [typeText_length hb], rfl⟩
    cases parses_det h1 this

/-- `[[f64]` lacks a bracket at 6, `[]` a type at 1, `fun` is not `f64`, and nothing may follow `thr`. -/
example : TypeWrong c!"[[f64]" ⟨⟨6, 0⟩, .expectedTag c!"]" 100004⟩ ∧ TypeWrong c!"[]" ⟨⟨1, 0⟩, .expectedSomething 100007⟩ ∧
    TypeWrong c!"fun" ⟨⟨0, 0⟩, .expectedTag c!"f64" 100001⟩ ∧ TypeWrong c!"thr!" ⟨⟨3, 0⟩, .expectedEnd⟩ :=
  ⟨.notClosed (name := c!"f64") (prop := c!"f64") (k := 2) (j := 1) (s := []) (by simp [baseTypes]) (by decide) (by simp),
    .noType (k := 1) (s := c!"]") (by simp), .f64 (k := 0) (s := c!"fun") rfl (by decide),
    .more (name := c!"thr") (prop := c!"thr_any") (k := 0) (s := c!"!") (by simp [baseTypes]) (by simp)⟩

end Verif.Props
