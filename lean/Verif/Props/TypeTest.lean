import Verif.Props.Bench
import Verif.Spec.TypeTest
/-
The test `test_type` of src/optimize.rs: C79.
-/
namespace Verif.Props
open Verif Verif.Spec

/-- The alternatives. -/
def typeArgs : List Rule := [.tag c!"f64" false false (some c!"f64") 100001,
  .sequence [.tag c!"[" false false none 100002, .node c!"type" (some c!"arr") (some 0) 100003,
    .tag c!"]" false false none 100004] 100005,
  .tag c!"thr" false false (some c!"thr_any") 100006]

def typeSyntax : Syntax := ⟨[.select typeArgs 100007], [c!"type"]⟩

theorem type_read : (Doc.read [] (typeNodes.map (·.2))).1.map syntaxOf = some typeSyntax := rfl

/-- The table for the first byte of `f64`, `[` and `thr`. -/
def typeTable : UInt8 → UInt8 := ((Table.set (fun _ => 255) 0x66 0).set 0x5b 1).set 0x74 2

def typeFast : Syntax := ⟨[.fastSelect typeTable typeArgs false 100007], [c!"type"]⟩

theorem type_optimizes : Optimizes typeSyntax typeFast := ⟨10, rfl⟩

def typeDesc : Desc := (typeNodes[0]'(by decide)).2.2.2

/-- The text of the rules stands for the document, if the lexer reads the number. -/
theorem type_doc {L : Lexer} (hL : L.Lawful) (h100 : ∀ c rest, isWs c = true → IsNumber L ⟨0x4059000000000000⟩ c!"100" (c :: rest)) :
    Doc.Text L ⟨[], typeNodes.map (·.2)⟩ testTypeRules := by
  obtain ⟨a, ea, ha⟩ := eatNode_text hL h100 (name := c!"type") (d := typeDesc)
    (s := testTypeRules.drop 13) (r := c!"\n        ") (by decide +kernel)
  refine ⟨[], nodeEntries typeNodes, by simp, ?_, ?_, rfl, rfl⟩
  · intro e he
    obtain ⟨x, -, rfl⟩ := List.mem_map.1 he
    rfl
  · refine ⟨c!"\n            ", a, c!"\n        ", by decide, by simp, ha _, ?_, ?_⟩
    · show Space _
      decide
    · rw [← ea]
      rfl

theorem typeText_succ (name : Str) (k : Nat) : typeText name (k + 1) = c!"[" ++ (typeText name k ++ c!"]") := by
  simp [typeText, List.replicate_succ, ← List.replicate_succ']

theorem base_length {name prop : Str} (h : (name, prop) ∈ baseTypes) : name.length = 3 := by
  simp only [baseTypes, List.mem_cons, List.not_mem_nil, or_false, Prod.mk.injEq] at h
  rcases h with ⟨rfl, rfl⟩ | ⟨rfl, rfl⟩ <;> rfl

theorem typeText_length {name prop : Str} (h : (name, prop) ∈ baseTypes) (k : Nat) : (typeText name k).length = 2 * k + 3 := by
  simp [typeText, base_length h]
  omega

theorem type_out {L : Lexer} {ind : Indent} {m : Nat} : ∀ {id : DebugId} {src : Str} {off i j n : Nat} {ts : List Tok}
    {tr : List RErr}, src.length < m →
    Run (envOf L typeSyntax.rules ind) (.rule (.select typeArgs id)) ⟨src, off⟩ i (some (n, ts)) j tr →
    ∃ name prop k rest, (name, prop) ∈ baseTypes ∧ src = typeText name k ++ rest ∧ n = (typeText name k).length ∧
      ts = typeData prop k off := by
  induction m with
  | zero =>
    intros
    omega
  | succ m ih =>
    intro id src off i j n ts tr hm h
    have base : ∀ {name prop : Str} {id i n ts j tr}, (name, prop) ∈ baseTypes →
        Run (envOf L typeSyntax.rules ind) (.rule (.tag name false false (some prop) id)) ⟨src, off⟩ i (some (n, ts)) j tr →
        ∃ name prop k rest, (name, prop) ∈ baseTypes ∧ src = typeText name k ++ rest ∧ n = (typeText name k).length ∧
          ts = typeData prop k off := by
      intro name prop id i n ts j tr hb h
      cases h with | tag_ok h =>
      obtain ⟨rest, rfl⟩ := h
      exact ⟨name, prop, 0, rest, hb, by simp [typeText], by simp [typeText], by simp [named, typeData, base_length hb]⟩
    have hsel := sel_run h
    clear h
    cases hsel with
    | sel_here h => exact base (by simp [baseTypes]) h
    | sel_next _ hx =>
      cases hx with
      | sel_here h =>
        cases h with | sequence ha =>
        obtain ⟨n1, t1, j1, _, m1, u1, _, h1, hb, rfl, rfl⟩ := seq_inv ha
        obtain ⟨rfl, rfl, rfl, s1, rfl⟩ := tag_inv h1
        rw [adv_left] at hb
        obtain ⟨n2, t2, j2, _, m2, u2, _, h2, hc, rfl, rfl⟩ := seq_inv hb
        cases h2 with | node_ok hr h2 =>
        cases hr
        obtain ⟨name, prop, k, s2, hbt, rfl, rfl, rfl⟩ := ih (by simp at hm ⊢; omega) h2
        rw [adv_left] at hc
        obtain ⟨n3, t3, j3, _, m3, u3, _, h3, hd, rfl, rfl⟩ := seq_inv hc
        obtain ⟨rfl, rfl, rfl, s3, rfl⟩ := tag_inv h3
        obtain ⟨rfl, rfl, rfl⟩ := seq_end hd
        refine ⟨name, prop, k + 1, s3, hbt, by simp [typeText_succ], by simp [typeText_succ]; omega, ?_⟩
        simp [typeData, wrapped, typeText_length hbt]
      | sel_next _ hx =>
        cases hx with
        | sel_here h => exact base (by simp [baseTypes]) h
        | sel_next _ h => cases h

theorem type_in {L : Lexer} {ind : Indent} {name prop : Str} (hb : (name, prop) ∈ baseTypes) (i : Nat) :
    ∀ (k off : Nat) (rest : Str) (id : DebugId), ∃ tr, Run (envOf L typeSyntax.rules ind) (.rule (.select typeArgs id))
      ⟨typeText name k ++ rest, off⟩ i (some ((typeText name k).length, typeData prop k off)) i tr
  | 0, off, rest, id => by
    simp only [baseTypes, List.mem_cons, List.not_mem_nil, or_false, Prod.mk.injEq] at hb
    rcases hb with ⟨rfl, rfl⟩ | ⟨rfl, rfl⟩
    · exact ⟨_, .select (.sel_here (.tag_ok ⟨rest, by simp [typeText]⟩))⟩
    · exact ⟨_, .select (.sel_next (.tag_fail (by simp [typeText])) (.sel_next
        (.sequence (.seq_fail (.tag_fail (by simp [typeText]))))
        (.sel_here (.tag_ok ⟨rest, by simp [typeText]⟩))))⟩
  | k + 1, off, rest, id => by
    obtain ⟨tr1, h1⟩ := type_in (L := L) (ind := ind) hb i k (off + 1) (c!"]" ++ rest) 100007
    obtain ⟨tr2, h2⟩ := seq_step (E := envOf L typeSyntax.rules ind) (a := c!"[") (off := off) (i := i)
      ⟨_, .tag_ok (t := c!"[") (inv := false) (prop := none) (id := 100002) (List.prefix_append _ _)⟩
      (seq_step (a := typeText name k) (s := c!"]" ++ rest) ⟨_, .node_ok (name := c!"type") (prop := some c!"arr") (id := 100003)
          (ix := 0) rfl h1⟩
        (seq_step (a := c!"]") (s := rest) ⟨_, .tag_ok (t := c!"]") (inv := false) (prop := none) (id := 100004)
          (List.prefix_append _ _)⟩ ⟨_, .seq_nil⟩))
    have h3 := Run.sequence (id := 100005) h2
    have h4 : Run (envOf L typeSyntax.rules ind) (.rule (.sequence
        [.tag c!"[" false false none 100002, .node c!"type" (some c!"arr") (some 0) 100003,
          .tag c!"]" false false none 100004] 100005)) ⟨typeText name (k + 1) ++ rest, off⟩ i
        (some ((typeText name (k + 1)).length, typeData prop (k + 1) off)) i tr2 := by
      simpa [typeText_succ, typeData, wrapped, named, typeText_length hb, Nat.add_comm,
        Nat.add_left_comm] using h3
    exact ⟨_, .select (.sel_next (.tag_fail (by simp [typeText_succ])) (.sel_here h4))⟩

/-- What the rules accept. -/
theorem type_exact {L : Lexer} {ind : Indent} {text : Str} {toks : List Tok} :
    Parses L typeSyntax text [] ind (.ok toks) ↔
      ∃ name prop k, (name, prop) ∈ baseTypes ∧ text = typeText name k ∧ toks = typeData prop k 0 := by
  rw [parses_ok_run]
  constructor
  · rintro ⟨r, n, ts, j, tr, hr, h, hlen, rfl⟩
    cases hr
    obtain ⟨name, prop, k, rest, hb, rfl, rfl, rfl⟩ := type_out (Nat.lt_succ_self _) h
    have : rest = [] := List.eq_nil_of_length_eq_zero (by simp at hlen; omega)
    subst this
    exact ⟨name, prop, k, hb, by simp, by simp⟩
  · rintro ⟨name, prop, k, hb, rfl, rfl⟩
    obtain ⟨tr, h⟩ := type_in (L := L) (ind := ind) hb ind.indent k 0 [] 100007
    exact ⟨_, _, _, _, _, rfl, by simpa using h, Nat.le_refl _, by simp⟩

/-! ### Calls -/

/-- The call of the alternative that the first byte selects. -/
theorem type_fast {L : Lexer} {id : DebugId} {n s off : Nat} {st : St} {c : Char} {cs : Str} {b : UInt8} {r : Rule}
    (hb : typeTable (firstByte c) = b) (h255 : b ≠ 255) (hr : typeArgs[b.toNat]? = some r)
    {x : Range} {s' : Nat} {e : Option RErr} {st' : St}
    (h : eval L typeFast.rules n r st s ⟨c :: cs, off⟩ = .ret (.ok x s' e) st') :
    eval L typeFast.rules (n + 1) (.fastSelect typeTable typeArgs false id) st s ⟨c :: cs, off⟩ =
      .ret (.ok ⟨off, x.length⟩ s' e) st' ∧
    callCount L typeFast.rules (n + 1) ⟨.fastSelect typeTable typeArgs false id, st, s, ⟨c :: cs, off⟩⟩ =
      1 + callCount L typeFast.rules n ⟨r, st, s, ⟨c :: cs, off⟩⟩ ∧
    callDepth L typeFast.rules (n + 1) ⟨.fastSelect typeTable typeArgs false id, st, s, ⟨c :: cs, off⟩⟩ =
      1 + callDepth L typeFast.rules n ⟨r, st, s, ⟨c :: cs, off⟩⟩ := by
  have hcalls : subcalls L typeFast.rules (eval L typeFast.rules n) n
      ⟨.fastSelect typeTable typeArgs false id, st, s, ⟨c :: cs, off⟩⟩ = [⟨r, st, s, ⟨c :: cs, off⟩⟩] := by
    simp [subcalls, fastSelectCalls, hb, h255, hr, h]
  refine ⟨?_, ?_, ?_⟩
  · simp [eval, step, evalFastSelect, hb, h255, hr, h, Pos.peek]
  · simp [callCount, hcalls]
  · simp [callDepth, hcalls]

theorem type_counts {L : Lexer} {name prop : Str} (hb : (name, prop) ∈ baseTypes) : ∀ (k : Nat) (id : DebugId) (st : St)
    (s off n : Nat) (rest : Str), 3 * k + 2 ≤ n →
    (∃ s' e st', eval L typeFast.rules n (.fastSelect typeTable typeArgs false id) st s ⟨typeText name k ++ rest, off⟩ =
      .ret (.ok ⟨off, 2 * k + 3⟩ s' e) st') ∧
    callCount L typeFast.rules n ⟨.fastSelect typeTable typeArgs false id, st, s, ⟨typeText name k ++ rest, off⟩⟩ = 5 * k + 2 ∧
    callDepth L typeFast.rules n ⟨.fastSelect typeTable typeArgs false id, st, s, ⟨typeText name k ++ rest, off⟩⟩ = 3 * k + 2
  | 0, id, st, s, off, n, rest, hn => by
    obtain ⟨n, rfl⟩ : ∃ m, n = m + 2 := ⟨n - 2, by omega⟩
    simp only [baseTypes, List.mem_cons, List.not_mem_nil, or_false, Prod.mk.injEq] at hb
    rcases hb with ⟨rfl, rfl⟩ | ⟨rfl, rfl⟩
    · obtain ⟨h1, h2, h3⟩ := type_fast (L := L) (id := id) (n := n + 1) (s := s) (off := off) (st := st) (c := 'f')
        (cs := c!"64" ++ rest) (b := 0) rfl (by decide) rfl rfl
      exact ⟨⟨_, _, _, h1⟩, h2, h3⟩
    · obtain ⟨h1, h2, h3⟩ := type_fast (L := L) (id := id) (n := n + 1) (s := s) (off := off) (st := st) (c := 't')
        (cs := c!"hr" ++ rest) (b := 2) rfl (by decide) rfl rfl
      exact ⟨⟨_, _, _, h1⟩, h2, h3⟩
  | k + 1, id, st, s, off, n, rest, hn => by
    obtain ⟨n, rfl⟩ : ∃ m, n = m + 3 := ⟨n - 3, by omega⟩
    obtain ⟨⟨s1, e1, st1, h1⟩, h2, h3⟩ := type_counts (L := L) hb k 100007 (pushOpt (some c!"arr") .startNode ⟨off + 1, 0⟩ st s).1
      (pushOpt (some c!"arr") .startNode ⟨off + 1, 0⟩ st s).2 (off + 1) n (c!"]" ++ rest) (by omega)
    have hnode : eval L typeFast.rules (n + 1) (.node c!"type" (some c!"arr") (some 0) 100003) st s
        ⟨typeText name k ++ (c!"]" ++ rest), off + 1⟩ =
        .ret (.ok ⟨off + 1, 2 * k + 3⟩ (pushOpt (some c!"arr") .endNode ⟨off + 1, 2 * k + 3⟩ st1 s1).2 e1)
          (pushOpt (some c!"arr") .endNode ⟨off + 1, 2 * k + 3⟩ st1 s1).1 := by
      have hr : typeFast.rules[0]? = some (.fastSelect typeTable typeArgs false 100007) := rfl
      simp only [eval, step, evalNode, Pos.start, hr, h1]
      cases e1 <;> simp [Pos.consume, Pos.subtract, errUpdate]
    have hcn : callCount L typeFast.rules (n + 1) ⟨.node c!"type" (some c!"arr") (some 0) 100003, st, s,
        ⟨typeText name k ++ (c!"]" ++ rest), off + 1⟩⟩ = 5 * k + 3 :=
      (congrArg (fun x => 1 + (x + 0)) h2).trans (by simp; omega)
    have hdn : callDepth L typeFast.rules (n + 1) ⟨.node c!"type" (some c!"arr") (some 0) 100003, st, s,
        ⟨typeText name k ++ (c!"]" ++ rest), off + 1⟩⟩ = 3 * k + 3 :=
      (congrArg (1 + max · 0) h3).trans (by simp; omega)
    generalize pushOpt (some c!"arr") .endNode ⟨off + 1, 2 * k + 3⟩ st1 s1 = q at hnode
    have hopen : eval L typeFast.rules (n + 1) (.tag c!"[" false false none 100002) st s
        ⟨'[' :: (typeText name k ++ (c!"]" ++ rest)), off⟩ = .ret (.ok ⟨off, 1⟩ s none) st := rfl
    have hclose : eval L typeFast.rules (n + 1) (.tag c!"]" false false none 100004) q.1 q.2
        ⟨c!"]" ++ rest, off + 1 + (2 * k + 3)⟩ = .ret (.ok ⟨off + 1 + (2 * k + 3), 1⟩ q.2 none) q.1 := rfl
    have hdrop : List.drop (2 * k + 3) (typeText name k ++ (c!"]" ++ rest)) = c!"]" ++ rest := by
      rw [← typeText_length hb k, List.drop_left]
    have hcalls : sequenceCalls (eval L typeFast.rules (n + 1)) [.tag c!"[" false false none 100002,
        .node c!"type" (some c!"arr") (some 0) 100003, .tag c!"]" false false none 100004]
        ⟨'[' :: (typeText name k ++ (c!"]" ++ rest)), off⟩ s st =
        [⟨.tag c!"[" false false none 100002, st, s, ⟨'[' :: (typeText name k ++ (c!"]" ++ rest)), off⟩⟩,
         ⟨.node c!"type" (some c!"arr") (some 0) 100003, st, s, ⟨typeText name k ++ (c!"]" ++ rest), off + 1⟩⟩,
         ⟨.tag c!"]" false false none 100004, q.1, q.2, ⟨c!"]" ++ rest, off + 1 + (2 * k + 3)⟩⟩] := by
      simp only [sequenceCalls, hopen, Pos.consume, List.drop_succ_cons, List.drop_zero, hnode, hdrop, hclose]
    have hseq : ∃ e, eval L typeFast.rules (n + 2) (.sequence [.tag c!"[" false false none 100002,
        .node c!"type" (some c!"arr") (some 0) 100003, .tag c!"]" false false none 100004] 100005) st s
        ⟨'[' :: (typeText name k ++ (c!"]" ++ rest)), off⟩ = .ret (.ok ⟨off, 2 * (k + 1) + 3⟩ q.2 e) q.1 := by
      refine ⟨errUpdate none (errUpdate e1 (errUpdate none none)), ?_⟩
      rw [eval]
      simp only [step, evalSequence, hopen, Pos.consume, List.drop_succ_cons, List.drop_zero, hnode, hdrop, hclose]
      simp [Pos.subtract]
      omega
    obtain ⟨e, hseq⟩ := hseq
    have htext : typeText name (k + 1) ++ rest = '[' :: (typeText name k ++ (c!"]" ++ rest)) := by simp [typeText_succ]
    rw [htext]
    obtain ⟨h4, h5, h6⟩ := type_fast (L := L) (id := id) (b := 1) rfl (by decide) rfl hseq
    refine ⟨⟨_, _, _, h4⟩, h5.trans ?_, h6.trans ?_⟩
    · rw [callCount]
      simp only [subcalls, hcalls, List.map_cons, List.map_nil, List.sum_cons, List.sum_nil, hcn]
      simp [callCount, subcalls]
      omega
    · rw [callDepth]
      simp only [subcalls, hcalls, List.map_cons, List.map_nil, List.foldr_cons, List.foldr_nil, hdn]
      simp [callDepth, subcalls]
      omega

/-! ### C79 -/

/-- The lexer reads `100` before space as a number. -/
def ReadsHundred (L : Lexer) : Prop := ∀ c rest, isWs c = true → IsNumber L ⟨0x4059000000000000⟩ c!"100" (c :: rest)

theorem std_readsHundred : ReadsHundred stdLexer := fun c rest hc =>
  std_isNumber (by simp) (by decide) (by decide +kernel) c rest hc

theorem test_type_ends {L : Lexer} (hL : L.Lawful) (E : ErrText) (rules text : Str) (r : Except Str (List Tok)) :
    TestTypeEnds L E rules text r ↔ BenchEnds L E rules text r := C78_optimized_again hL E rules text r

/-- C79: what the rules of `test_type` make of any text: the data if it is a type, a panic with a report if not. -/
theorem C79_types {L : Lexer} (hL : L.Lawful) (hs : NoSlash L) (h100 : ReadsHundred L) (E : ErrText) (text : Str) :
    (∀ data, TestTypeEnds L E testTypeRules text (.ok data) ↔
      ∃ name prop k, (name, prop) ∈ baseTypes ∧ text = typeText name k ∧ data = typeData prop k 0) ∧
    ((∃ msg, TestTypeEnds L E testTypeRules text (.error msg)) ↔
      ∀ name prop k, (name, prop) ∈ baseTypes → text ≠ typeText name k) := by
  have h := bench_exact hL hs (P := fun text data => ∃ name prop k, (name, prop) ∈ baseTypes ∧ text = typeText name k ∧
      data = typeData prop k 0) (type_doc hL h100) type_read (by decide +kernel) (by decide +kernel)
    (C26_check_sound (by decide +kernel)) (by decide +kernel) (by decide +kernel) (fun _ _ => type_exact) E text
  simp only [test_type_ends hL]
  refine ⟨h.1, h.2.trans ⟨fun hno name prop k hb e => hno ⟨_, name, prop, k, hb, e, rfl⟩, ?_⟩⟩
  rintro hno ⟨data, name, prop, k, hb, e, -⟩
  exact hno name prop k hb e

/-- C79: the rules that `syntax` returns for `test_type`: the alternatives are selected by their first byte.  Parsing a
type in `k` pairs of brackets takes `5 * k + 2` calls of `Rule::parse`, of which `3 * k + 2` are on the stack. -/
theorem C79_rules {L : Lexer} (hL : L.Lawful) (hs : NoSlash L) (h100 : ReadsHundred L) : ∃ syn : Syntax,
    (∀ r, SyntaxReturns L testTypeRules r ↔ r = .ok syn) ∧
    (∃ table args, syn = ⟨[.fastSelect table args false 100007], [c!"type"]⟩ ∧ args.length = 3 ∧
      ∀ b, table b = if b = 0x66 then 0 else if b = 0x5b then 1 else if b = 0x74 then 2 else 255) ∧
    ∀ {name prop}, (name, prop) ∈ baseTypes → ∀ k ind m d,
      Costs L syn (typeText name k) [] ind m d ↔ m = 5 * k + 2 ∧ d = 3 * k + 2 := by
  obtain ⟨syn', ho, h⟩ := syntax_unoptimized hL hs (rules := testTypeRules) (type_doc hL h100) (by decide +kernel)
    type_read (by decide +kernel) (C26_check_sound (by decide +kernel))
  cases C31_deterministic ho type_optimizes
  refine ⟨_, h, ⟨typeTable, typeArgs, rfl, rfl, ?_⟩, fun {name prop} hb k ind m d => ?_⟩
  · intro b
    simp only [typeTable, Table.set]
    by_cases h1 : b = 0x74
    · subst h1; rfl
    · by_cases h2 : b = 0x5b
      · subst h2; rfl
      · by_cases h3 : b = 0x66
        · subst h3; rfl
        · simp [h1, h2, h3]
  · obtain ⟨⟨_, _, _, h1⟩, h2, h3⟩ := type_counts (L := L) hb k 100007 ⟨[], ind⟩ 0 0 (3 * k + 2) [] (Nat.le_refl _)
    simp only [List.append_nil] at h1 h2 h3
    have hc : Costs L typeFast (typeText name k) [] ind (5 * k + 2) (3 * k + 2) := 
      ⟨_, _, rfl, (by intro ht; cases h1.symm.trans ht), h2, h3⟩
    constructor
    · exact fun h => C70_cost_unique h hc
    · rintro ⟨rfl, rfl⟩
      exact hc

/-- C79: what the test does. -/
theorem C79_test {L : Lexer} (hL : L.Lawful) (hs : NoSlash L) (h100 : ReadsHundred L) (E : ErrText)
    (r : Except Str (List Tok)) : TestTypeEnds L E testTypeRules testTypeText r ↔
      r = .ok [⟨⟨1, 0⟩, .startNode c!"arr"⟩, ⟨⟨1, 3⟩, .bool c!"f64" true⟩, ⟨⟨1, 3⟩, .endNode c!"arr"⟩] := by
  obtain ⟨h1, h2⟩ := C79_types hL hs h100 E testTypeText
  have hin : (c!"f64", c!"f64") ∈ baseTypes := by simp [baseTypes]
  cases r with
  | error msg =>
    refine ⟨fun h => absurd rfl (h2.1 ⟨msg, h⟩ _ _ 1 hin), fun h => by cases h⟩
  | ok data =>
    rw [h1]
    constructor
    · rintro ⟨name, prop, k, hb, e, rfl⟩
      have hk : k = 1 := by
        have := congrArg List.length e
        rw [typeText_length hb] at this
        simp [testTypeText] at this
        omega
      subst hk
      simp only [baseTypes, List.mem_cons, List.not_mem_nil, or_false, Prod.mk.injEq] at hb
      rcases hb with ⟨rfl, rfl⟩ | ⟨rfl, rfl⟩
      · rfl
      · exact absurd e (by decide)
    · intro h
      cases h
      exact ⟨_, _, 1, hin, rfl, rfl⟩

/-- `[[thr]]` is a type, `[[f64]` and `[]` are not. -/
example (E : ErrText) :
    TestTypeEnds stdLexer E testTypeRules c!"[[thr]]" (.ok [⟨⟨1, 0⟩, .startNode c!"arr"⟩, ⟨⟨2, 0⟩, .startNode c!"arr"⟩,
      ⟨⟨2, 3⟩, .bool c!"thr_any" true⟩, ⟨⟨2, 3⟩, .endNode c!"arr"⟩, ⟨⟨1, 5⟩, .endNode c!"arr"⟩]) ∧
    (∃ msg, TestTypeEnds stdLexer E testTypeRules c!"[[f64]" (.error msg)) ∧
    ∃ msg, TestTypeEnds stdLexer E testTypeRules c!"[]" (.error msg) := by
  have h := C79_types stdLexer_lawful stdLexer_noSlash std_readsHundred E
  refine ⟨((h _).1 _).2 ⟨c!"thr", c!"thr_any", 2, by simp [baseTypes], rfl, rfl⟩, (h _).2.2 ?_, (h _).2.2 ?_⟩ <;>
  · intro name prop k hb e
    have := congrArg List.length e
    rw [typeText_length hb] at this
    simp at this
    try omega

end Verif.Props
