import Verif.Props.KeyValue
import Verif.Props.OptTwice
import Verif.Props.Cost
import Verif.Spec.Bench
/-
The benchmarks in benches/bench.rs: C78.
-/
namespace Verif.Props
open Verif Verif.Spec

/-- What `syntax` returns for a text of rules that are well-formed. -/
theorem syntax_unoptimized {L : Lexer} (hL : L.Lawful) (hs : NoSlash L) {ss : List (Str × Str)}
    {ns : List (F64 × Str × Desc)} {rules : Str} (htext : Doc.Text L ⟨ss, ns⟩ rules)
    (hsmall : ¬ Doc.Overflows ⟨ss, ns⟩) {syn : Syntax}
    (hread : (Doc.read ss ns).1.map syntaxOf = some syn) (hw : wellFormed syn.rules = true)
    (hok : SyntaxOk syn) : ∃ syn', Optimizes syn syn' ∧ ∀ r, SyntaxReturns L rules r ↔ r = .ok syn' := by
  cases hr : (Doc.read ss ns).1 with
  | none => rw [hr] at hread; cases hread
  | some rd =>
    rw [hr] at hread
    cases hread
    obtain ⟨syn', h⟩ := C31_returns_well_formed (L := L) (ind := Indent.default) (C25_check_sound hL _ hw) hok
    refine ⟨syn', h, fun r => ?_⟩
    rw [C49_meaning hL hs htext hsmall, hr]
    constructor
    · rintro ⟨syn'', h', rfl⟩
      rw [C31_deterministic h' h]
    · rintro rfl
      exact ⟨_, h, rfl⟩

/-! ### Greetings -/

def greetTags : Nat → List (Str × Str) → List Rule
  | _, [] => []
  | k, (name, prop) :: names => .tag name false false (some prop) k :: greetTags (k + 1) names

def greetSelect (names : List (Str × Str)) (tail : Bool) : List Rule :=
  greetTags 1003 names ++ if tail then [.untilAnyOrWs c!"!" false (some c!"name") (1003 + names.length)] else []

/-- The rules for these names, not optimized. -/
def greetSyntax (names : List (Str × Str)) (tail : Bool) : Syntax :=
  let k := 1003 + (greetSelect names tail).length
  ⟨[.sequence [.tag c!"hi" false false none 1001, .whitespace true 1002,
      .select (greetSelect names tail) k, .tag c!"!" false false none (k + 1)] (k + 2),
    .node c!"say_hi" none (some 0) 2001], [c!"say_hi", c!"document"]⟩

theorem bench_hello_read : (Doc.read [] ((greetNodes (benchNames.take 2) false).map (·.2))).1.map syntaxOf =
    some (greetSyntax (benchNames.take 2) false) := rfl
theorem bench_3_read : (Doc.read [] ((greetNodes (benchNames.take 3) false).map (·.2))).1.map syntaxOf =
    some (greetSyntax (benchNames.take 3) false) := rfl
theorem bench_5_read : (Doc.read [] ((greetNodes benchNames false).map (·.2))).1.map syntaxOf =
    some (greetSyntax benchNames false) := rfl
theorem bench_tail_read : (Doc.read [] ((greetNodes benchNames true).map (·.2))).1.map syntaxOf =
    some (greetSyntax benchNames true) := rfl

section
variable {E : Env}

theorem greet_tags_out {tl : List Rule} : ∀ {names : List (Str × Str)} {k : Nat} {p : Pos} {i j n : Nat} {ts : List Tok}
    {tr : List RErr}, Run E (.sel (greetTags k names ++ tl)) p i (some (n, ts)) j tr →
    (j = i ∧ ∃ pre name prop post, names = pre ++ (name, prop) :: post ∧ name <+: p.src ∧ (∀ x ∈ pre, ¬ x.1 <+: p.src) ∧
      n = name.length ∧ ts = [⟨⟨p.off, name.length⟩, .bool prop true⟩]) ∨
    ((∀ x ∈ names, ¬ x.1 <+: p.src) ∧ ∃ tr', Run E (.sel tl) p i (some (n, ts)) j tr')
  | [], _, _, _, _, _, _, tr, h => .inr ⟨by simp, tr, h⟩
  | (name, prop) :: names, k, p, i, j, n, ts, tr, h => by
    simp only [greetTags, List.cons_append] at h
    cases h with
    | sel_here h =>
      cases h with
      | tag_ok h => exact .inl ⟨rfl, [], name, prop, names, rfl, h, by simp, rfl, rfl⟩
    | sel_next h h' =>
      cases h with
      | tag_fail h =>
        rcases greet_tags_out h' with ⟨rfl, pre, name', prop', post, rfl, h1, h2, h3, h4⟩ | ⟨h1, tr', h2⟩
        · exact .inl ⟨rfl, (name, prop) :: pre, name', prop', post, rfl, h1, by
            intro x hx
            rcases List.mem_cons.1 hx with rfl | hx
            · exact h
            · exact h2 x hx, h3, h4⟩
        · refine .inr ⟨?_, tr', h2⟩
          intro x hx
          rcases List.mem_cons.1 hx with rfl | hx
          · exact h
          · exact h1 x hx

theorem greet_tags_in {name prop : Str} {post : List (Str × Str)} {tl : List Rule} {p : Pos} {i : Nat} (hn : name <+: p.src) :
    ∀ {pre : List (Str × Str)} {k : Nat}, (∀ x ∈ pre, ¬ x.1 <+: p.src) →
    ∃ tr, Run E (.sel (greetTags k (pre ++ (name, prop) :: post) ++ tl)) p i
      (some (name.length, [⟨⟨p.off, name.length⟩, .bool prop true⟩])) i tr
  | [], _, _ => ⟨_, .sel_here (.tag_ok hn)⟩
  | (name', prop') :: pre, k, h => by
    obtain ⟨tr, h1⟩ := greet_tags_in (pre := pre) hn (k := k + 1) fun x hx => h x (by simp [hx])
    exact ⟨_, .sel_next (.tag_fail (h (name', prop') (by simp))) h1⟩

theorem greet_tags_skip {tl : List Rule} {p : Pos} {i : Nat} {o : Outcome} {tr : List RErr}
    (h : Run E (.sel tl) p i o i tr) : ∀ {names : List (Str × Str)} {k : Nat}, (∀ x ∈ names, ¬ x.1 <+: p.src) →
    ∃ tr, Run E (.sel (greetTags k names ++ tl)) p i o i tr
  | [], _, _ => ⟨_, h⟩
  | (name', prop') :: pre, k, hn => by
    obtain ⟨tr, h1⟩ := greet_tags_skip h (names := pre) (k := k + 1) fun x hx => hn x (by simp [hx])
    exact ⟨_, .sel_next (.tag_fail (hn (name', prop') (by simp))) h1⟩

end

theorem sel_run {E : Env} {rs : List Rule} {id : DebugId} {p : Pos} {i j n : Nat} {ts : List Tok} {tr : List RErr}
    (h : Run E (.rule (.select rs id)) p i (some (n, ts)) j tr) : Run E (.sel rs) p i (some (n, ts)) j tr := by
  cases h with
  | select h => exact h

theorem tag_inv {E : Env} {t : Str} {id : DebugId} {src : Str} {off i k n : Nat} {ts : List Tok} {tr : List RErr}
    (h : Run E (.rule (.tag t false false none id)) ⟨src, off⟩ i (some (n, ts)) k tr) :
    ts = [] ∧ k = i ∧ n = t.length ∧ ∃ rest, src = t ++ rest := by
  cases h with
  | tag_ok h =>
    obtain ⟨rest, rfl⟩ := h
    exact ⟨rfl, rfl, rfl, rest, rfl⟩

/-- What the rules for some names accept. -/
theorem greet_exact {L : Lexer} {names : List (Str × Str)} {tail : Bool} (h0 : names ≠ [])
    (hn : ∀ x ∈ names, Word x.1) {text : Str} {toks : List Tok} :
    Parses L (greetSyntax names tail) text [] Indent.default (.ok toks) ↔ GreetText names tail text toks := by
  rw [parses_ok_run]
  constructor
  · rintro ⟨r, n, ts, j, tr, hr, h, hlen, rfl⟩
    cases hr
    cases h with | node_ok hr h =>
    cases hr
    cases h with | sequence ha =>
    obtain ⟨n1, t1, j1, _, m1, u1, _, h1, hb, rfl, rfl⟩ := seq_inv ha
    obtain ⟨rfl, rfl, rfl, s1, rfl⟩ := tag_inv h1
    rw [adv_left] at hb
    obtain ⟨n2, t2, j2, _, m2, u2, _, h2, hc, rfl, rfl⟩ := seq_inv hb
    obtain ⟨rfl, rfl, w, s2, rfl, rfl, hw, hw'⟩ := ws_inv h2
    rw [adv_left] at hc
    obtain ⟨n3, t3, j3, _, m3, u3, _, h3, hd, rfl, rfl⟩ := seq_inv hc
    obtain ⟨n4, t4, j4, _, m4, u4, _, h4, he, rfl, rfl⟩ := seq_inv hd
    obtain ⟨rfl, rfl, rfl⟩ := seq_end he
    rcases greet_tags_out (sel_run h3) with ⟨rfl, pre, name, prop, post, rfl, ⟨s3, rfl⟩, h6, rfl, rfl⟩ | ⟨h6, tr', h7⟩
    · rw [adv_left] at h4
      obtain ⟨rfl, rfl, rfl, s4, rfl⟩ := tag_inv h4
      have : s4 = [] := by
        simp at hlen
        exact List.eq_nil_of_length_eq_zero (by omega)
      subst this
      exact .name hw rfl h6
    · cases tail with
      | false => cases h7
      | true =>
        cases h7 with
        | sel_next _ h7 => cases h7
        | sel_here h7 =>
          cases h7 with | untilWs_ok h7 h70 =>
          obtain ⟨v, s3, rfl, rfl, h8, h9⟩ := longest_split h7
          rw [adv_left] at h4
          obtain ⟨rfl, rfl, rfl, s4, rfl⟩ := tag_inv h4
          have : s4 = [] := by
            simp at hlen
            exact List.eq_nil_of_length_eq_zero (by omega)
          subst this
          simp only [named, wrapped, List.nil_append, List.append_nil, List.take_left]
          exact .other hw rfl (fun e => by simp [e] at h70) (fun c hc => by simpa using h8 c hc) h6
  · intro h
    have key : ∀ {w s : Str} {n : Nat} {t : Tok}, (∀ c ∈ w, isWs c = true) → s.length = n →
        (∀ c, (s ++ c!"!").head? = some c → isWs c = false) →
        (∃ tr, Run (envOf L (greetSyntax names tail).rules Indent.default) (.sel (greetSelect names tail))
          ⟨s ++ c!"!", 2 + w.length⟩ 0 (some (n, [t])) 0 tr) →
        ∃ r n ts j tr, (greetSyntax names tail).rules.getLast? = some r ∧
          Run (envOf L (greetSyntax names tail).rules Indent.default) (.rule r) ⟨c!"hi" ++ (w ++ (s ++ c!"!")), 0⟩
            Indent.default.indent (some (n, ts)) j tr ∧
          (c!"hi" ++ (w ++ (s ++ c!"!"))).length ≤ n ∧ [t] = [] ++ ts := by
      intro w s n t hw hs hc ⟨tr, h⟩
      have hne : greetSelect names tail ≠ [] := by
        obtain ⟨x, xs, rfl⟩ : ∃ x xs, names = x :: xs := by
          cases names with
          | nil => exact absurd rfl h0
          | cons x xs => exact ⟨x, xs, rfl⟩
        simp [greetSelect, greetTags]
      obtain ⟨x, xs, hx⟩ : ∃ x xs, greetSelect names tail = x :: xs := by
        cases hg : greetSelect names tail with
        | nil => exact absurd hg hne
        | cons x xs => exact ⟨x, xs, rfl⟩
      have hsel : ∀ id, ∃ tr, Run (envOf L (greetSyntax names tail).rules Indent.default)
          (.rule (.select (greetSelect names tail) id)) ⟨s ++ c!"!", 0 + c!"hi".length + w.length⟩ 0 (some (s.length, [t])) 0 tr := by
        intro id
        rw [hs, hx]
        rw [hx] at h
        exact ⟨tr, .select (by simpa using h)⟩
      obtain ⟨tr1, h1⟩ := seq_step (E := envOf L (greetSyntax names tail).rules Indent.default) (a := c!"hi") (off := 0) (i := 0)
        ⟨_, .tag_ok (t := c!"hi") (inv := false) (prop := none) (id := 1001) (List.prefix_append _ _)⟩
        (seq_step (r := .whitespace true 1002) (ws_step hw hc _ _)
        (seq_step (hsel (1003 + (greetSelect names tail).length))
        (seq_step (a := c!"!") (s := []) ⟨_, .tag_ok (t := c!"!") (inv := false) (prop := none)
          (id := 1003 + (greetSelect names tail).length + 1) (List.prefix_append _ _)⟩ ⟨_, .seq_nil⟩)))
      have h2 := Run.node_ok (E := envOf L (greetSyntax names tail).rules Indent.default) (name := c!"say_hi") (prop := none)
        (id := 2001) (ix := 0) rfl (Run.sequence (id := 1003 + (greetSelect names tail).length + 2) h1)
      refine ⟨_, _, _, _, _, rfl, by simpa [Indent.default] using h2, ?_, ?_⟩
      · simp; omega
      · simp [wrapped, named]
    cases h with
    | @name w pre name prop post hw hns hp =>
      have hname := hn (name, prop) (by simp [hns])
      refine key hw rfl ?_ ?_
      · intro c hc
        cases name with
        | nil => exact absurd rfl hname.1
        | cons x xs => cases hc; exact hname.2 _ (by simp)
      · simp only [greetSelect, hns]
        exact greet_tags_in (p := ⟨name ++ c!"!", 2 + w.length⟩) (List.prefix_append _ _) hp
    | @other w v hw ht h0 hv hns =>
      refine key hw rfl ?_ ?_
      · intro c hc
        cases v with
        | nil => exact absurd rfl h0
        | cons x xs => cases hc; exact (hv _ (by simp)).2
      · subst ht
        refine greet_tags_skip (p := ⟨v ++ c!"!", 2 + w.length⟩) (.sel_here (tr := []) ?_) hns
        have := Run.untilWs_ok (E := envOf L (greetSyntax names true).rules Indent.default) (any := c!"!") (opt := false)
          (prop := some c!"name") (id := 1003 + names.length) (p := ⟨v ++ c!"!", 2 + w.length⟩) (i := 0) (n := v.length)
          (Boot.longest_append (fun c hc => by simpa using hv c hc) (fun c hc => by cases hc; simp))
          (fun e => absurd (List.length_eq_zero_iff.1 e) h0)
        simpa [named] using this

/-! ### Deep recursion -/

/-- The rules of `bench_deep_string`. -/
def deepRule : Rule :=
  .sequence [.untilAnyOrWs c!" " false (some c!"foo") 1001, .whitespace false 1002,
    .select [.tag c!"foo" false false none 1003, .node c!"foo" none (some 0) 1004] 1005] 1006

def deepSyntax : Syntax := ⟨[deepRule, .node c!"foo" none (some 0) 2001], [c!"foo", c!"document"]⟩

theorem bench_deep_read : (Doc.read [] (deepNodes.map (·.2))).1.map syntaxOf = some deepSyntax := rfl

theorem deep_out {L : Lexer} {ind : Indent} {m : Nat} : ∀ {id : DebugId} {src : Str} {off i j n : Nat} {ts : List Tok}
    {tr : List RErr}, src.length < m →
    Run (envOf L deepSyntax.rules ind) (.rule (.node c!"foo" none (some 0) id)) ⟨src, off⟩ i (some (n, ts)) j tr →
    j = i ∧ ∃ k text rest, src = text ++ rest ∧ n = text.length ∧ DeepText k off text ts := by
  induction m with
  | zero =>
    intros
    omega
  | succ m ih =>
    intro id src off i j n ts tr hm h
    cases h with | node_ok hr h =>
    cases hr
    cases h with | sequence ha =>
    obtain ⟨n1, t1, j1, _, m1, u1, _, h1, hb, rfl, rfl⟩ := seq_inv ha
    cases h1 with | untilWs_ok h1 h10 =>
    obtain ⟨v, s1, rfl, rfl, h2, h3⟩ := longest_split h1
    rw [adv_left] at hb
    obtain ⟨n2, t2, j2, _, m2, u2, _, h4, hc, rfl, rfl⟩ := seq_inv hb
    cases h4 with | ws_ok h4 h40 =>
    obtain ⟨w, s2, rfl, rfl, h5, h6⟩ := longest_split h4
    rw [adv_left] at hc
    obtain ⟨n3, t3, j3, _, m3, u3, _, h7, hd, rfl, rfl⟩ := seq_inv hc
    obtain ⟨rfl, rfl, rfl⟩ := seq_end hd
    have hv : Word v := ⟨fun e => by simp [e] at h10, fun c hc => (h2 c hc).2⟩
    have hg : Gap w := ⟨fun e => by simp [e] at h40, h5⟩
    have hvl : 0 < v.length := List.length_pos_iff.2 hv.1
    simp only [wrapped, named, List.nil_append, List.append_nil, List.take_left]
    have h8 := sel_run h7
    cases h8 with
    | sel_here h8 =>
      obtain ⟨rfl, rfl, rfl, s3, rfl⟩ := tag_inv h8
      exact ⟨rfl, 1, v ++ (w ++ c!"foo"), s3, by simp, by simp, .last hv hg⟩
    | sel_next h8 h9 =>
      cases h8 with | tag_fail h8 =>
      cases h9 with
      | sel_next _ h9 => cases h9
      | sel_here h9 =>
        obtain ⟨rfl, k, text, rest, rfl, rfl, h10⟩ := ih (by simp at hm; omega) h9
        refine ⟨rfl, k + 1, v ++ (w ++ text), rest, by simp, by simp, .more hv hg ?_ (by simpa [Nat.add_assoc] using h10)⟩
        exact fun h => h8 (h.trans (List.prefix_append _ _))

theorem deep_pos {k off : Nat} {text : Str} {ts : List Tok} (h : DeepText k off text ts) :
    ∃ c cs, text = c :: cs ∧ isWs c = false := by
  cases h with
  | @last _ word w h hw =>
    cases word with
    | nil => exact absurd rfl h.1
    | cons c cs => exact ⟨c, _, rfl, h.2 c (by simp)⟩
  | @more _ _ word w _ _ h hw =>
    cases word with
    | nil => exact absurd rfl h.1
    | cons c cs => exact ⟨c, _, rfl, h.2 c (by simp)⟩

theorem deep_word {L : Lexer} {ind : Indent} {v w rest : Str} (hv : Word v) (hw : Gap w)
    (hrest : ∃ c cs, rest = c :: cs ∧ isWs c = false) (off i : Nat) {n : Nat} {ts : List Tok}
    (h : ∃ tr, Run (envOf L deepSyntax.rules ind) (.sel [.tag c!"foo" false false none 1003, .node c!"foo" none (some 0) 1004])
      ⟨rest, off + v.length + w.length⟩ i (some (n, ts)) i tr) (id : DebugId) :
    ∃ tr, Run (envOf L deepSyntax.rules ind) (.rule (.node c!"foo" none (some 0) id)) ⟨v ++ (w ++ rest), off⟩ i
      (some (v.length + (w.length + n), ⟨⟨off, v.length⟩, .string c!"foo" v⟩ :: ts)) i tr := by
  obtain ⟨tr, h⟩ := h
  obtain ⟨x, xs, rfl⟩ : ∃ x xs, w = x :: xs := by
    cases w with
    | nil => exact absurd rfl hw.1
    | cons x xs => exact ⟨x, xs, rfl⟩
  obtain ⟨c, cs, rfl, hc⟩ := hrest
  have h1 := Run.untilWs_ok (E := envOf L deepSyntax.rules ind) (any := c!" ") (opt := false)
    (prop := some c!"foo") (id := 1001) (p := ⟨v ++ ((x :: xs) ++ c :: cs), off⟩) (i := i) (n := v.length)
    (Boot.longest_append (fun c hc => ⟨by
      have := hv.2 c hc
      simp
      rintro rfl
      exact absurd this (by decide), hv.2 c hc⟩) (fun c hc => by
        cases hc
        simp [hw.2 x (by simp)]))
    (fun e => absurd (List.length_eq_zero_iff.1 e) hv.1)
  have h2 := Run.ws_ok (E := envOf L deepSyntax.rules ind) (opt := false) (id := 1002)
    (p := ⟨(x :: xs) ++ c :: cs, off + v.length⟩) (i := i) (n := (x :: xs).length)
    (Boot.longest_append hw.2 (fun y hy => by cases hy; simp [hc])) (fun e => by simp at e)
  obtain ⟨tr1, h3⟩ := seq_step (E := envOf L deepSyntax.rules ind) ⟨_, h1⟩ (seq_step ⟨_, h2⟩
    ⟨_, .seq_cons (E := envOf L deepSyntax.rules ind) (rs := []) (.select (id := 1005) h) .seq_nil⟩)
  have h4 := Run.node_ok (E := envOf L deepSyntax.rules ind) (name := c!"foo") (prop := none)
        (id := id) (ix := 0) rfl (Run.sequence (id := 1006) h3)
  exact ⟨_, by simpa [wrapped, named] using h4⟩

theorem deep_in {L : Lexer} {ind : Indent} {k off : Nat} {text : Str} {ts : List Tok} (h : DeepText k off text ts)
    (i : Nat) : ∀ id : DebugId, ∃ tr, Run (envOf L deepSyntax.rules ind) (.rule (.node c!"foo" none (some 0) id))
      ⟨text, off⟩ i (some (text.length, ts)) i tr := by
  induction h with
  | @last off word w h hw =>
    intro id
    obtain ⟨tr, h⟩ := deep_word (L := L) (ind := ind) h hw (rest := c!"foo") ⟨_, _, rfl, by decide⟩ off i
      ⟨_, .sel_here (.tag_ok (List.prefix_refl _))⟩ id
    exact ⟨tr, by simpa [named] using h⟩
  | @more k off word w rest ts h hw hf hr ih =>
    intro id
    obtain ⟨tr0, h0⟩ := ih 1004
    obtain ⟨tr, h⟩ := deep_word (L := L) (ind := ind) h hw (deep_pos hr) off i
      ⟨_, .sel_next (.tag_fail hf) (.sel_here (by simpa [Nat.add_assoc] using h0))⟩ id
    exact ⟨tr, by simpa using h⟩

/-- What the rules of `bench_deep_string` accept. -/
theorem deep_exact {L : Lexer} {ind : Indent} {text : Str} {toks : List Tok} :
    Parses L deepSyntax text [] ind (.ok toks) ↔ ∃ k, DeepText k 0 text toks := by
  rw [parses_ok_run]
  constructor
  · rintro ⟨r, n, ts, j, tr, hr, h, hlen, rfl⟩
    cases hr
    obtain ⟨-, k, t, rest, rfl, rfl, h1⟩ := deep_out (Nat.lt_succ_self _) h
    have : rest = [] := List.eq_nil_of_length_eq_zero (by simp at hlen; omega)
    subst this
    exact ⟨k, by simpa using h1⟩
  · rintro ⟨k, h⟩
    obtain ⟨tr, h1⟩ := deep_in (L := L) (ind := ind) h ind.indent 2001
    exact ⟨_, _, _, _, _, rfl, h1, Nat.le_refl _, rfl⟩

theorem deep_until {L : Lexer} {v w rest : Str} (hv : Word v) (hw : Gap w) (off n s : Nat) (id : DebugId) (st : St) :
    eval L deepSyntax.rules (n + 1) (.untilAnyOrWs c!" " false (some c!"foo") id) st s ⟨v ++ (w ++ rest), off⟩ =
      .ret (.ok ⟨off, v.length⟩ (pushOpt (some c!"foo") (fun x => .string x v) ⟨off, v.length⟩ st s).2 none)
        (pushOpt (some c!"foo") (fun x => .string x v) ⟨off, v.length⟩ st s).1 := by
  have hl : (Pos.untilAnyOrWs ⟨v ++ (w ++ rest), off⟩ c!" ").length = v.length := by
    refine longest_unique (untilAnyOrWs_longest ⟨v ++ (w ++ rest), off⟩ c!" ") (Boot.longest_append (fun c hc => ⟨?_, hv.2 c hc⟩) ?_)
    · have := hv.2 c hc
      simp
      rintro rfl
      exact absurd this (by decide)
    · intro c hc
      cases w with
      | nil => exact absurd rfl hw.1
      | cons x xs =>
        cases hc
        simp [hw.2 c (by simp)]
  have hr : Pos.untilAnyOrWs ⟨v ++ (w ++ rest), off⟩ c!" " = ⟨off, v.length⟩ := by
    rw [← hl]
    rfl
  have h0 : v.length ≠ 0 := fun e => hv.1 (List.length_eq_zero_iff.1 e)
  simp [eval, step, evalUntilAnyOrWs, hr, h0, emitOpt, Pos.rawString]

theorem deep_ws {L : Lexer} {w rest : Str} (hw : Gap w) (hrest : ∃ c cs, rest = c :: cs ∧ isWs c = false)
    (off n s : Nat) (id : DebugId) (st : St) :
    eval L deepSyntax.rules (n + 1) (.whitespace false id) st s ⟨w ++ rest, off⟩ = .ret (.ok ⟨off, w.length⟩ s none) st := by
  obtain ⟨c, cs, rfl, hc⟩ := hrest
  have hl : (Pos.whitespace ⟨w ++ c :: cs, off⟩).length = w.length :=
    longest_unique (whitespace_longest ⟨w ++ c :: cs, off⟩) (Boot.longest_append hw.2 (fun y hy => by cases hy; simp [hc]))
  have hr : Pos.whitespace ⟨w ++ c :: cs, off⟩ = ⟨off, w.length⟩ := by
    rw [← hl]
    rfl
  have h0 : w.length ≠ 0 := fun e => hw.1 (List.length_eq_zero_iff.1 e)
  simp [eval, step, evalWhitespace, hr, h0]

def deepSelect : Rule := .select [.tag c!"foo" false false none 1003, .node c!"foo" none (some 0) 1004] 1005

/-- The calls for one word. -/
theorem deep_calls {L : Lexer} {v w rest : Str} (hv : Word v) (hw : Gap w)
    (hrest : ∃ c cs, rest = c :: cs ∧ isWs c = false) (off n s : Nat) (id : DebugId) (st : St) :
    ∃ st' s', (eval L deepSyntax.rules (n + 1) deepSelect st' s' ⟨rest, off + v.length + w.length⟩ ≠ .timeout →
      eval L deepSyntax.rules (n + 3) (.node c!"foo" none (some 0) id) st s ⟨v ++ (w ++ rest), off⟩ ≠ .timeout) ∧
    callCount L deepSyntax.rules (n + 3) ⟨.node c!"foo" none (some 0) id, st, s, ⟨v ++ (w ++ rest), off⟩⟩ =
      4 + callCount L deepSyntax.rules (n + 1) ⟨deepSelect, st', s', ⟨rest, off + v.length + w.length⟩⟩ ∧
    callDepth L deepSyntax.rules (n + 3) ⟨.node c!"foo" none (some 0) id, st, s, ⟨v ++ (w ++ rest), off⟩⟩ =
      2 + max 1 (callDepth L deepSyntax.rules (n + 1) ⟨deepSelect, st', s', ⟨rest, off + v.length + w.length⟩⟩) := by
  have hu := deep_until (L := L) (rest := rest) hv hw off n s 1001 st
  generalize (pushOpt (some c!"foo") (fun x => .string x v) ⟨off, v.length⟩ st s).1 = st' at hu
  generalize (pushOpt (some c!"foo") (fun x => .string x v) ⟨off, v.length⟩ st s).2 = s' at hu
  have hws := deep_ws (L := L) hw hrest (off + v.length) n s' 1002 st'
  have hc1 : Pos.consume ⟨v ++ (w ++ rest), off⟩ v.length = ⟨w ++ rest, off + v.length⟩ := by simp [Pos.consume]
  have hc2 : Pos.consume ⟨w ++ rest, off + v.length⟩ w.length = ⟨rest, off + v.length + w.length⟩ := by simp [Pos.consume]
  have hs : sequenceCalls (eval L deepSyntax.rules (n + 1)) [.untilAnyOrWs c!" " false (some c!"foo") 1001, .whitespace false 1002,
      deepSelect] ⟨v ++ (w ++ rest), off⟩ s st =
      [⟨.untilAnyOrWs c!" " false (some c!"foo") 1001, st, s, ⟨v ++ (w ++ rest), off⟩⟩,
        ⟨.whitespace false 1002, st', s', ⟨w ++ rest, off + v.length⟩⟩,
        ⟨deepSelect, st', s', ⟨rest, off + v.length + w.length⟩⟩] := by
    simp only [sequenceCalls, hu, hws, hc1, hc2]
    split <;> rfl
  refine ⟨st', s', ?_, ?_, ?_⟩
  · intro h
    have he : eval L deepSyntax.rules (n + 2) deepRule st s ⟨v ++ (w ++ rest), off⟩ ≠ .timeout := by
      show evalSequence (eval L deepSyntax.rules (n + 1)) _ [.untilAnyOrWs c!" " false (some c!"foo") 1001, .whitespace false 1002,
        deepSelect] _ _ _ _ ≠ _
      simp only [evalSequence, hu, hws, hc1, hc2]
      split <;> simp_all
    show evalNode (eval L deepSyntax.rules (n + 2)) deepSyntax.rules none (some 0) id st s _ ≠ _
    simp only [evalNode, deepSyntax, List.getElem?_cons_zero, pushOpt]
    simp only [deepSyntax] at he
    split <;> simp_all
  · show 1 + (1 + ((sequenceCalls (eval L deepSyntax.rules (n + 1)) [.untilAnyOrWs c!" " false (some c!"foo") 1001,
      .whitespace false 1002, deepSelect] ⟨v ++ (w ++ rest), off⟩ s st).map (callCount L deepSyntax.rules (n + 1))).sum + 0) = _
    rw [hs]
    simp [callCount, subcalls]
    omega
  · show 1 + max (1 + ((sequenceCalls (eval L deepSyntax.rules (n + 1)) [.untilAnyOrWs c!" " false (some c!"foo") 1001,
      .whitespace false 1002, deepSelect] ⟨v ++ (w ++ rest), off⟩ s st).map (callDepth L deepSyntax.rules (n + 1))).foldr max 0) 0 = _
    rw [hs]
    simp [callDepth, subcalls]
    omega

/-- The calls for a text. -/
theorem deep_counts {L : Lexer} {k off : Nat} {text : Str} {ts : List Tok} (h : DeepText k off text ts) :
    ∀ (id : DebugId) (st : St) (s n : Nat), 3 * k + 1 ≤ n →
      eval L deepSyntax.rules n (.node c!"foo" none (some 0) id) st s ⟨text, off⟩ ≠ .timeout ∧
      callCount L deepSyntax.rules n ⟨.node c!"foo" none (some 0) id, st, s, ⟨text, off⟩⟩ = 6 * k ∧
      callDepth L deepSyntax.rules n ⟨.node c!"foo" none (some 0) id, st, s, ⟨text, off⟩⟩ = 3 * k + 1 := by
  induction h with
  | @last off word w h hw =>
    intro id st s n hn
    obtain ⟨n, rfl⟩ : ∃ m, n = m + 4 := ⟨n - 4, by omega⟩
    obtain ⟨st', s', h1, h2, h3⟩ := deep_calls (L := L) h hw (rest := c!"foo") ⟨_, _, rfl, by decide⟩ off (n + 1) s id st
    have ht : eval L deepSyntax.rules (n + 1) (.tag c!"foo" false false none 1003) st' s' ⟨c!"foo", off + word.length + w.length⟩ =
        .ret (.ok ⟨off + word.length + w.length, 3⟩ s' none) st' := rfl
    refine ⟨h1 ?_, h2.trans ?_, h3.trans ?_⟩
    · show evalSelect (eval L deepSyntax.rules (n + 1)) _ _ _ _ _ _ ≠ _
      simp only [evalSelect, ht]
      simp
    · show 4 + (1 + ((selectCalls (eval L deepSyntax.rules (n + 1)) s' ⟨c!"foo", off + word.length + w.length⟩
        [.tag c!"foo" false false none 1003, .node c!"foo" none (some 0) 1004] st').map _).sum) = _
      simp only [selectCalls, ht]
      simp [callCount, subcalls]
    · show 2 + max 1 (1 + ((selectCalls (eval L deepSyntax.rules (n + 1)) s' ⟨c!"foo", off + word.length + w.length⟩
        [.tag c!"foo" false false none 1003, .node c!"foo" none (some 0) 1004] st').map _).foldr max 0) = _
      simp only [selectCalls, ht]
      simp [callDepth, subcalls]
  | @more k off word w rest ts h hw hf hr ih =>
    intro id st s n hn
    obtain ⟨n, rfl⟩ : ∃ m, n = m + 4 := ⟨n - 4, by omega⟩
    obtain ⟨st', s', h1, h2, h3⟩ := deep_calls (L := L) h hw (deep_pos hr) off (n + 1) s id st
    have ht : eval L deepSyntax.rules (n + 1) (.tag c!"foo" false false none 1003) st' s' ⟨rest, off + word.length + w.length⟩ =
        .ret (.err ⟨⟨off + word.length + w.length, 0⟩, .expectedTag c!"foo" 1003⟩) st' := by
      have := tag_of_not_prefix (p := ⟨rest, off + word.length + w.length⟩) hf
      simp [eval, step, evalTag, this, Pos.start]
    obtain ⟨h4, h5, h6⟩ := ih 1004 st' s' (n + 1) (by omega)
    rw [show off + (word.length + w.length) = off + word.length + w.length by omega] at h4 h5 h6
    refine ⟨h1 ?_, h2.trans ?_, h3.trans ?_⟩
    · show evalSelect (eval L deepSyntax.rules (n + 1)) _ _ _ _ _ _ ≠ _
      rw [evalSelect, ht]
      simp only
      rw [evalSelect]
      split
      · simp
      · rename_i e st'' _
        generalize errUpdate (some e) _ = oe
        cases oe <;> simp [evalSelect]
      · exact absurd ‹_› h4
      · simp
    · show 4 + (1 + ((selectCalls (eval L deepSyntax.rules (n + 1)) s' ⟨rest, off + word.length + w.length⟩
        [.tag c!"foo" false false none 1003, .node c!"foo" none (some 0) 1004] st').map _).sum) = _
      have : selectCalls (eval L deepSyntax.rules (n + 1)) s' ⟨rest, off + word.length + w.length⟩
          [.tag c!"foo" false false none 1003, .node c!"foo" none (some 0) 1004] st' =
          [⟨.tag c!"foo" false false none 1003, st', s', ⟨rest, off + word.length + w.length⟩⟩,
            ⟨.node c!"foo" none (some 0) 1004, st', s', ⟨rest, off + word.length + w.length⟩⟩] := by
        simp only [selectCalls, ht]
        split <;> rfl
      rw [this]
      simp only [List.map_cons, List.map_nil, List.sum_cons, List.sum_nil, h5]
      simp [callCount, subcalls]
      omega
    · show 2 + max 1 (1 + ((selectCalls (eval L deepSyntax.rules (n + 1)) s' ⟨rest, off + word.length + w.length⟩
        [.tag c!"foo" false false none 1003, .node c!"foo" none (some 0) 1004] st').map _).foldr max 0) = _
      have : selectCalls (eval L deepSyntax.rules (n + 1)) s' ⟨rest, off + word.length + w.length⟩
          [.tag c!"foo" false false none 1003, .node c!"foo" none (some 0) 1004] st' =
          [⟨.tag c!"foo" false false none 1003, st', s', ⟨rest, off + word.length + w.length⟩⟩,
            ⟨.node c!"foo" none (some 0) 1004, st', s', ⟨rest, off + word.length + w.length⟩⟩] := by
        simp only [selectCalls, ht]
        split <;> rfl
      rw [this]
      simp only [List.map_cons, List.map_nil, List.foldr_cons, List.foldr_nil, h6]
      simp [callDepth, subcalls]
      omega

/-! ### C78 -/

/-- How a benchmark ends, if its rules are read. -/
theorem bench_ends {L : Lexer} {E : ErrText} {rules text : Str} {syn : Syntax} (h : ∀ r, SyntaxReturns L rules r ↔ r = .ok syn) :
    (∀ data, BenchEnds L E rules text (.ok data) ↔ Parses L syn text [] Indent.default (.ok data)) ∧
    ∀ msg, BenchEnds L E rules text (.error msg) ↔
      ∃ e toks, Parses L syn text [] Indent.default (.err e toks) ∧ reportErr E text e = .ok msg := by
  have he : ∀ {r}, ErrstrReturns L E rules r → r = .ok syn := by
    intro r hr
    rcases C52_errstr.1 hr with ⟨_, h1, rfl⟩ | ⟨_, _, h1, _⟩
    · cases (h _).1 h1
      rfl
    · cases (h _).1 h1
  obtain ⟨n0, hn0⟩ := errstr_at (E := E) (C52_errstr.2 (.inl ⟨_, (h _).2 rfl, rfl⟩))
  have key : ∀ r, BenchEnds L E rules text r ↔ ∃ res data, ParseErrstr L E syn text [] Indent.default res data ∧
      r = (match res with | .error err => .error err | .ok () => .ok data) := by
    intro r
    constructor
    · rintro ⟨n, hn⟩
      obtain ⟨x, h1, h2⟩ := Comp.bind_ok.1 hn
      cases he ⟨n, h1⟩
      obtain ⟨⟨res, data⟩, h3, h4⟩ := Comp.bind_ok.1 h2
      refine ⟨res, data, ⟨n, h3⟩, ?_⟩
      cases res with
      | error err => cases h4; rfl
      | ok => cases h4; rfl
    · rintro ⟨res, data, h1, rfl⟩
      obtain ⟨n1, hn1⟩ := parseErrstr_at h1
      refine ⟨max n0 n1, Comp.bind_ok.2 ⟨_, hn0 _ (Nat.le_max_left _ _),
        Comp.bind_ok.2 ⟨_, hn1 _ (Nat.le_max_right _ _), ?_⟩⟩⟩
      cases res <;> rfl
  refine ⟨fun data => ?_, fun msg => ?_⟩
  · rw [key]
    constructor
    · rintro ⟨res, toks, h1, h2⟩
      rcases C65_errstr.1 h1 with ⟨h3, rfl⟩ | ⟨e, msg, h3, hm, rfl⟩
      · cases h2
        exact h3
      · cases h2
    · exact fun h1 => ⟨_, _, C65_errstr.2 (.inl ⟨h1, rfl⟩), rfl⟩
  · rw [key]
    constructor
    · rintro ⟨res, toks, h1, h2⟩
      rcases C65_errstr.1 h1 with ⟨h3, rfl⟩ | ⟨e, msg, h3, hm, rfl⟩
      · cases h2
      · cases h2
        exact ⟨e, toks, h3, hm⟩
    · rintro ⟨e, toks, h3, hm⟩
      exact ⟨_, _, C65_errstr.2 (.inr ⟨e, msg, h3, hm, rfl⟩), rfl⟩

/-- C78: optimizing the rules once more, as `bench_hello_data` does, makes no difference, whatever the rules and
the text. -/
theorem C78_optimized_again {L : Lexer} (hL : L.Lawful) (E : ErrText) (rules text : Str) (r : Except Str (List Tok)) :
    BenchDataEnds L E rules text r ↔ BenchEnds L E rules text r := by
  have hsyn : ∀ {n syn}, readSyntaxErrstr L E n rules = .ok (.ok syn) → SyntaxReturns L rules (.ok syn) := by
    intro n syn h
    rcases C52_errstr.1 ⟨n, h⟩ with ⟨_, h1, e⟩ | ⟨_, _, _, _, e⟩
    · cases e
      exact h1
    · cases e
  constructor
  · rintro ⟨n, hn⟩
    obtain ⟨x, h1, h2⟩ := Comp.bind_ok.1 hn
    refine ⟨n, Comp.bind_ok.2 ⟨x, h1, ?_⟩⟩
    cases x with
    | error err => exact h2
    | ok syn =>
      obtain ⟨syn', h3, h4⟩ := Comp.bind_ok.1 h2
      cases (C72_syntax hL (hsyn h1)).1 ⟨n, h3⟩
      exact h4
  · rintro ⟨n, hn⟩
    obtain ⟨x, h1, h2⟩ := Comp.bind_ok.1 hn
    cases x with
    | error err => exact ⟨n, Comp.bind_ok.2 ⟨_, h1, h2⟩⟩
    | ok syn =>
      obtain ⟨m, hm⟩ := (C72_syntax hL (hsyn h1)).2 rfl
      obtain ⟨n1, hn1⟩ := errstr_at ⟨n, h1⟩
      obtain ⟨⟨res, data⟩, h3, h4⟩ := Comp.bind_ok.1 h2
      obtain ⟨n2, hn2⟩ := parseErrstr_at ⟨n, h3⟩
      refine ⟨max m (max n1 n2), Comp.bind_ok.2 ⟨_, hn1 _ (by omega), Comp.bind_ok.2 ⟨_, optimize_mono (by omega) hm,
        Comp.bind_ok.2 ⟨_, hn2 _ (by omega), ?_⟩⟩⟩⟩
      cases res <;> exact h4

theorem bench_words : ∀ x ∈ benchNames, Word x.1 := by
  intro x hx
  simp only [benchNames, List.mem_cons, List.not_mem_nil, or_false] at hx
  rcases hx with rfl | rfl | rfl | rfl | rfl <;> exact ⟨by simp, by decide⟩

theorem noIndent_of_all {rules : List Rule} (h : rules.all (fun r => r.all fun | .lines _ i _ => !i | _ => true) = true) :
    NoIndent rules := by
  intro q hq r id ho
  have := Rule.all_occurs ho (List.all_eq_true.1 h q hq)
  simp at this

/-- A benchmark, if it is known what its rules accept. -/
theorem bench_exact {L : Lexer} (hL : L.Lawful) (hs : NoSlash L) {rules : Str}
    {ns : List (F64 × Str × Desc)} {syn : Syntax} (htext : Doc.Text L ⟨[], ns⟩ rules)
    (hread : (Doc.read [] ns).1.map syntaxOf = some syn) (hsmall : ¬ Doc.Overflows ⟨[], ns⟩)
    (hw : wellFormed syn.rules = true) (hok : SyntaxOk syn) (ht : tailsOk syn.rules 50 = true)
    (hi : syn.rules.all (fun r => r.all fun | .lines _ i _ => !i | _ => true) = true) {P : Str → List Tok → Prop}
    (hP : ∀ text data, Parses L syn text [] Indent.default (.ok data) ↔ P text data) (E : ErrText) (text : Str) :
    (∀ data, BenchEnds L E rules text (.ok data) ↔ P text data) ∧
    ((∃ msg, BenchEnds L E rules text (.error msg)) ↔ ¬ ∃ data, P text data) := by
  obtain ⟨syn', ho, h⟩ := syntax_unoptimized hL hs htext hsmall hread hw hok
  obtain ⟨h1, h2⟩ := bench_ends (E := E) (text := text) h
  have ht' := C27_check_sound hL Indent.default hw hok ht
  have hp : ∀ data, Parses L syn' text [] Indent.default (.ok data) ↔ P text data := fun data => by
    rw [← C27_accepts_the_same_partial hL ho ht', hP]
  refine ⟨fun data => (h1 data).trans (hp data), ?_, ?_⟩
  · rintro ⟨msg, hm⟩ ⟨data, hd⟩
    obtain ⟨e, toks, h3, _⟩ := (h2 msg).1 hm
    cases parses_det h3 ((hp data).2 hd)
  · intro hno
    rcases C25_returns hL (C25_check_sound hL Indent.default hw) hok text (.inr (noIndent_of_all hi)) [] with ⟨toks, h3⟩ | h3
    · exact absurd ⟨toks, (hP _ _).1 h3⟩ hno
    · obtain ⟨e, toks, h4⟩ := (C27_rejects_the_same_partial hL ho ht' text []).1 h3
      obtain ⟨msg, hm⟩ := writeErr_ok E (handlerLines text) e
      exact ⟨msg, (h2 msg).2 ⟨e, toks, h4, hm⟩⟩

/-- The rules of the benchmarks that greet, with the names they know. -/
def greetBenches : List (Str × List (Str × Str) × Bool) := [(benchHelloRules, benchNames.take 2, false),
  (benchDataRules, benchNames.take 2, false), (bench3Rules, benchNames.take 3, false), (bench5Rules, benchNames, false),
  (benchTailRules, benchNames, true)]

/-- C78: what the rules of `bench_hello`, `bench_hello_data`, `bench_select_3`, `bench_select_5` and
`bench_select_tail` make of any text: the data is returned if it is a greeting; if not, the benchmark panics with
a report. -/
theorem C78_greetings {L : Lexer} (hL : L.Lawful) (hs : NoSlash L) (hN : ReadsNumbers L) (E : ErrText) (text : Str) :
    ∀ b ∈ greetBenches,
      (∀ data, BenchEnds L E b.1 text (.ok data) ↔ GreetText b.2.1 b.2.2 text data) ∧
      ((∃ msg, BenchEnds L E b.1 text (.error msg)) ↔ ¬ ∃ data, GreetText b.2.1 b.2.2 text data) := by
  have hw2 : ∀ x ∈ benchNames.take 2, Word x.1 := fun x hx => bench_words x (List.mem_of_mem_take hx)
  have hw3 : ∀ x ∈ benchNames.take 3, Word x.1 := fun x hx => bench_words x (List.mem_of_mem_take hx)
  intro b hb
  simp only [greetBenches, List.mem_cons, List.not_mem_nil, or_false] at hb
  rcases hb with rfl | rfl | rfl | rfl | rfl
  · exact bench_exact hL hs (eatDoc_text hL hN (by decide +kernel)) bench_hello_read (by decide +kernel) (by decide +kernel)
      (C26_check_sound (by decide +kernel)) (by decide +kernel) (by decide +kernel)
      (fun _ _ => greet_exact (by simp [benchNames]) hw2) E text
  · exact bench_exact hL hs (eatDoc_text hL hN (by decide +kernel)) bench_hello_read (by decide +kernel) (by decide +kernel)
      (C26_check_sound (by decide +kernel)) (by decide +kernel) (by decide +kernel)
      (fun _ _ => greet_exact (by simp [benchNames]) hw2) E text
  · exact bench_exact hL hs (eatDoc_text hL hN (by decide +kernel)) bench_3_read (by decide +kernel) (by decide +kernel)
      (C26_check_sound (by decide +kernel)) (by decide +kernel) (by decide +kernel)
      (fun _ _ => greet_exact (by simp [benchNames]) hw3) E text
  · exact bench_exact hL hs (eatDoc_text hL hN (by decide +kernel)) bench_5_read (by decide +kernel) (by decide +kernel)
      (C26_check_sound (by decide +kernel)) (by decide +kernel) (by decide +kernel)
      (fun _ _ => greet_exact (by simp [benchNames]) bench_words) E text
  · exact bench_exact hL hs (eatDoc_text hL hN (by decide +kernel)) bench_tail_read (by decide +kernel) (by decide +kernel)
      (C26_check_sound (by decide +kernel)) (by decide +kernel) (by decide +kernel)
      (fun _ _ => greet_exact (by simp [benchNames]) bench_words) E text

/-- C78: what the rules of `bench_deep_string` make of any text. -/
theorem C78_deep {L : Lexer} (hL : L.Lawful) (hs : NoSlash L) (hN : ReadsNumbers L) (E : ErrText) (text : Str) :
    (∀ data, BenchEnds L E benchDeepRules text (.ok data) ↔ ∃ k, DeepText k 0 text data) ∧
    ((∃ msg, BenchEnds L E benchDeepRules text (.error msg)) ↔ ¬ ∃ data k, DeepText k 0 text data) :=
  bench_exact hL hs (P := fun text data => ∃ k, DeepText k 0 text data) (eatDoc_text hL hN (by decide +kernel)) bench_deep_read (by decide +kernel)
    (by decide +kernel) (C26_check_sound (by decide +kernel)) (by decide +kernel) (by decide +kernel)
    (fun _ _ => deep_exact) E text

/-- C78: the rules that `syntax` returns for `bench_deep_string`, and how much parsing costs with them: six calls of
`Rule::parse` for each word, and the recursion is three levels deeper for each word. -/
theorem C78_deep_cost {L : Lexer} (hL : L.Lawful) (hs : NoSlash L) (hN : ReadsNumbers L) : ∃ syn : Syntax,
    (∀ r, SyntaxReturns L benchDeepRules r ↔ r = .ok syn) ∧
    ∀ {k text toks}, DeepText k 0 text toks → ∀ ind m d, Costs L syn text [] ind m d ↔ m = 6 * k ∧ d = 3 * k + 1 := by
  obtain ⟨syn', ho, h⟩ := syntax_unoptimized hL hs (rules := benchDeepRules) (eatDoc_text hL hN (by decide +kernel)) (by decide +kernel)
    bench_deep_read (by decide +kernel) (C26_check_sound (by decide +kernel))
  cases C31_deterministic ho (show Optimizes deepSyntax deepSyntax from ⟨10, rfl⟩)
  refine ⟨_, h, fun {k text toks} ht ind m d => ?_⟩
  obtain ⟨h1, h2, h3⟩ := deep_counts (L := L) ht 2001 ⟨[], ind⟩ 0 (3 * k + 1) (Nat.le_refl _)
  have hc : Costs L deepSyntax text [] ind (6 * k) (3 * k + 1) := ⟨_, _, rfl, h1, h2, h3⟩
  constructor
  · exact fun h => C70_cost_unique h hc
  · rintro ⟨rfl, rfl⟩
    exact hc

/-- C78: a name that a greeting only begins with is not tried as another name: with the rules of `bench_select_tail`
`hi Peters!` is rejected, as is any text that goes on after one of the names with something other than `!`. -/
theorem C78_no_fallback {L : Lexer} (hL : L.Lawful) (hs : NoSlash L) (hN : ReadsNumbers L) (E : ErrText) {w name prop s : Str}
    (hw : ∀ c ∈ w, isWs c = true) (hn : (name, prop) ∈ benchNames) (h : s.head? ≠ some '!') :
    ∃ msg, BenchEnds L E benchTailRules (c!"hi" ++ (w ++ (name ++ s))) (.error msg) := by
  rw [(C78_greetings hL hs hN E _ (benchTailRules, benchNames, true) (by simp [greetBenches])).2]
  rintro ⟨data, hd⟩
  have hne : ∀ c, (name ++ s).head? = some c → isWs c = false := by
    have := bench_words _ hn
    intro c hc
    cases name with
    | nil => exact absurd rfl this.1
    | cons x xs => cases hc; exact this.2 _ (by simp)
  generalize ht : c!"hi" ++ (w ++ (name ++ s)) = text at hd
  cases hd with
  | @name w' pre name' prop' post hw' hns hp =>
    have hn' : (name', prop') ∈ benchNames := by
      have hns : benchNames = _ := hns
      rw [hns]
      simp
    have hne' : ∀ c, (name' ++ c!"!").head? = some c → isWs c = false := by
      have := bench_words _ hn'
      intro c hc
      cases name' with
      | nil => exact absurd rfl this.1
      | cons x xs => cases hc; exact this.2 _ (by simp)
    obtain ⟨rfl, e⟩ := ws_unique (List.append_cancel_left ht) hw hw' hne hne'
    simp only [benchNames, List.mem_cons, List.not_mem_nil, or_false, Prod.mk.injEq] at hn hn'
    rcases hn with ⟨rfl, -⟩ | ⟨rfl, -⟩ | ⟨rfl, -⟩ | ⟨rfl, -⟩ | ⟨rfl, -⟩ <;>
      rcases hn' with ⟨rfl, -⟩ | ⟨rfl, -⟩ | ⟨rfl, -⟩ | ⟨rfl, -⟩ | ⟨rfl, -⟩ <;> simp_all
  | @other w' v hw' _ h0 hv hns =>
    have hne' : ∀ c, (v ++ c!"!").head? = some c → isWs c = false := by
      intro c hc
      cases v with
      | nil => exact absurd rfl h0
      | cons x xs => cases hc; exact (hv _ (by simp)).2
    obtain ⟨rfl, e⟩ := ws_unique (List.append_cancel_left ht) hw hw' hne hne'
    exact hns _ hn ⟨s, e⟩

/-- Reads words up to `foo`. -/
def readDeep : Nat → Nat → Str → Option (Nat × List Tok)
  | 0, _, _ => none
  | n + 1, off, text =>
    let word := text.takeWhile fun c => !isWs c
    let rest := text.dropWhile fun c => !isWs c
    let w := rest.takeWhile isWs
    let rest := rest.dropWhile isWs
    if word = [] ∨ w = [] then none
    else if c!"foo".isPrefixOf rest then
      if rest = c!"foo" then some (1, [⟨⟨off, word.length⟩, .string c!"foo" word⟩]) else none
    else (readDeep n (off + (word.length + w.length)) rest).map
      fun x => (x.1 + 1, ⟨⟨off, word.length⟩, .string c!"foo" word⟩ :: x.2)

theorem readDeep_sound : ∀ {n off : Nat} {text : Str} {k : Nat} {ts : List Tok}, readDeep n off text = some (k, ts) →
    DeepText k off text ts
  | 0, _, _, _, _, h => by cases h
  | n + 1, off, text, k, ts, h => by
    have h1 := List.takeWhile_append_dropWhile (p := fun c => !isWs c) (l := text)
    have h2 := List.takeWhile_append_dropWhile (p := isWs) (l := text.dropWhile fun c => !isWs c)
    have h3 : ∀ c ∈ text.takeWhile (fun c => !isWs c), isWs c = false := fun c hc => by
      simpa using List.all_eq_true.1 (List.all_takeWhile (p := fun c => !isWs c) (l := text)) c hc
    have h4 : ∀ c ∈ (text.dropWhile fun c => !isWs c).takeWhile isWs, isWs c = true := fun c hc =>
      List.all_eq_true.1 List.all_takeWhile c hc
    simp only [readDeep] at h
    generalize text.takeWhile (fun c => !isWs c) = word at *
    generalize (text.dropWhile fun c => !isWs c) = rest at *
    generalize rest.takeWhile isWs = w at *
    generalize rest.dropWhile isWs = rest' at *
    subst h2 h1
    split at h
    · cases h
    · rename_i h5
      split at h
      · split at h
        · rename_i h6
          cases h
          subst h6
          exact .last ⟨fun e => h5 (.inl e), h3⟩ ⟨fun e => h5 (.inr e), h4⟩
        · cases h
      · rename_i h6
        obtain ⟨⟨k', ts'⟩, h7, h8⟩ := Option.map_eq_some_iff.1 h
        cases h8
        exact .more ⟨fun e => h5 (.inl e), h3⟩ ⟨fun e => h5 (.inr e), h4⟩
          (fun h => h6 (List.isPrefixOf_iff_prefix.2 h)) (readDeep_sound h7)

/-- The text of `bench_deep_string`: 175 words before `foo`. -/
theorem bench_deep_text : ∃ toks, toks.length = 175 ∧ toks.map (·.data) = List.replicate 175 (.string c!"foo" c!"hi") ∧
    DeepText 175 0 benchDeepText toks := by
  have h : (readDeep 200 0 benchDeepText).map (fun x => (x.1, x.2.length, x.2.map (·.data))) =
      some (175, 175, List.replicate 175 (.string c!"foo" c!"hi")) := by decide +kernel
  obtain ⟨⟨k, toks⟩, h1, h2⟩ := Option.map_eq_some_iff.1 h
  simp only [Prod.mk.injEq] at h2
  obtain ⟨rfl, h2, h3⟩ := h2
  exact ⟨toks, h2, h3, readDeep_sound h1⟩

/-- C78: what the benchmarks do with their own texts: none panics. -/
theorem C78_benches {L : Lexer} (hL : L.Lawful) (hs : NoSlash L) (hN : ReadsNumbers L) (E : ErrText) :
    BenchEnds L E benchHelloRules benchHelloText (.ok [⟨⟨3, 5⟩, .bool c!"peter" true⟩]) ∧
    BenchDataEnds L E benchDataRules benchDataText (.ok [⟨⟨3, 5⟩, .bool c!"peter" true⟩]) ∧
    BenchEnds L E bench3Rules bench3Text (.ok [⟨⟨3, 4⟩, .bool c!"carl" true⟩]) ∧
    BenchEnds L E bench5Rules bench5Text (.ok [⟨⟨3, 6⟩, .bool c!"monkey" true⟩]) ∧
    BenchEnds L E benchTailRules benchTailText (.ok [⟨⟨3, 5⟩, .string c!"name" c!"Brian"⟩]) ∧
    ∃ toks, toks.map (·.data) = List.replicate 175 (.string c!"foo" c!"hi") ∧
      BenchEnds L E benchDeepRules benchDeepText (.ok toks) := by
  have h := C78_greetings hL hs hN E
  have hsp : ∀ c ∈ c!" ", isWs c = true := by decide
  refine ⟨((h _ (benchHelloRules, benchNames.take 2, false) (by simp [greetBenches])).1 _).2 ?_,
    (C78_optimized_again hL E _ _ _).2 (((h _ (benchDataRules, benchNames.take 2, false) (by simp [greetBenches])).1 _).2 ?_),
    ((h _ (bench3Rules, benchNames.take 3, false) (by simp [greetBenches])).1 _).2 ?_,
    ((h _ (bench5Rules, benchNames, false) (by simp [greetBenches])).1 _).2 ?_,
    ((h _ (benchTailRules, benchNames, true) (by simp [greetBenches])).1 _).2 ?_, ?_⟩
  · exact .name (w := c!" ") (pre := benchNames.take 1) (name := c!"Peter") (post := []) hsp rfl (by decide)
  · exact .name (w := c!" ") (pre := benchNames.take 1) (name := c!"Peter") (post := []) hsp rfl (by decide)
  · exact .name (w := c!" ") (pre := benchNames.take 2) (name := c!"Carl") (post := []) hsp rfl (by decide)
  · exact .name (w := c!" ") (pre := benchNames.take 4) (name := c!"Monkey") (post := []) hsp rfl (by decide)
  · exact .other (w := c!" ") (v := c!"Brian") hsp rfl (by simp) (by decide) (by decide)
  · obtain ⟨toks, -, h1, h2⟩ := bench_deep_text
    exact ⟨toks, h1, ((C78_deep hL hs hN E _).1 _).2 ⟨_, h2⟩⟩

/-- The text of `bench_deep_string` takes 1050 calls of `Rule::parse`, and up to 526 of them are on the stack. -/
example : ∃ syn : Syntax, SyntaxReturns stdLexer benchDeepRules (.ok syn) ∧
    Costs stdLexer syn benchDeepText [] Indent.default 1050 526 := by
  obtain ⟨syn, h, hc⟩ := C78_deep_cost stdLexer_lawful stdLexer_noSlash std_readsNumbers
  obtain ⟨toks, -, -, ht⟩ := bench_deep_text
  exact ⟨syn, (h _).2 rfl, (hc ht _ _ _).2 ⟨rfl, rfl⟩⟩

/-- Only the first word can begin with `foo`: `food hi foo` is accepted, `hi food foo` is not. -/
example (E : ErrText) :
    BenchEnds stdLexer E benchDeepRules c!"food hi foo"
      (.ok [⟨⟨0, 4⟩, .string c!"foo" c!"food"⟩, ⟨⟨5, 2⟩, .string c!"foo" c!"hi"⟩]) ∧
    ∃ msg, BenchEnds stdLexer E benchDeepRules c!"hi food foo" (.error msg) := by
  refine ⟨((C78_deep stdLexer_lawful stdLexer_noSlash std_readsNumbers E _).1 _).2 ⟨2, readDeep_sound (n := 5) (by decide +kernel)⟩,
    (C78_deep stdLexer_lawful stdLexer_noSlash std_readsNumbers E _).2.2 ?_⟩
  rintro ⟨data, k, h⟩
  have hp : Parses stdLexer deepSyntax c!"hi food foo" [] Indent.default (.err ⟨⟨6, 0⟩, .expectedEnd⟩ [⟨⟨0, 2⟩, .string c!"foo" c!"hi"⟩]) :=
    ⟨by simp, 20, by decide +kernel⟩
  cases parses_det (deep_exact (L := stdLexer) (ind := Indent.default).2 ⟨k, h⟩) hp

/-- With the rules of `bench_select_tail`, `hi Peters!` and `hi James Brown!` are rejected, `hi Pete!` is not. -/
example (E : ErrText) :
    (∃ msg, BenchEnds stdLexer E benchTailRules c!"hi Peters!" (.error msg)) ∧
    (∃ msg, BenchEnds stdLexer E benchTailRules c!"hi James Brown!" (.error msg)) ∧
    BenchEnds stdLexer E benchTailRules c!"hi Pete!" (.ok [⟨⟨3, 4⟩, .string c!"name" c!"Pete"⟩]) :=
  ⟨C78_no_fallback stdLexer_lawful stdLexer_noSlash std_readsNumbers E (w := c!" ") (name := c!"Peter") (prop := c!"peter")
      (s := c!"s!") (by decide) (by decide) (by decide),
    C78_no_fallback stdLexer_lawful stdLexer_noSlash std_readsNumbers E (w := c!" ") (name := c!"James") (prop := c!"james")
      (s := c!" Brown!") (by decide) (by decide) (by decide),
    ((C78_greetings stdLexer_lawful stdLexer_noSlash std_readsNumbers E _ (benchTailRules, benchNames, true)
      (by simp [greetBenches])).1 _).2 (.other (w := c!" ") (v := c!"Pete") (by decide) rfl (by simp) (by decide) (by decide))⟩

end Verif.Props
