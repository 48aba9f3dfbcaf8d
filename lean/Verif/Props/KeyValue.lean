import Verif.Props.IndentExact
import Verif.Spec.KeyValue
/-
The program examples/key_value.rs: C77.
-/
namespace Verif.Props
open Verif Verif.Spec

theorem std_solidAll : SolidAll stdLexer := fun _ _ _ h => std_solid h

theorem std_resumesAfterSpace : ResumesAfterSpace stdLexer := by
  rintro x w rest hw ⟨a, c, b, rfl, hc, ha⟩
  have ht : (a ++ c :: b).takeWhile isWs = a := by
    rw [List.takeWhile_append_of_pos (fun y hy => (ha y hy).1)]
    simp [hc]
  have hn : Std.afterLastNl a = 0 := by
    have := Std.afterLastNl_take a
    apply Classical.byContradiction
    intro h
    have := this h
    exact (ha '\n' (List.mem_of_mem_take (List.mem_of_mem_getLast? this))).2 rfl
  have hi : Std.trailingNl (x ++ '\n' :: w) = true := by
    unfold Std.trailingNl
    rw [List.reverse_append, List.reverse_cons, List.append_assoc, List.takeWhile_append_of_pos (by simpa using hw)]
    simp [isWs]
  show Std.lineNext false _ _ = _
  simp [Std.lineNext, ht, hn, hi]

/-! ### The rules -/

/-- `t` leads to the first alternative and `f` to the second. -/
def kvTable : Table := fun b => if b = 102 then 1 else if b = 116 then 0 else 255

def kvBool : Rule := .fastSelect kvTable [.tag c!"true" false false (some c!"bool") 11,
  .tag c!"false" false true (some c!"bool") 12] false 13

def kvValue : Rule := .select [.number (some c!"number") true 10, kvBool, .text true (some c!"string") 14,
  .untilAnyOrWs [] false (some c!"value") 15] 16

def kvComment : Rule := .sequence [.whitespace true 1, .tag c!"#" false false none 2, .untilAny c!"\n" true none 3] 4

def kvPair : Rule := .sequence [.whitespace true 5, .untilAnyOrWs c!"=" false (some c!"key") 6, .whitespace true 7,
  .tag c!"=" false false none 8, .whitespace true 9, kvValue, .whitespace true 17] 18

def kvItem : Rule := .select [kvComment, kvPair] 19

/-- The rules of examples/key_value.rs, as `syntax` returns them. -/
def kvSyntax : Syntax := ⟨[.lines kvItem false 20], [c!"document"]⟩

set_option exponentiation.threshold 2000 in
set_option maxRecDepth 100000 in
theorem kv_syntax {L : Lexer} (hL : L.Lawful) (hs : NoSlash L) (hN : ReadsNumbers L) (r : Except RErr Syntax) :
    SyntaxReturns L keyValueRules r ↔ r = .ok kvSyntax :=
  syntax_of_doc hL hs hN (ss := []) (ns := keyValueNodes) (by decide +kernel) (by decide +kernel) rfl (k := 20) rfl r

/-! ### Values -/

theorem longest_split {P : Char → Prop} {src : Str} {n : Nat} (h : Longest P src n) :
    ∃ a b, src = a ++ b ∧ a.length = n ∧ (∀ c ∈ a, P c) ∧ ∀ c, b.head? = some c → ¬ P c :=
  ⟨src.take n, src.drop n, (List.take_append_drop n src).symm, by have := h.1; simp; omega, h.2.1, h.2.2⟩

section
variable {L : Lexer}

abbrev kvEnv (L : Lexer) : Env := envOf L kvSyntax.rules Indent.default

theorem kv_bool_refuses {p : Pos} {i : Nat} (h1 : ¬ c!"true" <+: p.src) (h2 : ¬ c!"false" <+: p.src) :
    ∃ tr, Run (kvEnv L) (.rule kvBool) p i none i tr := by
  obtain ⟨src, off⟩ := p
  cases src with
  | nil => exact ⟨_, .fast_end rfl⟩
  | cons c cs =>
    obtain ⟨b, bs, hb⟩ := utf8_ne_nil c
    by_cases e1 : b = 102
    · exact ⟨_, .fast_hit (r := .tag c!"false" false true (some c!"bool") 12) rfl hb (by subst e1; decide)
        (by subst e1; rfl) (.tag_fail h2)⟩
    · by_cases e2 : b = 116
      · exact ⟨_, .fast_hit (r := .tag c!"true" false false (some c!"bool") 11) rfl hb (by subst e2; decide)
          (by subst e2; rfl) (.tag_fail h1)⟩
      · exact ⟨_, .fast_miss rfl hb (by simp [kvTable, e1, e2])⟩

theorem kv_bool_inv {p : Pos} {i j : Nat} {o : Outcome} {tr : List RErr} (h : Run (kvEnv L) (.rule kvBool) p i o j tr) :
    j = i ∧ ((o = none ∧ ¬ c!"true" <+: p.src ∧ ¬ c!"false" <+: p.src) ∨
      (o = some (4, [⟨⟨p.off, 4⟩, .bool c!"bool" true⟩]) ∧ c!"true" <+: p.src) ∨
      (o = some (5, [⟨⟨p.off, 5⟩, .bool c!"bool" false⟩]) ∧ c!"false" <+: p.src)) := by
  obtain ⟨src, off⟩ := p
  have hpre : ∀ {c : Char} {cs : Str} {b : UInt8} {bs : List UInt8} {t : Str} {d : Char},
      String.utf8EncodeChar c = b :: bs → (d :: t) <+: c :: cs → firstByte d = b := by
    intro c cs b bs t d hb hp
    have : d = c := (List.cons_prefix_cons.1 hp).1
    subst this
    exact firstByte_eq hb
  cases h with
  | fast_end h => 
    simp only at h
    subst h
    exact ⟨rfl, .inl ⟨rfl, by simp, by simp⟩⟩
  | fast_miss h hb ht =>
    simp only at h
    subst h
    refine ⟨rfl, .inl ⟨rfl, fun hp => ?_, fun hp => ?_⟩⟩
    · have := hpre hb hp
      rw [← this] at ht
      revert ht; decide
    · have := hpre hb hp
      rw [← this] at ht
      revert ht; decide
  | @fast_hit _ _ _ _ _ c cs b bs r _ _ _ h hb ht hr h' =>
    simp only at h
    subst h
    by_cases e1 : b = 102
    · subst e1
      cases (show Rule.tag c!"false" false true (some c!"bool") 12 = r from Option.some.inj hr)
      cases h' with
      | tag_ok h => exact ⟨rfl, .inr (.inr ⟨rfl, h⟩)⟩
      | tag_fail h =>
        refine ⟨rfl, .inl ⟨rfl, fun hp => ?_, h⟩⟩
        have := hpre hb hp
        revert this; decide
    · by_cases e2 : b = 116
      · subst e2
        cases (show Rule.tag c!"true" false false (some c!"bool") 11 = r from Option.some.inj hr)
        cases h' with
        | tag_ok h => exact ⟨rfl, .inr (.inl ⟨rfl, h⟩)⟩
        | tag_fail h =>
          refine ⟨rfl, .inl ⟨rfl, h, fun hp => ?_⟩⟩
          have := hpre hb hp
          revert this; decide
      · simp [kvTable, e1, e2] at ht

theorem no_number {s : Str} (h : NoNumber L s) (off i : Nat) :
    ∃ tr, Run (kvEnv L) (.rule (.number (some c!"number") true 10)) ⟨s, off⟩ i none i tr := by
  cases hn : L.num true s with
  | none => exact ⟨_, .num_none hn⟩
  | some n =>
    cases hv : L.parseNum true s n with
    | error e => exact ⟨_, .num_bad hn hv⟩
    | ok x => exact absurd hv (h n x hn)

theorem no_string {s : Str} (h : NoString L s) (off i : Nat) :
    ∃ tr, Run (kvEnv L) (.rule (.text true (some c!"string") 14)) ⟨s, off⟩ i none i tr := by
  cases hn : L.str s with
  | none => exact ⟨_, .text_none hn⟩
  | some n =>
    cases hv : L.parseStr s n with
    | error e => exact ⟨_, .text_bad (r := e.1) (e := e.2) hn (fun _ => rfl) hv⟩
    | ok x => exact absurd hv (h n x hn)

/-- Values are read. -/
theorem kv_value_in (hL : L.Lawful) {v rest : Str} {d : MetaData} (h : KvValue L v rest d) (off i : Nat) :
    ∃ tr, Run (kvEnv L) (.rule kvValue) ⟨v ++ rest, off⟩ i (some (v.length, [⟨⟨off, v.length⟩, d⟩])) i tr := by
  cases h with
  | number h hx => exact ⟨_, .select (.sel_here (.num_ok h hx))⟩
  | yes h =>
    obtain ⟨tr, h⟩ := no_number h off i
    exact ⟨_, .select (.sel_next h (.sel_here (.fast_hit (b := 116) rfl rfl (by decide) rfl
      (.tag_ok (List.prefix_append _ _)))))⟩
  | no h =>
    obtain ⟨tr, h⟩ := no_number h off i
    exact ⟨_, .select (.sel_next h (.sel_here (.fast_hit (b := 102) rfl rfl (by decide) rfl
      (.tag_ok (List.prefix_append _ _)))))⟩
  | string h hs ht =>
    obtain ⟨tr, h⟩ := no_number h off i
    have hq := (hL.str_some hs).2.2
    have hp : ∀ {c : Char} {t : Str}, c ≠ '"' → ¬ (c :: t) <+: v ++ rest := by
      rintro c t hc ⟨y, hy⟩
      rw [← hy] at hq
      simp at hq
      exact hc hq
    obtain ⟨tr', h'⟩ := kv_bool_refuses (L := L) (p := ⟨v ++ rest, off⟩) (i := i) (hp (by decide)) (hp (by decide))
    exact ⟨_, .select (.sel_next h (.sel_next h' (.sel_here (.text_ok hs (fun _ => rfl) ht))))⟩
  | word h hs h1 h2 h0 hv hr =>
    obtain ⟨tr, h⟩ := no_number h off i
    obtain ⟨tr', h'⟩ := kv_bool_refuses (L := L) (p := ⟨v ++ rest, off⟩) (i := i) h1 h2
    obtain ⟨tr'', h''⟩ := no_string hs off i
    have hl : Longest (fun c => c ∉ ([] : Str) ∧ isWs c = false) (v ++ rest) v.length := by
      refine Boot.longest_append (fun c hc => ⟨by simp, hv c hc⟩) (fun c hc => ?_)
      simp [hr c hc]
    have := Run.untilWs_ok (E := kvEnv L) (any := []) (opt := false) (prop := some c!"value") (id := 15)
      (p := ⟨v ++ rest, off⟩) (i := i) hl (fun e => absurd (List.length_eq_zero_iff.1 e) h0)
    simp only [named, List.take_left'] at this
    exact ⟨_, .select (.sel_next h (.sel_next h' (.sel_next h'' (.sel_here this))))⟩

/-- What is read as a value is a value. -/
theorem kv_value_out (hL : L.Lawful) {src : Str} {off i j n : Nat} {ts : List Tok} {tr : List RErr}
    (h : Run (kvEnv L) (.rule kvValue) ⟨src, off⟩ i (some (n, ts)) j tr) :
    j = i ∧ ∃ v rest d, src = v ++ rest ∧ v.length = n ∧ KvValue L v rest d ∧ ts = [⟨⟨off, n⟩, d⟩] := by
  have split : ∀ {n}, n ≤ src.length → ∃ v rest, src = v ++ rest ∧ v.length = n := fun {n} hn =>
    ⟨src.take n, src.drop n, (List.take_append_drop n src).symm, by simp; omega⟩
  cases h with | select h =>
  cases h with
  | sel_here h =>
    cases h with | num_ok h hv =>
    obtain ⟨v, rest, rfl, rfl⟩ := split (hL.num_some h).2
    exact ⟨rfl, v, rest, _, rfl, rfl, .number h hv, rfl⟩
  | @sel_next _ _ _ _ j1 _ _ _ _ h0 h =>
  have hno : NoNumber L src ∧ j1 = i := by
    cases h0 with
    | num_none h0 => exact ⟨fun n x hn => (by cases hn.symm.trans h0), rfl⟩
    | num_bad h0 hv =>
      refine ⟨fun n x hn hx => ?_, rfl⟩
      cases hn.symm.trans h0
      cases hx.symm.trans hv
  obtain ⟨hno, rfl⟩ := hno
  cases h with
  | sel_here h =>
    obtain ⟨rfl, ⟨h, -⟩ | ⟨h, hp⟩ | ⟨h, hp⟩⟩ := kv_bool_inv h
    · cases h
    · cases h
      obtain ⟨rest, rfl⟩ := hp
      exact ⟨rfl, _, rest, _, rfl, rfl, .yes hno, rfl⟩
    · cases h
      obtain ⟨rest, rfl⟩ := hp
      exact ⟨rfl, _, rest, _, rfl, rfl, .no hno, rfl⟩
  | @sel_next _ _ _ _ j0 _ _ _ _ h1 h =>
  obtain ⟨e0, ⟨-, hnt, hnf⟩ | ⟨h1, -⟩ | ⟨h1, -⟩⟩ := kv_bool_inv h1
  rotate_left
  · cases h1
  · cases h1
  subst e0
  cases h with
  | sel_here h =>
    cases h with | text_ok h h2 ht =>
    obtain ⟨v, rest, rfl, rfl⟩ := split (hL.str_some h).2.1
    exact ⟨rfl, v, rest, _, rfl, rfl, .string hno h ht, rfl⟩
  | @sel_next _ _ _ _ j1 _ _ _ _ h2 h =>
  have hns : NoString L src ∧ j1 = j0 := by
    cases h2 with
    | text_none h0 => exact ⟨fun n x hn => (by cases hn.symm.trans h0), rfl⟩
    | text_bad h0 _ hv =>
      refine ⟨fun n x hn hx => ?_, rfl⟩
      cases hn.symm.trans h0
      cases hx.symm.trans hv
  obtain ⟨hns, rfl⟩ := hns
  cases h with
  | sel_next _ h => cases h
  | sel_here h =>
    cases h with | untilWs_ok h h0 =>
    obtain ⟨v, rest, rfl, rfl, h1, h2⟩ := longest_split h
    refine ⟨rfl, v, rest, _, rfl, rfl, .word hno hns hnt hnf (fun e => by simp [e] at h0) (fun c hc => (h1 c hc).2)
      (fun c hc => ?_), by simp [named]⟩
    have := h2 c hc
    simpa using this

/-! ### Comments and pairs -/

theorem seq_inv {E : Env} {r : Rule} {rs : List Rule} {p : Pos} {i k n : Nat} {ts : List Tok} {tr : List RErr}
    (h : Run E (.seq (r :: rs)) p i (some (n, ts)) k tr) : ∃ n1 ts1 j tr1 n2 ts2 tr2,
      Run E (.rule r) p i (some (n1, ts1)) j tr1 ∧ Run E (.seq rs) (adv p n1) j (some (n2, ts2)) k tr2 ∧
      n = n1 + n2 ∧ ts = ts1 ++ ts2 := by
  generalize hg : Goal.seq (r :: rs) = g at h
  generalize ho : some (n, ts) = o at h
  cases h with
  | @seq_cons _ _ _ _ n1 ts1 j tr1 o _ tr2 h h' =>
    cases hg
    cases o with
    | none => cases ho
    | some x =>
      cases ho
      exact ⟨_, _, _, _, _, _, _, h, h', rfl, rfl⟩
  | _ => first | (cases ho; done) | (cases hg; done)

theorem seq_end {E : Env} {p : Pos} {i k n : Nat} {ts : List Tok} {tr : List RErr}
    (h : Run E (.seq []) p i (some (n, ts)) k tr) : n = 0 ∧ ts = [] ∧ k = i := by
  cases h
  exact ⟨rfl, rfl, rfl⟩

theorem ws_inv {E : Env} {opt : Bool} {id : DebugId} {src : Str} {off i k n : Nat} {ts : List Tok} {tr : List RErr}
    (h : Run E (.rule (.whitespace opt id)) ⟨src, off⟩ i (some (n, ts)) k tr) : ts = [] ∧ k = i ∧
      ∃ a b, src = a ++ b ∧ a.length = n ∧ (∀ c ∈ a, isWs c = true) ∧ ∀ c, b.head? = some c → isWs c = false := by
  cases h with | ws_ok h h0 =>
  obtain ⟨a, b, h1, h2, h3, h4⟩ := longest_split h
  exact ⟨rfl, rfl, a, b, h1, h2, h3, fun c hc => by simpa using h4 c hc⟩

theorem adv_left {a b : Str} {off : Nat} : adv ⟨a ++ b, off⟩ a.length = ⟨b, off + a.length⟩ := by simp [adv]

theorem adv_left' {a b : Str} {off n : Nat} (h : a.length = n) : adv ⟨a ++ b, off⟩ n = ⟨b, off + n⟩ := by
  subst h; exact adv_left

theorem seq_none_inv {E : Env} {r : Rule} {rs : List Rule} {p : Pos} {i k : Nat} {tr : List RErr}
    (h : Run E (.seq (r :: rs)) p i none k tr) : (∃ tr', Run E (.rule r) p i none k tr') ∨
      ∃ n ts j tr1 tr2, Run E (.rule r) p i (some (n, ts)) j tr1 ∧ Run E (.seq rs) (adv p n) j none k tr2 := by
  generalize hg : Goal.seq (r :: rs) = g at h
  generalize ho : (none : Outcome) = o at h
  cases h with
  | @seq_cons _ _ _ _ n1 ts1 j tr1 o _ tr2 h h' =>
    cases hg
    cases o with
    | none => exact .inr ⟨_, _, _, _, _, h, h'⟩
    | some x => cases ho
  | seq_fail h =>
    cases hg
    exact .inl ⟨_, h⟩
  | _ => first | (cases ho; done) | (cases hg; done)

theorem ws_unique : ∀ {a b w s : Str}, a ++ b = w ++ s → (∀ c ∈ a, isWs c = true) → (∀ c ∈ w, isWs c = true) →
    (∀ c, b.head? = some c → isWs c = false) → (∀ c, s.head? = some c → isWs c = false) → a = w ∧ b = s
  | [], b, [], s, h, _, _, _, _ => ⟨rfl, h⟩
  | [], b, x :: w, s, h, _, hw, hb, _ => by
    simp at h
    have := hb x (by simp [h])
    rw [hw x (by simp)] at this
    cases this
  | x :: a, b, [], s, h, ha, _, _, hs => by
    simp at h
    have := hs x (by simp [← h])
    rw [ha x (by simp)] at this
    cases this
  | x :: a, b, y :: w, s, h, ha, hw, hb, hs => by
    simp at h
    obtain ⟨rfl, h⟩ := h
    obtain ⟨rfl, rfl⟩ := ws_unique h (fun c hc => ha c (by simp [hc])) (fun c hc => hw c (by simp [hc])) hb hs
    exact ⟨rfl, rfl⟩

theorem hash_fails {a b : Str} {off i j : Nat} {tr : List RErr} (ha : ∀ c ∈ a, isWs c = true)
    (hb : ∀ c, b.head? = some c → isWs c = false) (h : Run (kvEnv L) (.rule kvComment) ⟨a ++ b, off⟩ i none j tr) :
    j = i ∧ b.head? ≠ some '#' := by
  cases h with | sequence h =>
  rcases seq_none_inv h with ⟨_, h⟩ | ⟨n, ts, j1, tr1, tr2, h1, h2⟩
  · cases h
  · obtain ⟨-, rfl, w, src, e, rfl, hw, hw'⟩ := ws_inv h1
    obtain ⟨rfl, rfl⟩ := ws_unique e ha hw hb hw'
    rw [adv_left] at h2
    rcases seq_none_inv h2 with ⟨_, h3⟩ | ⟨n, ts, j1, tr1, tr2, h3, h4⟩
    · cases h3 with | tag_fail h3 =>
      refine ⟨rfl, fun hh => h3 ?_⟩
      cases b with
      | nil => cases hh
      | cons c cs => cases hh; exact ⟨cs, rfl⟩
    · rcases seq_none_inv h4 with ⟨_, h⟩ | ⟨n, ts, j1, tr1, tr2, h5, h6⟩
      · cases h
      · cases h6

/-- What is read as a comment or as a pair. -/
theorem kv_item_out (hL : L.Lawful) {src : Str} {off i j n : Nat} {ts : List Tok} {tr : List RErr}
    (h : Run (kvEnv L) (.rule kvItem) ⟨src, off⟩ i (some (n, ts)) j tr) :
    j = i ∧ ∃ t rest, src = t ++ rest ∧ t.length = n ∧
      ((∃ w s, t = w ++ '#' :: s ∧ (∀ c ∈ w, isWs c = true) ∧ '\n' ∉ s ∧ (∀ c, rest.head? = some c → c = '\n') ∧
        ts = []) ∨
       ∃ w key a b v u d, t = w ++ (key ++ (a ++ ('=' :: (b ++ (v ++ u))))) ∧ (∀ c ∈ w, isWs c = true) ∧ key ≠ [] ∧
        key.head? ≠ some '#' ∧ (∀ c ∈ key, c ≠ '=' ∧ isWs c = false) ∧ (∀ c ∈ a, isWs c = true) ∧
        (∀ c ∈ b, isWs c = true) ∧ KvValue L v (u ++ rest) d ∧ (∀ c ∈ u, isWs c = true) ∧
        (∀ c, rest.head? = some c → isWs c = false) ∧
        ts = [⟨⟨off + w.length, key.length⟩, .string c!"key" key⟩,
          ⟨⟨off + (w.length + (key.length + (a.length + (1 + b.length)))), v.length⟩, d⟩]) := by
  cases h with | select h =>
  cases h with
  | sel_here h =>
    cases h with | sequence h =>
    obtain ⟨n1, ts1, j1, tr1, n2, ts2, tr2, h1, g, rfl, rfl⟩ := seq_inv h
    replace h := g; clear g
    obtain ⟨rfl, rfl, w, src, rfl, rfl, hw, hw'⟩ := ws_inv h1
    rw [adv_left] at h
    obtain ⟨n1, ts1, j1, tr1, n2, ts2, tr2, h1, g, rfl, rfl⟩ := seq_inv h
    replace h := g; clear g
    cases h1 with | tag_ok hp =>
    obtain ⟨src, rfl⟩ := hp
    rw [adv_left] at h
    obtain ⟨n1, ts1, j1, tr1, n2, ts2, tr2, h1, g, rfl, rfl⟩ := seq_inv h
    replace h := g; clear g
    obtain ⟨rfl, rfl, e⟩ := seq_end h
    subst e
    cases h1 with | until_ok hl h0 =>
    obtain ⟨s, rest, rfl, rfl, hs, hr⟩ := longest_split hl
    refine ⟨rfl, w ++ '#' :: s, rest, by simp, by simp; omega, .inl ⟨w, s, rfl, hw, fun hn => ?_, fun c hc => ?_, ?_⟩⟩
    · exact absurd (List.mem_singleton.2 rfl) (hs _ hn)
    · simpa using hr c hc
    · rfl
  | sel_next h0 h =>
  cases h with
  | sel_next _ h => cases h
  | sel_here h =>
  cases h with | sequence h =>
  obtain ⟨n1, ts1, j1, tr1, n2, ts2, tr2, h1, g, rfl, rfl⟩ := seq_inv h
  replace h := g; clear g
  obtain ⟨rfl, rfl, w, src, rfl, rfl, hw, hw'⟩ := ws_inv h1
  rw [adv_left] at h
  obtain ⟨e0, hne⟩ := hash_fails hw hw' h0
  subst e0
  obtain ⟨n1, ts1, j1, tr1, n2, ts2, tr2, h1, g, rfl, rfl⟩ := seq_inv h
  replace h := g; clear g
  cases h1 with | untilWs_ok hl hk0 =>
  obtain ⟨key, src, rfl, rfl, hk, hk'⟩ := longest_split hl
  rw [adv_left] at h
  obtain ⟨n1, ts1, j1, tr1, n2, ts2, tr2, h1, g, rfl, rfl⟩ := seq_inv h
  replace h := g; clear g
  obtain ⟨rfl, e1, a, src, rfl, rfl, ha, ha'⟩ := ws_inv h1
  subst e1
  rw [adv_left] at h
  obtain ⟨n1, ts1, j1, tr1, n2, ts2, tr2, h1, g, rfl, rfl⟩ := seq_inv h
  replace h := g; clear g
  cases h1 with | tag_ok hp =>
  obtain ⟨src, rfl⟩ := hp
  rw [adv_left] at h
  obtain ⟨n1, ts1, j1, tr1, n2, ts2, tr2, h1, g, rfl, rfl⟩ := seq_inv h
  replace h := g; clear g
  obtain ⟨rfl, e1, b, src, rfl, rfl, hb, hb'⟩ := ws_inv h1
  subst e1
  rw [adv_left] at h
  obtain ⟨n1, ts1, j1, tr1, n2, ts2, tr2, h1, g, rfl, rfl⟩ := seq_inv h
  replace h := g; clear g
  obtain ⟨e1, v, src, d, rfl, rfl, hv, rfl⟩ := kv_value_out hL h1
  subst e1
  rw [adv_left] at h
  obtain ⟨n1, ts1, j1, tr1, n2, ts2, tr2, h1, g, rfl, rfl⟩ := seq_inv h
  replace h := g; clear g
  obtain ⟨rfl, e1, u, rest, rfl, rfl, hu, hu'⟩ := ws_inv h1
  subst e1
  obtain ⟨rfl, rfl, e1⟩ := seq_end h
  subst e1
  have hkey : key ≠ [] := fun e => by simp [e] at hk0
  refine ⟨rfl, w ++ (key ++ (a ++ ('=' :: (b ++ (v ++ u))))), rest, by simp, by simp; omega, .inr ⟨w, key, a, b, v, u, d,
    rfl, hw, hkey, ?_, fun c hc => ?_, ha, hb, hv, hu, hu', ?_⟩⟩
  · cases key with
    | nil => simp at hkey
    | cons c cs => simpa using hne
  · simpa using hk c hc
  · simp [named]; omega

/-- Comments are read. -/
theorem seq_step {E : Env} {r : Rule} {rs : List Rule} {a s : Str} {off i n : Nat} {us ts : List Tok}
    (h : ∃ tr, Run E (.rule r) ⟨a ++ s, off⟩ i (some (a.length, us)) i tr)
    (h' : ∃ tr, Run E (.seq rs) ⟨s, off + a.length⟩ i (some (n, ts)) i tr) :
    ∃ tr, Run E (.seq (r :: rs)) ⟨a ++ s, off⟩ i (some (a.length + n, us ++ ts)) i tr := by
  obtain ⟨tr, h⟩ := h
  obtain ⟨tr', h'⟩ := h'
  exact ⟨_, .seq_cons (o := some (n, ts)) h (by rw [adv_left]; exact h')⟩

theorem ws_step {E : Env} {id : DebugId} {a s : Str} (ha : ∀ c ∈ a, isWs c = true)
    (hs : ∀ c, s.head? = some c → isWs c = false) (off i : Nat) :
    ∃ tr, Run E (.rule (.whitespace true id)) ⟨a ++ s, off⟩ i (some (a.length, [])) i tr :=
  ⟨_, .ws_ok (Boot.longest_append ha fun c hc => by simp [hs c hc]) fun _ => rfl⟩

theorem kv_comment_in {w t rest : Str} (hw : ∀ c ∈ w, isWs c = true) (hs : '\n' ∉ t)
    (hr : ∀ c, rest.head? = some c → c = '\n') (off i : Nat) :
    ∃ tr, Run (kvEnv L) (.rule kvItem) ⟨w ++ ('#' :: t ++ rest), off⟩ i (some (w.length + (1 + t.length), [])) i tr := by
  refine ⟨_, .select (.sel_here (.sequence (.seq_cons (n := w.length) (ts := []) (j := i)
    (o := some (1 + t.length, [])) (.ws_ok (Boot.longest_append hw ?_) (fun _ => rfl))
    (.seq_cons (n := 1) (ts := []) (j := i) (o := some (t.length, [])) (.tag_ok ?_) (.seq_cons (n := t.length) (ts := [])
      (j := i) (o := some (0, [])) (.until_ok ?_ (fun _ => rfl)) .seq_nil)))))⟩
  · intro c hc
    cases hc
    decide
  · rw [adv_left]
    exact ⟨_, rfl⟩
  · rw [adv_left]
    exact Boot.longest_append (cs := t) (fun c hc hn => hs (by rw [List.mem_singleton] at hn; exact hn ▸ hc)) (fun c hc => by simp [hr c hc])

theorem KvValue.head (hL : L.Lawful) (hS : SolidAll L) {v rest : Str} {d : MetaData} (h : KvValue L v rest d) :
    v ≠ [] ∧ ∀ c, (v ++ rest).head? = some c → isWs c = false := by
  cases h with
  | number h hx =>
    have h1 := (hL.num_some h).1
    have h2 := hS _ _ _ h
    cases v with
    | nil => simp at h1
    | cons c cs => exact ⟨by simp, fun d hd => by cases hd; exact h2 _ (by simp)⟩
  | yes h => exact ⟨by simp, fun d hd => by cases hd; decide⟩
  | no h => exact ⟨by simp, fun d hd => by cases hd; decide⟩
  | string h hs ht =>
    obtain ⟨h1, h2, h3⟩ := hL.str_some hs
    refine ⟨fun e => by subst e; simp at h1, fun c hc => ?_⟩
    rw [h3] at hc
    cases hc
    decide
  | word h hs h1 h2 h0 hv hr =>
    cases v with
    | nil => simp at h0
    | cons c cs => exact ⟨by simp, fun d hd => by cases hd; exact hv _ (by simp)⟩

theorem KvValue.last (hX : L.Exact) (hS : SolidAll L) {v rest : Str} {d : MetaData}
    (h : KvValue L v rest d) : ∀ c, v.getLast? = some c → isWs c = false := by
  intro c hc
  have hm := List.mem_of_getLast? hc
  cases h with
  | number h hx => exact hS _ _ _ h c (by simpa using hm)
  | yes h => cases hc; decide
  | no h => cases hc; decide
  | string h hs ht =>
    have := hX.str_last hs
    simp at this
    rw [this] at hc
    cases hc
    decide
  | word h hs h1 h2 h0 hv hr => exact hv c hm

/-- Pairs are read. -/
theorem kv_pair_in (hL : L.Lawful) (hS : SolidAll L) {w key a b v u rest : Str} {d : MetaData}
    (hw : ∀ c ∈ w, isWs c = true) (h0 : key ≠ []) (h1 : key.head? ≠ some '#')
    (hk : ∀ c ∈ key, c ≠ '=' ∧ isWs c = false) (ha : ∀ c ∈ a, isWs c = true) (hb : ∀ c ∈ b, isWs c = true)
    (hv : KvValue L v (u ++ rest) d) (hu : ∀ c ∈ u, isWs c = true) (hr : ∀ c, rest.head? = some c → isWs c = false)
    (off i : Nat) :
    ∃ tr, Run (kvEnv L) (.rule kvItem) ⟨w ++ (key ++ (a ++ ('=' :: (b ++ (v ++ (u ++ rest)))))), off⟩ i
      (some (w.length + (key.length + (a.length + (1 + (b.length + (v.length + u.length))))),
        [⟨⟨off + w.length, key.length⟩, .string c!"key" key⟩,
         ⟨⟨off + (w.length + (key.length + (a.length + (1 + b.length)))), v.length⟩, d⟩])) i tr := by
  have hkh : ∀ s c, (key ++ s).head? = some c → isWs c = false := by
    intro s c hc
    cases key with
    | nil => simp at h0
    | cons x xs => cases hc; exact (hk _ (by simp)).2
  have hone : ∀ (s : Str) c, ('=' :: s).head? = some c → isWs c = false := by
    intro s c hc; cases hc; decide
  have hl : Longest (fun c => c ∉ c!"=" ∧ isWs c = false) (key ++ (a ++ (['='] ++ (b ++ (v ++ (u ++ rest))))))
      key.length := by
    refine Boot.longest_append (fun c hc => by simpa using hk c hc) (fun c hc => ?_)
    cases a with
    | nil => cases hc; simp
    | cons x xs => cases hc; simp [ha _ List.mem_cons_self]
  have key_run := seq_step (E := kvEnv L) (r := .whitespace true 5) (ws_step hw (hkh _) off i) (seq_step
    ⟨_, .untilWs_ok (opt := false) (prop := some c!"key") (id := 6) hl (fun e => absurd (List.length_eq_zero_iff.1 e) h0)⟩
      (seq_step (r := .whitespace true 7) (ws_step ha (hone _) _ _)
      (seq_step ⟨_, .tag_ok (t := c!"=") (inv := false) (prop := none) (id := 8) (List.prefix_append _ _)⟩
      (seq_step (r := .whitespace true 9) (ws_step hb (KvValue.head hL hS hv).2 _ _)
      (seq_step (kv_value_in hL hv _ _)
      (seq_step (r := .whitespace true 17) (ws_step hu hr _ _) ⟨_, .seq_nil⟩))))))
  obtain ⟨tr, hkey⟩ := key_run
  have hc : ∃ tr, Run (kvEnv L) (.rule kvComment) ⟨w ++ (key ++ (a ++ (['='] ++ (b ++ (v ++ (u ++ rest)))))), off⟩ i
      none i tr := by
    obtain ⟨tr, hws⟩ := ws_step (E := kvEnv L) (id := 1) hw (hkh (a ++ (['='] ++ (b ++ (v ++ (u ++ rest)))))) off i
    refine ⟨_, .sequence (.seq_cons (o := none) hws (.seq_fail (.tag_fail ?_)))⟩
    rw [adv_left]
    cases key with
    | nil => simp at h0
    | cons x xs =>
      intro hp
      have := (List.cons_prefix_cons.1 hp).1
      subst this
      exact h1 rfl
  obtain ⟨tr', hc⟩ := hc
  refine ⟨_, .select (.sel_next hc (.sel_here (.sequence (tr := tr) ?_)))⟩
  simpa [named, Nat.add_assoc] using hkey

/-! ### Lines -/

theorem KvText.space {w r : Str} {off : Nat} {ts : List Tok} (hw : ∀ c ∈ w, isWs c = true)
    (h : KvText L (off + w.length) r ts) : KvText L off (w ++ r) ts := by
  have happ : ∀ {w' : Str}, (∀ c ∈ w', isWs c = true) → ∀ c ∈ w ++ w', isWs c = true := by
    intro w' h' c hc
    rcases List.mem_append.1 hc with hc | hc
    · exact hw c hc
    · exact h' c hc
  cases h with
  | done h => exact .done (happ h)
  | @comment _ w' s rest _ hw' hs hr h =>
    rw [← List.append_assoc]
    exact .comment (happ hw') hs hr (by simpa [Nat.add_assoc] using h)
  | pair hw' h0 h1 hk ha hb hv hr h =>
    rw [← List.append_assoc]
    have := KvText.pair (off := off) (happ hw') h0 h1 hk ha hb hv hr (by simpa [Nat.add_assoc] using h)
    simpa [Nat.add_assoc] using this

/-- Space at the start can be left out. -/
theorem KvText.unspace {w r : Str} {off : Nat} {ts : List Tok} (hw : ∀ c ∈ w, isWs c = true)
    (hr : ∀ c, r.head? = some c → isWs c = false) (h : KvText L off (w ++ r) ts) : KvText L (off + w.length) r ts := by
  generalize ht : w ++ r = t at h
  cases h with
  | done h =>
    subst ht
    exact .done fun c hc => h c (List.mem_append.2 (.inr hc))
  | comment hw' hs hr' h =>
    obtain ⟨rfl, rfl⟩ := ws_unique ht hw hw' hr (fun c hc => by cases hc; decide)
    have := KvText.comment (L := L) (off := off + w.length) (w := []) (by simp) hs hr' (by simpa [Nat.add_assoc] using h)
    simpa using this
  | @pair _ w' key a b v rest d ts hw' h0 h1 hk ha hb hv hr' h =>
    obtain ⟨rfl, rfl⟩ := ws_unique ht hw hw' hr (fun c hc => by
      cases key with
      | nil => simp at h0
      | cons x xs => cases hc; exact (hk _ (by simp)).2)
    have := KvText.pair (L := L) (off := off + w.length) (w := []) (by simp) h0 h1 hk ha hb hv hr'
      (by simpa [Nat.add_assoc] using h)
    simpa [Nat.add_assoc] using this

/-- The item ends with a new line and space. -/
def EndsNl (item : Str) : Prop := ∃ x w, item = x ++ '\n' :: w ∧ ∀ c ∈ w, isWs c = true

theorem endsNl_tail : ∀ {t u : Str}, (∀ c, t.getLast? = some c → isWs c = false) → t ≠ [] → EndsNl (t ++ u) →
    '\n' ∈ u := by
  rintro t u ht h0 ⟨x, w, e, hw⟩
  rcases List.append_eq_append_iff.1 e with ⟨y, hy, hz⟩ | ⟨y, hy, hz⟩
  · -- x = t ++ y, u = y ++ '\n' :: w
    rw [hz]; simp
  · -- t = x ++ y, '\n' :: w = y ++ u
    cases y with
    | nil => simp at hz; rw [← hz]; simp
    | cons c cs =>
      simp at hz
      obtain ⟨rfl, hz⟩ := hz
      exfalso
      have hl : t.getLast? = some ((('\n' :: cs).getLast (by simp))) := by
        rw [hy, List.getLast?_append]
        simp [List.getLast?_eq_some_getLast]
      have h1 := ht _ hl
      have h2 := List.getLast_mem (l := '\n' :: cs) (by simp)
      have : isWs (('\n' :: cs).getLast (by simp)) = true := by
        rcases List.mem_cons.1 h2 with h2 | h2
        · rw [h2]; decide
        · exact hw _ (by rw [hz]; exact List.mem_append.2 (.inl h2))
      rw [this] at h1
      cases h1

theorem plain_lines_inv {E : Env} {r : Rule} {id : DebugId} {first : Bool} {item : Str} {p : Pos} {i n j : Nat}
    {ts : List Tok} {tr : List RErr} (h : Run E (.lines r false id first item) p i (some (n, ts)) j tr) :
    (E.L.lineNext first item p.src = .done n ∧ ts = []) ∨
    (E.L.lineNext first item p.src = .call n ∧ ts = []) ∨
    ∃ k n₁ ts₁ j₁ tr₁ n₂ ts₂ tr₂, E.L.lineNext first item p.src = .call k ∧ n = k + n₁ + n₂ ∧ ts = ts₁ ++ ts₂ ∧
      Run E (.rule r) (adv p k) i (some (n₁, ts₁)) j₁ tr₁ ∧
      Run E (.lines r false id false ((p.src.drop k).take n₁)) (adv p (k + n₁)) j₁ (some (n₂, ts₂)) j tr₂ := by
  generalize ho : some (n, ts) = o at h
  cases h with
  | lines_done h => cases ho; exact .inl ⟨h, rfl⟩
  | lines_fail => cases ho
  | lines_stop h => cases ho; exact .inr (.inl ⟨h, rfl⟩)
  | lines_more h h' h'' =>
    rename_i o _
    cases o with
    | none => cases ho
    | some x =>
      obtain ⟨n', us⟩ := x
      simp only [before] at ho
      cases ho
      cases h' with | line_plain h' =>
      exact .inr (.inr ⟨_, _, _, _, _, _, _, _, h, rfl, rfl, h', h''⟩)

theorem nonBlank_ne {s : Str} (h : NonBlankLine s) : ¬ ∀ c ∈ s, isWs c = true := by
  obtain ⟨a, c, b, rfl, hc, -⟩ := h
  intro h
  rw [h c (by simp)] at hc
  cases hc

theorem ws_append {a b : Str} (ha : ∀ c ∈ a, isWs c = true) (hb : ∀ c ∈ b, isWs c = true) :
    ∀ c ∈ a ++ b, isWs c = true := by
  intro c hc
  rcases List.mem_append.1 hc with hc | hc
  · exact ha c hc
  · exact hb c hc

theorem endsLine_space {u rest : Str} (hu : ∀ c ∈ u, isWs c = true) (h : EndsLine rest) : EndsLine (u ++ rest) := by
  obtain ⟨w, r, rfl, hw, h⟩ := h
  refine ⟨u ++ w, r, by simp, ws_append hu hw, ?_⟩
  rcases h with h | h
  · exact .inl h
  · exact .inr (List.mem_append.2 (.inr h))

/-- What is read as lines, up to the end of the text. -/
theorem kv_lines_out (hL : L.Lawful) (hX : L.Exact) (hS : SolidAll L) : ∀ (N : Nat) {src item : Str} {first : Bool}
    {off i j n : Nat} {ts : List Tok} {tr : List RErr}, src.length ≤ N →
    Run (kvEnv L) (.lines kvItem false 20 first item) ⟨src, off⟩ i (some (n, ts)) j tr → src.length ≤ n →
    KvText L off src ts ∧ (first = false → EndsLine src ∨ EndsNl item) := by
  intro N
  induction N with
  | zero =>
    intro src item first off i j n ts tr hN h hn
    have : src = [] := List.length_eq_zero_iff.1 (by omega)
    subst this
    rcases plain_lines_inv h with ⟨h1, rfl⟩ | ⟨h1, rfl⟩ | ⟨k, n₁, ts₁, j₁, tr₁, n₂, ts₂, tr₂, h1, -⟩
    · exact ⟨.done (by simp), fun _ => .inl ⟨[], [], rfl, by simp, .inl rfl⟩⟩
    · exact absurd (by simp) (nonBlank_ne (hL.line_call h1).2.2.2.1)
    · exact absurd (by simp) (nonBlank_ne (hL.line_call h1).2.2.2.1)
  | succ N ih =>
    intro src item first off i j n ts tr hN h hn
    rcases plain_lines_inv h with ⟨h1, rfl⟩ | ⟨h1, rfl⟩ | ⟨k, n₁, ts₁, j₁, tr₁, n₂, ts₂, tr₂, h1, rfl, rfl, h2, h3⟩
    · have hw := (hL.line_done h1).2
      exact ⟨.done hw, fun _ => .inl ⟨src, [], by simp, hw, .inl rfl⟩⟩
    · have := (hL.line_call h1).2.2.2.1
      simp only [List.drop_eq_nil_of_le hn] at this
      exact absurd (by simp) (nonBlank_ne this)
    · obtain ⟨hk, hw, -, hb, -⟩ := hL.line_call h1
      simp only at hk hw hb h3
      have hnl := fun e : first = false => hX.line_newline (item := item) (rest := src) (k := k) (e ▸ h1)
      clear h1 h
      obtain ⟨g, s, rfl, rfl⟩ : ∃ g s, src = g ++ s ∧ g.length = k :=
        ⟨src.take k, src.drop k, (List.take_append_drop k src).symm, by simp; omega⟩
      rw [adv_left] at h2
      simp only [List.take_left, List.drop_left] at hw hb h3 hnl
      obtain ⟨rfl, t, rest, rfl, rfl, hitem⟩ := kv_item_out hL h2
      rw [show adv ⟨g ++ (t ++ rest), off⟩ (g.length + t.length) = ⟨rest, off + (g.length + t.length)⟩ by
        simp [adv, List.drop_append]] at h3
      simp only [List.take_left] at h3
      have ht : 0 < t.length := by
        rcases hitem with ⟨w, s, rfl, -⟩ | ⟨w, key, a, b, v, u, d, rfl, -⟩ <;> simp <;> omega
      simp only [List.length_append] at hN hn
      obtain ⟨hrest, hsep⟩ := ih (by omega) h3 (by omega)
      have hsep := hsep rfl
      constructor
      · refine KvText.space hw ?_
        rcases hitem with ⟨w, s, rfl, hw', hs, hr, rfl⟩ | ⟨w, key, a, b, v, u, d, rfl, hw', h0, h1, hk', ha, hb', hv, hu, hr, rfl⟩
        · have := KvText.comment (L := L) (off := off + g.length) (ts := ts₂) hw' hs hr (by
            simpa [Nat.add_assoc, Nat.add_comm, Nat.add_left_comm] using hrest)
          simpa using this
        · have hel : EndsLine (u ++ rest) := by
            rcases hsep with hsep | hsep
            · exact endsLine_space hu hsep
            · have : '\n' ∈ u := by
                refine endsNl_tail (t := w ++ (key ++ (a ++ ('=' :: (b ++ v))))) ?_ (by simp) (by simpa using hsep)
                intro c hc
                refine KvValue.last hX hS hv c ?_
                have := (KvValue.head hL hS hv).1
                cases v with
                | nil => simp at this
                | cons x xs => simpa [List.getLast?_append, List.getLast?_cons] using hc
              exact ⟨u, rest, rfl, hu, .inr this⟩
          have := KvText.pair (L := L) (off := off + g.length) (ts := ts₂) hw' h0 h1 hk' ha hb' hv hel
            (KvText.space hu (by simpa [Nat.add_assoc, Nat.add_comm, Nat.add_left_comm] using hrest))
          simpa [Nat.add_assoc, Nat.add_comm, Nat.add_left_comm] using this
      · intro e
        rcases hnl e with h | h
        · exact .inl ⟨g, t ++ rest, rfl, hw, .inr h⟩
        · exact .inr h

theorem blank_data {off : Nat} {src : Str} {ts : List Tok} (h : KvText L off src ts) (hw : ∀ c ∈ src, isWs c = true) :
    ts = [] := by
  cases h with
  | done => rfl
  | comment _ _ _ h =>
    have := hw '#' (by simp)
    exact absurd this (by decide)
  | pair _ _ _ _ _ _ _ _ _ =>
    have := hw '=' (by simp)
    exact absurd this (by decide)

theorem ws_split (s : Str) : ∃ w r, s = w ++ r ∧ (∀ c ∈ w, isWs c = true) ∧ ∀ c, r.head? = some c → isWs c = false := by
  refine ⟨s.takeWhile isWs, s.dropWhile isWs, List.takeWhile_append_dropWhile.symm, fun c hc => ?_, fun c hc => ?_⟩
  · exact List.all_eq_true.1 (List.all_takeWhile (p := isWs) (l := s)) c hc
  · have := List.head?_dropWhile_not isWs s
    rw [hc] at this
    simpa using this

/-- The space of which the text begins contains the new line that ends the line. -/
theorem endsLine_newline {u r : Str} (hu : ∀ c ∈ u, isWs c = true) (hr : ∀ c, r.head? = some c → isWs c = false)
    (h : EndsLine (u ++ r)) : r = [] ∨ '\n' ∈ u := by
  obtain ⟨w, r', e, hw, h⟩ := h
  obtain ⟨w', r'', rfl, hw', hr'⟩ := ws_split r'
  rw [← List.append_assoc] at e
  obtain ⟨rfl, rfl⟩ := ws_unique e hu (ws_append hw hw') hr hr'
  rcases h with h | h
  · exact .inl (List.append_eq_nil_iff.1 h).2
  · exact .inr (List.mem_append.2 (.inl h))

/-- Such texts are read. -/
theorem kv_lines_in (hL : L.Lawful) (hS : SolidAll L) (hR : ResumesAfterSpace L) (i : Nat) : ∀ (N : Nat) {src item : Str}
    {first : Bool} {off : Nat} {ts : List Tok}, src.length ≤ N → KvText L off src ts →
    (first = false → EndsLine src ∨ EndsNl item) →
    ∃ tr, Run (kvEnv L) (.lines kvItem false 20 first item) ⟨src, off⟩ i (some (src.length, ts)) i tr := by
  intro N
  induction N with
  | zero =>
    intro src item first off ts hN h hsep
    have : src = [] := List.length_eq_zero_iff.1 (by omega)
    subst this
    cases blank_data h (by simp)
    cases hl : L.lineNext first item [] with
    | done k =>
      have := (hL.line_done hl).1
      subst this
      exact ⟨_, .lines_done hl⟩
    | call k => exact absurd (by simp) (nonBlank_ne (hL.line_call hl).2.2.2.1)
    | fail k => exact absurd (by simp) (nonBlank_ne (hL.line_fail hl).2.2.2)
  | succ N ih =>
    intro src item first off ts hN h hsep
    obtain ⟨g, s, rfl, hg, hs⟩ := ws_split src
    cases hl : L.lineNext first item (g ++ s) with
    | done k =>
      obtain ⟨rfl, hw⟩ := hL.line_done hl
      cases blank_data h hw
      exact ⟨_, .lines_done hl⟩
    | fail k =>
      exfalso
      obtain ⟨rfl, hk, hw, hb⟩ := hL.line_fail hl
      have hb' : NonBlankLine (g ++ s) := by
        obtain ⟨a, c, b, e, hc, ha⟩ := hb
        refine ⟨(g ++ s).take k ++ a, c, b, by rw [List.append_assoc, ← e, List.take_append_drop], hc, fun x hx => ?_⟩
        rcases List.mem_append.1 hx with hx | hx
        · exact hw x hx
        · exact ha x hx
      have hnog : '\n' ∉ g ∧ s ≠ [] := by
        obtain ⟨a, c, b, e, hc, ha⟩ := hb'
        obtain ⟨rfl, rfl⟩ := ws_unique e hg (fun x hx => (ha x hx).1) hs (fun x hx => by cases hx; exact hc)
        exact ⟨fun hn => (ha _ hn).2 rfl, by simp⟩
      rcases hsep rfl with hsep | ⟨x, w, rfl, hw'⟩
      · rcases endsLine_newline hg hs hsep with e | e
        · exact hnog.2 e
        · exact hnog.1 e
      · rw [hR x w _ hw' hb'] at hl
        cases hl
    | call k =>
      obtain ⟨hk, hw, -, hb, -⟩ := hL.line_call hl
      have hkg : k ≤ g.length := by
        obtain ⟨a, c, b, e, hc, ha⟩ := hb
        have e' : g ++ s = ((g ++ s).take k ++ a) ++ c :: b := by
          rw [List.append_assoc, ← e, List.take_append_drop]
        obtain ⟨hh, -⟩ := ws_unique e' hg (ws_append hw fun x hx => (ha x hx).1) hs (fun x hx => by cases hx; exact hc)
        have := congrArg List.length hh
        simp only [List.length_append, List.length_take] at this hk
        omega
      obtain ⟨g1, g2, rfl, rfl⟩ : ∃ g1 g2, g = g1 ++ g2 ∧ g1.length = k :=
        ⟨g.take k, g.drop k, (List.take_append_drop k g).symm, by simp; omega⟩
      have hg1 : ∀ c ∈ g1, isWs c = true := fun c hc => hg c (by simp [hc])
      have hg2 : ∀ c ∈ g2, isWs c = true := fun c hc => hg c (by simp [hc])
      have h2 : KvText L (off + g1.length) (g2 ++ s) ts :=
        KvText.space hg2 (by simpa [Nat.add_assoc] using KvText.unspace hg hs h)
      simp only [List.append_assoc, List.drop_left] at hl hb ⊢
      have step : ∀ {t rest : Str} {ts1 ts2 : List Tok}, g2 ++ s = t ++ rest →
          (∃ tr, Run (kvEnv L) (.rule kvItem) ⟨g2 ++ s, off + g1.length⟩ i (some (t.length, ts1)) i tr) →
          (∃ tr, Run (kvEnv L) (.lines kvItem false 20 false t) ⟨rest, off + (g1.length + t.length)⟩ i
            (some (rest.length, ts2)) i tr) →
          ∃ tr, Run (kvEnv L) (.lines kvItem false 20 first item) ⟨g1 ++ (g2 ++ s), off⟩ i
            (some ((g1 ++ (g2 ++ s)).length, ts1 ++ ts2)) i tr := by
        rintro t rest ts1 ts2 e ⟨tr, h1⟩ ⟨tr', h2⟩
        have := Run.lines_more (E := kvEnv L) (r := kvItem) (ind := false) (id := 20) (first := first) (item := item)
          (p := ⟨g1 ++ (g2 ++ s), off⟩) (i := i) (k := g1.length) (n := t.length) (ts := ts1) (j := i) (tr := tr)
          (o := some (rest.length, ts2)) (l := i) (tr' := tr') hl (.line_plain (by rw [adv_left]; exact h1)) (by
            simp only [List.drop_left]
            rw [e]
            simpa [adv, ← List.drop_drop] using h2)
        rw [e] at this ⊢
        refine ⟨tr ++ tr', ?_⟩
        simpa [before, Nat.add_assoc] using this
      have hlen : (g2 ++ s).length ≤ N + 1 := by
        simp only [List.length_append] at hN ⊢
        omega
      generalize g2 ++ s = s2 at h2 hb step hlen
      cases h2 with
      | done h' => exact absurd h' (nonBlank_ne hb)
      | @comment _ w t rest ts hw' ht hr h =>
        refine step (t := w ++ '#' :: t) (rest := rest) (ts1 := []) (by simp) ?_ (ih ?_ ?_ fun _ => .inl ?_)
        · obtain ⟨tr, h⟩ := kv_comment_in (L := L) hw' ht hr (off + g1.length) i
          exact ⟨tr, by simpa [Nat.add_assoc, Nat.add_comm, Nat.add_left_comm] using h⟩
        · simp at hlen
          omega
        · simpa [Nat.add_assoc, Nat.add_comm, Nat.add_left_comm] using h
        · cases rest with
          | nil => exact ⟨[], [], rfl, by simp, .inl rfl⟩
          | cons c cs =>
            have := hr c rfl
            subst this
            exact ⟨['\n'], cs, rfl, by decide, .inr (by simp)⟩
      | @pair _ w key a b v rest d ts hw' h0 h1 hk' ha hb' hv hr h =>
        obtain ⟨u, r, rfl, hu, hur⟩ := ws_split rest
        refine step (t := w ++ (key ++ (a ++ ('=' :: (b ++ (v ++ u)))))) (rest := r) (ts1 := [_, _]) (by simp) ?_
          (ih ?_ ?_ fun _ => ?_)
        · obtain ⟨tr, h⟩ := kv_pair_in hL hS hw' h0 h1 hk' ha hb' hv hu hur (off + g1.length) i
          exact ⟨tr, by simpa [Nat.add_assoc, Nat.add_comm, Nat.add_left_comm] using h⟩
        · simp at hlen
          omega
        · have := KvText.unspace hu hur h
          simpa [Nat.add_assoc, Nat.add_comm, Nat.add_left_comm] using this
        · rcases endsLine_newline hu hur hr with rfl | hn
          · exact .inl ⟨[], [], rfl, by simp, .inl rfl⟩
          · obtain ⟨x, y, rfl⟩ := List.append_of_mem hn
            exact .inr ⟨w ++ (key ++ (a ++ ('=' :: (b ++ (v ++ x))))), y, by simp, fun c hc => hu c (by simp [hc])⟩

/-- The texts that the rules read, and their data. -/
theorem kv_exact (hL : L.Lawful) (hX : L.Exact) (hS : SolidAll L) (hR : ResumesAfterSpace L) {text : Str}
    {toks : List Tok} : Parses L kvSyntax text [] Indent.default (.ok toks) ↔ KvText L 0 text toks := by
  rw [parses_ok_run]
  constructor
  · rintro ⟨r, n, ts, j, tr, hr, h, hn, rfl⟩
    cases hr
    cases h with | lines h =>
    exact (kv_lines_out hL hX hS _ (Nat.le_refl _) h hn).1
  · intro h
    obtain ⟨tr, h⟩ := kv_lines_in hL hS hR 0 _ (item := []) (first := true) (Nat.le_refl _) h (by simp)
    exact ⟨_, _, _, _, _, rfl, .lines h, Nat.le_refl _, rfl⟩

/-- The value at a place is determined by the text. -/
theorem KvValue.unique (hL : L.Lawful) {v v' rest rest' : Str} {d d' : MetaData} (e : v ++ rest = v' ++ rest')
    (h : KvValue L v rest d) (h' : KvValue L v' rest' d') : v = v' ∧ rest = rest' ∧ d = d' := by
  obtain ⟨tr, h1⟩ := kv_value_in hL h 0 0
  obtain ⟨tr', h2⟩ := kv_value_in hL h' 0 0
  rw [e] at h1
  have := (h1.det h2).1
  simp at this
  obtain ⟨rfl, rfl⟩ := List.append_inj e this.1
  exact ⟨rfl, rfl, this.2⟩

/-- Where a key ends is determined by the text. -/
theorem key_unique : ∀ {k s k' s' : Str}, k ++ s = k' ++ s' → (∀ c ∈ k, c ≠ '=' ∧ isWs c = false) →
    (∀ c ∈ k', c ≠ '=' ∧ isWs c = false) → (∃ c, s.head? = some c ∧ (c = '=' ∨ isWs c = true)) →
    (∃ c, s'.head? = some c ∧ (c = '=' ∨ isWs c = true)) → k = k' ∧ s = s'
  | [], s, [], s', h, _, _, _, _ => ⟨rfl, h⟩
  | [], s, x :: k', s', h, _, hk, ⟨c, hc, hs⟩, _ => by
    simp at h
    subst h
    simp at hc
    subst hc
    obtain ⟨h1, h2⟩ := hk x (by simp)
    rcases hs with rfl | hs
    · exact absurd rfl h1
    · rw [h2] at hs
      cases hs
  | x :: k, s, [], s', h, hk, _, _, ⟨c, hc, hs⟩ => by
    simp at h
    subst h
    simp at hc
    subst hc
    obtain ⟨h1, h2⟩ := hk x (by simp)
    rcases hs with rfl | hs
    · exact absurd rfl h1
    · rw [h2] at hs
      cases hs
  | x :: k, s, y :: k', s', h, hk, hk', hs, hs' => by
    simp at h
    obtain ⟨rfl, h⟩ := h
    obtain ⟨rfl, rfl⟩ := key_unique h (fun c hc => hk c (by simp [hc])) (fun c hc => hk' c (by simp [hc])) hs hs'
    exact ⟨rfl, rfl⟩

theorem space_eq_head {a s : Str} (ha : ∀ c ∈ a, isWs c = true) :
    ∃ c, (a ++ '=' :: s).head? = some c ∧ (c = '=' ∨ isWs c = true) := by
  cases a with
  | nil => exact ⟨'=', rfl, .inl rfl⟩
  | cons x a => exact ⟨x, rfl, .inr (ha x (by simp))⟩

/-- C77: if the value that is read at a place does not end its line, the text is rejected: no other
alternative is tried. -/
theorem kv_more (hL : L.Lawful) (hS : SolidAll L) {w key a b v rest : Str} {d : MetaData}
    (hw : ∀ c ∈ w, isWs c = true) (hk : KeyOk key) (ha : ∀ c ∈ a, isWs c = true) (hb : ∀ c ∈ b, isWs c = true)
    (hv : KvValue L v rest d) (hr : ¬ EndsLine rest) (off : Nat) :
    ¬ ∃ toks, KvText L off (w ++ (key ++ (a ++ ('=' :: (b ++ (v ++ rest)))))) toks := by
  rintro ⟨toks, h⟩
  obtain ⟨k0, khash, kok⟩ := hk
  have khead : ∀ {s : Str} c, (key ++ s).head? = some c → isWs c = false := by
    intro s c hc
    cases key with
    | nil => exact absurd rfl k0
    | cons x key =>
      simp at hc
      subst hc
      exact (kok x (by simp)).2
  generalize hg : w ++ (key ++ (a ++ ('=' :: (b ++ (v ++ rest))))) = g at h
  cases h with
  | done hw' =>
    subst hg
    obtain ⟨x, hx⟩ := List.exists_mem_of_ne_nil _ k0
    have := hw' x (by simp [hx])
    rw [(kok x hx).2] at this
    cases this
  | comment hw' hs hr' h =>
    obtain ⟨rfl, e⟩ := ws_unique hg hw hw' khead (by intro c hc; simp at hc; subst hc; decide)
    cases key with
    | nil => exact k0 rfl
    | cons x key =>
      simp at e
      exact khash (by simp [e.1])
  | pair hw' h0 h1 hk' ha' hb' hv' hr' h =>
    obtain ⟨rfl, e⟩ := ws_unique hg hw hw' khead (by
      intro c hc
      rename_i k' _ _ _ _ _ _
      cases k' with
      | nil => exact absurd rfl h0
      | cons x k' =>
        simp at hc
        subst hc
        exact (hk' x (by simp)).2)
    obtain ⟨rfl, e1⟩ := key_unique e kok hk' (space_eq_head ha) (space_eq_head ha')
    obtain ⟨rfl, e2⟩ := ws_unique e1 ha ha' (by intro c hc; cases hc; decide) (by intro c hc; cases hc; decide)
    obtain ⟨rfl, e3⟩ := ws_unique (List.cons.inj e2).2 hb hb' (KvValue.head hL hS hv).2 (KvValue.head hL hS hv').2
    obtain ⟨rfl, rfl, rfl⟩ := KvValue.unique hL e3 hv hv'
    exact hr hr'

/-- The lines of some entries. -/
theorem kv_lines_text : ∀ {es : List (Str × Str × MetaData)} (off : Nat), (∀ e ∈ es, KeyOk e.1) →
    (∀ e ∈ es, ∀ rest, KvValue L e.2.1 ('\n' :: rest) e.2.2) →
    ∃ toks, KvText L off (kvLines es) toks ∧ toks.map (·.data) = kvData es
  | [], off, _, _ => ⟨[], .done (by simp [kvLines]), rfl⟩
  | (key, v, d) :: es, off, hk, hv => by
    obtain ⟨k0, k1, k2⟩ := hk (key, v, d) (by simp)
    obtain ⟨ts, h, e⟩ := kv_lines_text (es := es) (off + (0 + (key.length + (1 + (1 + (1 + v.length))))) + 1)
      (fun e he => hk e (by simp [he])) (fun e he => hv e (by simp [he]))
    refine ⟨_, KvText.pair (w := []) (key := key) (a := c!" ") (b := c!" ") (v := v) (d := d) (by simp) k0 k1 k2 (by decide)
      (by decide) (hv (key, v, d) (by simp) _) ⟨['\n'], kvLines es, rfl, by decide, .inr (by simp)⟩
      (KvText.space (w := ['\n']) (by decide) h), ?_⟩
    simp [kvData, e]

end

/-! ### C77 -/

theorem kv_noIndent : NoIndent kvSyntax.rules := by
  have h : kvSyntax.rules.all (fun r => r.all fun | .lines _ i _ => !i | _ => true) = true := by decide +kernel
  intro q hq r id ho
  have := Rule.all_occurs ho (List.all_eq_true.1 h q hq)
  simp at this

theorem kv_rejects {L : Lexer} (hL : L.Lawful) (hX : L.Exact) (hS : SolidAll L) (hR : ResumesAfterSpace L) (text : Str) :
    (∃ e toks, Parses L kvSyntax text [] Indent.default (.err e toks)) ↔ ¬ ∃ toks, KvText L 0 text toks := by
  refine ⟨?_, fun h => ?_⟩
  · rintro ⟨e, toks, h⟩ ⟨toks', h'⟩
    cases parses_det h ((kv_exact hL hX hS hR).2 h')
  · rcases C25_returns hL (syn := kvSyntax) (ind := Indent.default) (C25_check_sound hL _ (by decide +kernel))
      (C26_check_sound (by decide +kernel)) text (.inr kv_noIndent) [] with ⟨toks, h'⟩ | h'
    · exact absurd ⟨toks, (kv_exact hL hX hS hR).1 h'⟩ h
    · exact h'

/-- C77: the texts that the rules of examples/key_value.rs accept, with their data; all other texts are rejected. -/
theorem C77_rules {L : Lexer} (hL : L.Lawful) (hs : NoSlash L) (hN : ReadsNumbers L) (hX : L.Exact) (hS : SolidAll L)
    (hR : ResumesAfterSpace L) : ∃ syn : Syntax,
    (∀ r, SyntaxReturns L keyValueRules r ↔ r = .ok syn) ∧
    (∀ text toks, Parses L syn text [] Indent.default (.ok toks) ↔ KvText L 0 text toks) ∧
    ∀ text, (∃ e toks, Parses L syn text [] Indent.default (.err e toks)) ↔ ¬ ∃ toks, KvText L 0 text toks :=
  ⟨kvSyntax, kv_syntax hL hs hN, fun _ _ => kv_exact hL hX hS hR, kv_rejects hL hX hS hR⟩

theorem KvText.flat {L : Lexer} {off : Nat} {text : Str} {toks : List Tok} (h : KvText L off text toks) :
    ∀ t ∈ toks, t.data.isStart = false ∧ t.data.isEnd = false := by
  induction h with
  | done => simp
  | comment _ _ _ _ ih => exact ih
  | pair _ _ _ _ _ _ hv _ _ ih =>
    intro t ht
    simp only [List.mem_cons] at ht
    rcases ht with rfl | rfl | ht
    · exact ⟨rfl, rfl⟩
    · cases hv <;> exact ⟨rfl, rfl⟩
    · exact ih t ht

theorem jsonString_eq (s : Str) : writeString s = jsonString s := by
  simp [writeString, jsonString]
  congr

theorem jsonMember_eq (fmt : F64 → Str) {d : MetaData} (h : d.isStart = false ∧ d.isEnd = false) :
    writeItem fmt d = jsonMember fmt d := by
  cases d <;> simp_all [writeItem, jsonMember, jsonString_eq, MetaData.isStart, MetaData.isEnd]

theorem writeLoop_flat (fmt : F64 → Str) : ∀ {ds : List MetaData},
    (∀ d ∈ ds, d.isStart = false ∧ d.isEnd = false) →
    writeLoop fmt ds true false 0 = .ok (ds.flatMap (fun d => c!",\n" ++ jsonMember fmt d) ++ ['\n'])
  | [], _ => rfl
  | d :: ds, h => by
    have hd := h d (by simp)
    have := writeLoop_flat fmt (fun d' hd' => h d' (List.mem_cons_of_mem _ hd'))
    simp [writeLoop, hd.1, hd.2, this, jsonMember_eq fmt hd]

/-- C77: data without nodes is written as members, one on each line. -/
theorem C77_flat_json (fmt : F64 → Str) {toks : List Tok}
    (h : ∀ t ∈ toks, (∀ n, t.data ≠ .startNode n) ∧ ∀ n, t.data ≠ .endNode n) :
    writeJson fmt toks = .ok (jsonMembers fmt (toks.map (·.data))) := by
  have h' : ∀ d ∈ toks.map (·.data), d.isStart = false ∧ d.isEnd = false := by
    intro d hd
    obtain ⟨t, ht, rfl⟩ := List.mem_map.1 hd
    obtain ⟨h1, h2⟩ := h t ht
    cases e : t.data with
    | startNode n => exact absurd e (h1 n)
    | endNode n => exact absurd e (h2 n)
    | _ => exact ⟨rfl, rfl⟩
  generalize e : toks.map (·.data) = ds at h'
  have h1 : ds.countP (·.isStart) = 0 := by
    rw [List.countP_eq_zero]
    intro d hd
    simp [(h' d hd).1]
  have h2 : ds.countP (·.isEnd) = 0 := by
    rw [List.countP_eq_zero]
    intro d hd
    simp [(h' d hd).2]
  unfold writeJson
  simp only [e, h1, h2]
  cases ds with
  | nil => rfl
  | cons d ds =>
    have hd := h' d (by simp)
    have := writeLoop_flat fmt (fun d' hd' => h' d' (List.mem_cons_of_mem _ hd'))
    have hi : ∀ x : Str, List.intercalate c!",\n" (x :: ds.map (jsonMember fmt)) =
        x ++ ds.flatMap (fun d => c!",\n" ++ jsonMember fmt d) := by
      clear this h' h1 h2 e hd
      induction ds with
      | nil => simp [List.intercalate]
      | cons d' ds ih =>
        intro x
        simpa [List.intercalate] using ih (jsonMember fmt d')
    simp [writeLoop, hd.1, hd.2, this, jsonMember_eq fmt hd, jsonMembers, hi]

/-- C77: examples/key_value.rs, with its rules and any text, writes the data, or a report about the text. -/
theorem C77_key_value {L : Lexer} (hL : L.Lawful) (hs : NoSlash L) (hN : ReadsNumbers L) (hX : L.Exact) (hS : SolidAll L)
    (hR : ResumesAfterSpace L) (E : ErrText) (fmt : F64 → Str) (text : Str) :
    (∀ out, KeyValueEnds L E fmt keyValueRules text (.ok out) ↔
      ∃ toks, KvText L 0 text toks ∧ out = jsonMembers fmt (toks.map (·.data))) ∧
    ((∃ report, KeyValueEnds L E fmt keyValueRules text (.error report)) ↔ ¬ ∃ toks, KvText L 0 text toks) := by
  have hl := @C52_load L E keyValueRules text
  have hj : ∀ {toks}, KvText L 0 text toks → writeJson fmt toks = .ok (jsonMembers fmt (toks.map (·.data))) := by
    intro toks h
    refine C77_flat_json fmt fun t ht => ?_
    obtain ⟨h1, h2⟩ := KvText.flat h t ht
    exact ⟨fun n e => by simp [e, MetaData.isStart] at h1, fun n e => by simp [e, MetaData.isEnd] at h2⟩
  have hsyn := kv_syntax hL hs hN
  refine ⟨fun out => ⟨?_, ?_⟩, ?_, ?_⟩
  · rintro ⟨n, h⟩
    obtain ⟨x, h1, h2⟩ := Comp.bind_ok.1 h
    cases x with
    | error msg => cases h2
    | ok data =>
      obtain ⟨o, h3, h4⟩ := Comp.bind_ok.1 h2
      rcases hl.1 ⟨n, h1⟩ with ⟨e, msg, _, _, h⟩ | ⟨syn, h5, ⟨toks, h6, h7⟩ | ⟨e, toks, msg, _, _, h⟩⟩
      · cases h
      · cases (hsyn _).1 h5
        cases h7
        have ht := (kv_exact hL hX hS hR).1 h6
        rw [hj ht] at h3
        cases h3
        cases h4
        exact ⟨_, ht, rfl⟩
      · cases h
  · rintro ⟨toks, h, rfl⟩
    obtain ⟨n, hn⟩ := hl.2 (.inr ⟨_, (hsyn _).2 rfl, .inl ⟨toks, (kv_exact hL hX hS hR).2 h, rfl⟩⟩)
    exact ⟨n, Comp.bind_ok.2 ⟨_, hn, Comp.bind_ok.2 ⟨_, hj h, rfl⟩⟩⟩
  · rintro ⟨report, n, h⟩
    obtain ⟨x, h1, h2⟩ := Comp.bind_ok.1 h
    cases x with
    | error msg =>
      rcases hl.1 ⟨n, h1⟩ with ⟨e, msg, h5, _, h⟩ | ⟨syn, h5, ⟨toks, h6, h7⟩ | ⟨e, toks, msg, h6, _, h⟩⟩
      · cases (hsyn _).1 h5
      · cases h7
      · cases (hsyn _).1 h5
        exact (kv_rejects hL hX hS hR text).1 ⟨_, _, h6⟩
    | ok data =>
      obtain ⟨o, h3, h4⟩ := Comp.bind_ok.1 h2
      cases h4
  · intro h
    obtain ⟨e, toks, h⟩ := (kv_rejects hL hX hS hR text).2 h
    obtain ⟨msg, hm⟩ := writeErr_ok E (handlerLines text) e
    obtain ⟨n, hn⟩ := hl.2 (.inr ⟨_, (hsyn _).2 rfl, .inr ⟨e, toks, msg, h, hm, rfl⟩⟩)
    exact ⟨msg, n, Comp.bind_ok.2 ⟨_, hn, rfl⟩⟩

/-- C77: lines `key = value` are read back, whatever the keys and values, if each value is one before a new line. -/
theorem C77_reads_back {L : Lexer} (hL : L.Lawful) (hs : NoSlash L) (hN : ReadsNumbers L) (hX : L.Exact) (hS : SolidAll L)
    (hR : ResumesAfterSpace L) (E : ErrText) (fmt : F64 → Str) {es : List (Str × Str × MetaData)}
    (hk : ∀ e ∈ es, KeyOk e.1) (hv : ∀ e ∈ es, ∀ rest, KvValue L e.2.1 ('\n' :: rest) e.2.2) :
    KeyValueEnds L E fmt keyValueRules (kvLines es) (.ok (jsonMembers fmt (kvData es))) := by
  obtain ⟨toks, h, e⟩ := kv_lines_text (L := L) 0 hk hv
  exact ((C77_key_value hL hs hN hX hS hR E fmt _).1 _).2 ⟨toks, h, by rw [e]⟩

/-- C77: a value that begins with a number, `true`, `false` or a quoted string and goes on is not read as a
word: the text is rejected, whatever follows. -/
theorem C77_no_fallback {L : Lexer} (hL : L.Lawful) (hs : NoSlash L) (hN : ReadsNumbers L) (hX : L.Exact) (hS : SolidAll L)
    (hR : ResumesAfterSpace L) (E : ErrText) (fmt : F64 → Str) {w key a b v rest : Str} {d : MetaData}
    (hw : ∀ c ∈ w, isWs c = true) (hk : KeyOk key) (ha : ∀ c ∈ a, isWs c = true) (hb : ∀ c ∈ b, isWs c = true)
    (hv : KvValue L v rest d) (hr : ¬ EndsLine rest) :
    ∃ report, KeyValueEnds L E fmt keyValueRules (w ++ (key ++ (a ++ ('=' :: (b ++ (v ++ rest)))))) (.error report) :=
  (C77_key_value hL hs hN hX hS hR E fmt _).2.2 (kv_more hL hS hw hk ha hb hv hr 0)

/-! ### Cases -/

/-- The numbers of examples/key_value.rs. -/
def kvFmt (x : F64) : Str :=
  if x.bits = 0x406F400000000000 then c!"250" else if x.bits = 0x4069000000000000 then c!"200" else []

theorem toOption_ok {ε α : Type} {x : Except ε α} {a : α} (h : x.toOption = some a) : x = .ok a := by
  cases x with
  | error => cases h
  | ok b => cases h; rfl

theorem noNumber_of {L : Lexer} {s : Str} (h : L.num true s = none) : NoNumber L s := by
  intro n x h'
  rw [h] at h'
  cases h'

theorem endsLine_nl (r : Str) : EndsLine ('\n' :: r) := ⟨['\n'], r, rfl, by decide, .inr (by simp)⟩

/-- One indented line. -/
theorem kv_line {L : Lexer} {off : Nat} {key v rest : Str} {d : MetaData} {ds : List MetaData} (hk : KeyOk key)
    (hv : KvValue L v ('\n' :: rest) d)
    (h : ∀ off, ∃ ts, KvText L off ('\n' :: rest) ts ∧ ts.map (·.data) = ds) :
    ∃ ts, KvText L off (c!"\n        " ++ (key ++ (c!" " ++ ('=' :: (c!" " ++ (v ++ '\n' :: rest)))))) ts ∧
      ts.map (·.data) = .string c!"key" key :: d :: ds := by
  obtain ⟨h1, h2, h3⟩ := hk
  obtain ⟨ts, h4, h5⟩ := h _
  exact ⟨_, .pair (by decide) h1 h2 h3 (by decide) (by decide) hv (endsLine_nl _) h4, by simp [h5]⟩

/-- The data of examples/key_value.rs:7-13. -/
theorem keyValueText_reads : ∃ toks, KvText stdLexer 0 keyValueText toks ∧ toks.map (·.data) =
    [.string c!"key" c!"age", .f64 c!"number" ⟨0x406F400000000000⟩, .string c!"key" c!"strength",
     .f64 c!"number" ⟨0x4069000000000000⟩, .string c!"key" c!"name", .string c!"string" c!"Big Dragon",
     .string c!"key" c!"violent", .bool c!"bool" true] := by
  have h4 : ∀ off, ∃ ts, KvText stdLexer off c!"\n        violent = true\n    " ts ∧ ts.map (·.data) = _ := fun off =>
    kv_line (key := c!"violent") (rest := c!"    ") (by simp [KeyOk]; decide)
      (.yes (noNumber_of (by decide +kernel))) fun off => ⟨[], .done (by decide), rfl⟩
  have h3 : ∀ off, ∃ ts, KvText stdLexer off (c!"\n        name = \"Big Dragon\"" ++ _) ts ∧ ts.map (·.data) = _ := fun off =>
    kv_line (key := c!"name") (v := c!"\"Big Dragon\"") (by simp [KeyOk]; decide)
      (.string (t := c!"Big Dragon") (noNumber_of (by decide +kernel)) (by decide +kernel)
        (toOption_ok (by decide +kernel))) h4
  have h2 : ∀ off, ∃ ts, KvText stdLexer off (c!"\n        strength = 200" ++ _) ts ∧ ts.map (·.data) = _ := fun off =>
    kv_line (key := c!"strength") (v := c!"200") (by simp [KeyOk]; decide)
      (.number (x := ⟨0x4069000000000000⟩) (by decide +kernel) (toOption_ok (by decide +kernel))) h3
  have h1 : ∀ off, ∃ ts, KvText stdLexer off (c!"\n        age = 250" ++ _) ts ∧ ts.map (·.data) = _ := fun off =>
    kv_line (key := c!"age") (v := c!"250") (by simp [KeyOk]; decide)
      (.number (x := ⟨0x406F400000000000⟩) (by decide +kernel) (toOption_ok (by decide +kernel))) h2
  obtain ⟨ts, h, e⟩ := h1 _
  exact ⟨ts, .comment (w := c!"\n        ") (s := c!" A monster") (by decide) (by decide)
    (by intro c hc; cases hc; rfl) h, e⟩

/-- C77: examples/key_value.rs as it stands, with the output in its comment (lines 29-38). -/
example : KeyValueEnds stdLexer exErrText kvFmt keyValueRules keyValueText (.ok
    c!"\"key\":\"age\",\n\"number\":250,\n\"key\":\"strength\",\n\"number\":200,\n\"key\":\"name\",\n\"string\":\"Big Dragon\",\n\"key\":\"violent\",\n\"bool\":true\n") := by
  obtain ⟨toks, h, e⟩ := keyValueText_reads
  refine ((C77_key_value stdLexer_lawful stdLexer_noSlash std_readsNumbers stdLexer_exact std_solidAll
    std_resumesAfterSpace exErrText kvFmt _).1 _).2 ⟨toks, h, ?_⟩
  rw [e]
  decide +kernel

/-- C77: a date is not a value, although the last alternative reads any word. -/
example : ∃ report, KeyValueEnds stdLexer exErrText kvFmt keyValueRules c!"date = 2020-01-01" (.error report) :=
  C77_no_fallback stdLexer_lawful stdLexer_noSlash std_readsNumbers stdLexer_exact std_solidAll std_resumesAfterSpace
    exErrText kvFmt (w := []) (key := c!"date") (a := c!" ") (b := c!" ") (v := c!"2020") (rest := c!"-01-01")
    (d := .f64 c!"number" ⟨0x409F900000000000⟩) (by simp) (by simp [KeyOk]; decide) (by decide) (by decide)
    (.number (by decide +kernel) (toOption_ok (by decide +kernel))) (by
      rintro ⟨w, r, e, hw, h⟩
      cases w with
      | nil => rcases h with rfl | h <;> simp_all
      | cons x w =>
        simp at e
        have := hw x (by simp)
        rw [← e.1] at this
        exact absurd this (by decide))

/-- C77: neither is a word that begins with `true`. -/
example : ∃ report, KeyValueEnds stdLexer exErrText kvFmt keyValueRules c!"x = truest" (.error report) :=
  C77_no_fallback stdLexer_lawful stdLexer_noSlash std_readsNumbers stdLexer_exact std_solidAll std_resumesAfterSpace
    exErrText kvFmt (w := []) (key := c!"x") (a := c!" ") (b := c!" ") (v := c!"true") (rest := c!"st")
    (by simp) (by simp [KeyOk]; decide) (by decide) (by decide) (.yes (noNumber_of (by decide +kernel))) (by
      rintro ⟨w, r, e, hw, h⟩
      cases w with
      | nil => rcases h with rfl | h <;> simp_all
      | cons x w =>
        simp at e
        have := hw x (by simp)
        rw [← e.1] at this
        exact absurd this (by decide))

/-- C77: a quoted string that is not closed is read as a word. -/
example : KeyValueEnds stdLexer exErrText kvFmt keyValueRules c!"x = \"abc\n"
    (.ok c!"\"key\":\"x\",\n\"value\":\"\\\"abc\"\n") := by
  refine ((C77_key_value stdLexer_lawful stdLexer_noSlash std_readsNumbers stdLexer_exact std_solidAll
    std_resumesAfterSpace exErrText kvFmt _).1 _).2 ⟨_, KvText.pair (w := []) (key := c!"x") (a := c!" ") (b := c!" ")
      (v := c!"\"abc") (rest := c!"\n") (by simp) (by simp) (by decide) (by decide) (by decide) (by decide)
      (.word (noNumber_of (by decide +kernel)) ?_ (by decide) (by decide) (by simp) (by decide) (by decide))
      (endsLine_nl _) (.done (by decide)), ?_⟩
  · intro n t h
    have h' : stdLexer.str c!"\"abc\n" = none := by decide +kernel
    cases h'.symm.trans h
  · decide +kernel

/-- C77: values of all kinds are read back. -/
example (E : ErrText) (fmt : F64 → Str) : KeyValueEnds stdLexer E fmt keyValueRules c!"a = true\nb = false\nc = \"x\\ny\"\n"
    (.ok c!"\"key\":\"a\",\n\"bool\":true,\n\"key\":\"b\",\n\"bool\":false,\n\"key\":\"c\",\n\"string\":\"x\\ny\"\n") :=
  C77_reads_back stdLexer_lawful stdLexer_noSlash std_readsNumbers stdLexer_exact std_solidAll std_resumesAfterSpace
    E fmt (es := [(c!"a", c!"true", .bool c!"bool" true), (c!"b", c!"false", .bool c!"bool" false),
      (c!"c", c!"\"x\\ny\"", .string c!"string" c!"x\ny")]) (by simp [KeyOk]; decide) (by
    intro e he rest
    simp at he
    rcases he with rfl | rfl | rfl
    · exact .yes (noNumber_of rfl)
    · exact .no (noNumber_of rfl)
    · exact .string (noNumber_of rfl) rfl rfl)

end Verif.Props
