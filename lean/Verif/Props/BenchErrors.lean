import Verif.Props.Bench
import Verif.Props.Hello
/-
The reports of the benchmarks in benches/bench.rs: C78.
-/
namespace Verif.Props
open Verif Verif.Spec

/-! ### Greetings -/

/-- The choice between the names, optimized. -/
def greetPick (tb : Table) (names : List (Str × Str)) (tail : Bool) : Rule :=
  .fastSelect tb (greetTags 1003 names ++ if tail then
    [.select [.untilAnyOrWs c!"!" false (some c!"name") (1003 + names.length)] (greetId names tail)] else []) tail
    (greetId names tail)

/-- The rules for these names, optimized. -/
def greetFast (tb : Table) (names : List (Str × Str)) (tail : Bool) : Syntax :=
  ⟨[.sequence [.tag c!"hi" false false none 1001, .whitespace true 1002, greetPick tb names tail,
      .tag c!"!" false false none (greetId names tail + 1)] (greetId names tail + 2),
    .node c!"say_hi" none (some 0) 2001], [c!"say_hi", c!"document"]⟩

/-- The table leads to the name with this first character. -/
structure GreetTable (tb : Table) (names : List (Str × Str)) : Prop where
  hit : ∀ {i name prop c}, names[i]? = some (name, prop) → name.head? = some c →
    tb (firstByte c) ≠ 255 ∧ (tb (firstByte c)).toNat = i
  miss : ∀ {c}, (∀ x ∈ names, x.1.head? ≠ some c) → tb (firstByte c) = 255

theorem greetTags_get : ∀ {names : List (Str × Str)} {k i : Nat} {name prop : Str}, names[i]? = some (name, prop) →
    (greetTags k names)[i]? = some (.tag name false false (some prop) (k + i))
  | (a, b) :: names, k, 0, name, prop, h => by
    cases h
    rfl
  | (a, b) :: names, k, i + 1, name, prop, h => by
    simp only [greetTags, List.getElem?_cons_succ] at h ⊢
    rw [greetTags_get h, show k + 1 + i = k + (i + 1) by omega]

theorem greetArgs_get {names : List (Str × Str)} {i : Nat} {name prop : Str} (h : names[i]? = some (name, prop)) (tl : List Rule) :
    (greetTags 1003 names ++ tl)[i]? = some (.tag name false false (some prop) (1003 + i)) := by
  have := greetTags_get (k := 1003) h
  rw [List.getElem?_append_left (List.getElem?_eq_some_iff.1 this).1, this]

section
variable {L : Lexer} {tb : Table} {names : List (Str × Str)} {tail : Bool} {off : Nat}

/-- A name of the list is read. -/
theorem pick_name (ht : GreetTable tb names) {i : Nat} {name prop s : Str} (hn : names[i]? = some (name, prop))
    (h0 : name ≠ []) : Run (envOf L (greetFast tb names tail).rules Indent.default) (.rule (greetPick tb names tail))
      ⟨name ++ s, off⟩ 0 (some (name.length, [⟨⟨off, name.length⟩, .bool prop true⟩])) 0 [] := by
  cases name with
  | nil => exact absurd rfl h0
  | cons c cs =>
    obtain ⟨b, bs, hb⟩ := utf8_ne_nil c
    obtain ⟨h1, h2⟩ := ht.hit hn (c := c) rfl
    rw [firstByte_eq hb] at h1 h2
    cases tail with
    | false => exact .fast_hit rfl hb h1 (by rw [h2]; exact greetArgs_get hn _) (.tag_ok (List.prefix_append _ _))
    | true => exact .fastTail_hit rfl hb h1 (by rw [h2]; exact greetArgs_get hn _) (.tag_ok (List.prefix_append _ _))

/-- A text with no name of the list: the last alternative, after the failure of the name with the same first character. -/
theorem pick_other (ht : GreetTable tb names) {s : Str} (h0 : s ≠ []) (hn : ∀ x ∈ names, ¬ x.1 <+: s)
    {o : Outcome} {tr : List RErr} (h : Run (envOf L (greetFast tb names true).rules Indent.default)
      (.rule (.untilAnyOrWs c!"!" false (some c!"name") (1003 + names.length))) ⟨s, off⟩ 0 o 0 tr) :
    ∃ tr0, (∀ x ∈ tr0, x.range.next = off) ∧ Run (envOf L (greetFast tb names true).rules Indent.default)
      (.rule (greetPick tb names true)) ⟨s, off⟩ 0 o 0 (tr0 ++ tr) := by
  have hsel : Run (envOf L (greetFast tb names true).rules Indent.default) (.rule (.select
      [.untilAnyOrWs c!"!" false (some c!"name") (1003 + names.length)] (greetId names true))) ⟨s, off⟩ 0 o 0 tr := by
    cases o with
    | none => simpa using Run.select (id := greetId names true) (Run.sel_next h .sel_nil)
    | some x => exact .select (.sel_here h)
  cases s with
  | nil => exact absurd rfl h0
  | cons c cs =>
    obtain ⟨b, bs, hb⟩ := utf8_ne_nil c
    by_cases hc : ∀ x ∈ names, x.1.head? ≠ some c
    · refine ⟨[], by simp, .fastTail_miss rfl hb ?_ (by simp) hsel⟩
      rw [← firstByte_eq hb]
      exact ht.miss hc
    · simp only [Classical.not_forall, Classical.not_not] at hc
      obtain ⟨⟨name, prop⟩, hx, hc⟩ := hc
      obtain ⟨i, hi⟩ := List.mem_iff_getElem?.1 hx
      obtain ⟨h1, h2⟩ := ht.hit hi hc
      rw [firstByte_eq hb] at h1 h2
      refine ⟨_, ?_, .fastTail_next rfl hb h1 (by rw [h2]; exact greetArgs_get hi _) (.tag_fail (hn _ hx)) (by simp) hsel⟩
      simp [here, Range.next]

/-- After `hi` and space. -/
theorem greet_after {w rest : Str} (hw : ∀ c ∈ w, isWs c = true) (hr : ∀ c, rest.head? = some c → isWs c = false)
    {o : Outcome} {tr : List RErr} (h : Run (envOf L (greetFast tb names tail).rules Indent.default)
      (.seq [greetPick tb names tail, .tag c!"!" false false none (greetId names tail + 1)]) ⟨rest, 2 + w.length⟩ 0 o 0 tr) :
    Run (envOf L (greetFast tb names tail).rules Indent.default) (.rule (.node c!"say_hi" none (some 0) 2001))
      ⟨c!"hi" ++ (w ++ rest), 0⟩ 0 (before (2 + w.length) [] o) 0 tr := by
  have key : Run (envOf L (greetFast tb names tail).rules Indent.default) (.rule (greetFast tb names tail).rules[0]!)
      ⟨c!"hi" ++ (w ++ rest), 0⟩ 0 (before 2 [] (before w.length [] o)) 0 tr := by
    refine .sequence (.seq_cons (n := 2) (ts := []) (j := 0) (tr := []) (tr' := tr) (.tag_ok (List.prefix_append _ _))
      (.seq_cons (n := w.length) (ts := []) (j := 0) (tr := []) (tr' := tr) (.ws_ok ?_ (fun _ => rfl)) ?_))
    · simp only [adv, List.drop_succ_cons, List.cons_append, List.nil_append, List.drop_zero]
      refine ⟨by simp, by simpa using hw, fun c hc => ?_⟩
      simp at hc
      simp [hr c hc]
    · have : adv (adv ⟨c!"hi" ++ (w ++ rest), 0⟩ 2) w.length = ⟨rest, 2 + w.length⟩ := by simp [adv]
      rw [this]
      exact h
  cases o with
  | none => exact .node_fail rfl key
  | some x =>
    obtain ⟨n, ts⟩ := x
    have := Run.node_ok (E := envOf L (greetFast tb names tail).rules Indent.default) (name := c!"say_hi") (prop := none)
      (ix := 0) (id := 2001) rfl key
    simpa [before, wrapped, Nat.add_assoc] using this

/-- It fails after `hi` and space. -/
theorem greet_rejects {w rest : Str} (hw : ∀ c ∈ w, isWs c = true) (hr : ∀ c, rest.head? = some c → isWs c = false)
    {tr : List RErr} {e : RErr} (h : Run (envOf L (greetFast tb names tail).rules Indent.default)
      (.seq [greetPick tb names tail, .tag c!"!" false false none (greetId names tail + 1)]) ⟨rest, 2 + w.length⟩ 0 none 0 tr)
    (he : Reported tr e) :
    ∃ toks, Parses L (greetFast tb names tail) (c!"hi" ++ (w ++ rest)) [] Indent.default (.err e toks) :=
  parses_err_run.2 ⟨_, .fails rfl (greet_after hw hr h), he⟩

/-- It stops before the end of the text. -/
theorem greet_short {w rest : Str} (hw : ∀ c ∈ w, isWs c = true) (hr : ∀ c, rest.head? = some c → isWs c = false)
    {tr : List RErr} {n : Nat} {ts : List Tok} (h : Run (envOf L (greetFast tb names tail).rules Indent.default)
      (.seq [greetPick tb names tail, .tag c!"!" false false none (greetId names tail + 1)]) ⟨rest, 2 + w.length⟩ 0
        (some (n, ts)) 0 tr)
    (hn : n < rest.length) (he : ∀ x ∈ tr, x.range.next ≤ 2 + w.length + n) :
    ∃ toks, Parses L (greetFast tb names tail) (c!"hi" ++ (w ++ rest)) [] Indent.default
      (.err ⟨⟨2 + w.length + n, 0⟩, .expectedEnd⟩ toks) :=
  parses_err_run.2 ⟨_, .short rfl (greet_after hw hr h) (by simp; omega), tr, [], rfl, he, by simp⟩

/-- Something is read, and what follows is not `!`. -/
theorem mark_missing {v s : Str} {ts : List Tok} {tr : List RErr} (h : Run (envOf L (greetFast tb names tail).rules Indent.default)
      (.rule (greetPick tb names tail)) ⟨v ++ s, off⟩ 0 (some (v.length, ts)) 0 tr) (hs : s.head? ≠ some '!') :
    Run (envOf L (greetFast tb names tail).rules Indent.default) (.seq [greetPick tb names tail,
      .tag c!"!" false false none (greetId names tail + 1)]) ⟨v ++ s, off⟩ 0 none 0
      (tr ++ [⟨⟨off + v.length, 0⟩, .expectedTag c!"!" (greetId names tail + 1)⟩]) := by
  refine .seq_cons (o := none) h (.seq_fail ?_)
  rw [adv_left]
  refine .tag_fail (p := ⟨s, off + v.length⟩) ?_
  rintro ⟨r, rfl⟩
  exact hs rfl

/-- Something is read, and what follows is `!`. -/
theorem mark_read {v s : Str} {ts : List Tok} {tr : List RErr} (h : Run (envOf L (greetFast tb names tail).rules Indent.default)
      (.rule (greetPick tb names tail)) ⟨v ++ '!' :: s, off⟩ 0 (some (v.length, ts)) 0 tr) :
    Run (envOf L (greetFast tb names tail).rules Indent.default) (.seq [greetPick tb names tail,
      .tag c!"!" false false none (greetId names tail + 1)]) ⟨v ++ '!' :: s, off⟩ 0 (some (v.length + 1, ts)) 0 tr := by
  have := Run.seq_cons (o := some (1, [])) h (rs := [.tag c!"!" false false none (greetId names tail + 1)]) (k := 0) (tr' := []) (by
    rw [adv_left]
    exact .seq_cons (n := 1) (ts := []) (tr := []) (tr' := []) (o := some (0, [])) (.tag_ok (t := c!"!") (List.prefix_append c!"!" _)) .seq_nil)
  simpa [before] using this

theorem word_head {v s : Str} (h0 : v ≠ []) (hv : ∀ c ∈ v, isWs c = false) : ∀ c, (v ++ s).head? = some c → isWs c = false := by
  intro c hc
  cases v with
  | nil => exact absurd rfl h0
  | cons x xs =>
    cases hc
    exact hv _ (by simp)

theorem reported_last {tr : List RErr} {e : RErr} (h : ∀ x ∈ tr, x.range.next ≤ e.range.next) : Reported (tr ++ [e]) e :=
  ⟨tr, [], rfl, h, by simp⟩

/-- `otherNoMark` and `otherMore`: the word is read. -/
theorem other_read (ht : GreetTable tb names) {v s : Str} (h0 : v ≠ []) (hv : ∀ c ∈ v, c ≠ '!' ∧ isWs c = false)
    (hn : ∀ x ∈ names, ¬ x.1 <+: v ++ s) (hs : ∀ c, s.head? = some c → c = '!' ∨ isWs c = true) :
    ∃ tr0, (∀ x ∈ tr0, x.range.next = off) ∧ Run (envOf L (greetFast tb names true).rules Indent.default)
      (.rule (greetPick tb names true)) ⟨v ++ s, off⟩ 0 (some (v.length, [⟨⟨off, v.length⟩, .string c!"name" v⟩])) 0 tr0 := by
  have h1 := Run.untilWs_ok (E := envOf L (greetFast tb names true).rules Indent.default) (any := c!"!") (opt := false)
    (prop := some c!"name") (id := 1003 + names.length) (p := ⟨v ++ s, off⟩) (i := 0) (n := v.length)
    (Boot.longest_append (fun c hc => by simpa using hv c hc) (fun c hc => by
      rcases hs c hc with rfl | h
      · simp
      · simp [h]))
    (fun e => absurd (List.length_eq_zero_iff.1 e) h0)
  obtain ⟨tr0, h2, h3⟩ := pick_other ht (by simp [h0]) hn h1
  exact ⟨tr0, h2, by simpa [named] using h3⟩

theorem greet_wrong (ht : GreetTable tb names) (hwords : ∀ x ∈ names, Word x.1)
    (hmark : ∀ x ∈ names, x.1.head? ≠ some '!') {text : Str} {e : RErr} (h : GreetWrong names tail text e) :
    ∃ toks, Parses L (greetFast tb names tail) text [] Indent.default (.err e toks) := by
  cases h with
  | noHi h =>
    exact parses_err_run.2 ⟨_, .fails rfl (.node_fail rfl (.sequence (.seq_fail (.tag_fail h)))), [], [], rfl, by simp, by simp⟩
  | @nothing w hw =>
    have := greet_rejects (L := L) (tb := tb) (names := names) (tail := tail) hw (rest := []) (by simp)
      (.seq_fail (.fast_end rfl)) (reported_last (tr := []) (by simp))
    simpa using this
  | @noName w c s hw htl hc hn =>
    subst htl
    obtain ⟨b, bs, hb⟩ := utf8_ne_nil c
    exact greet_rejects hw (by simp [hc])
      (.seq_fail (.fast_miss rfl hb (by rw [← firstByte_eq hb]; exact ht.miss hn))) (reported_last (tr := []) (by simp))
  | @notName w i name prop s hw htl hn h hs =>
    subst htl
    have hmem := List.mem_of_getElem? hn
    cases name with
    | nil => exact absurd rfl (hwords _ hmem).1
    | cons c cs =>
      cases s with
      | nil => cases h
      | cons d ds =>
        cases h
        obtain ⟨b, bs, hb⟩ := utf8_ne_nil c
        obtain ⟨h1, h2⟩ := ht.hit hn (c := c) rfl
        rw [firstByte_eq hb] at h1 h2
        exact greet_rejects hw (by simp [(hwords _ hmem).2 c (by simp)])
          (.seq_fail (.fast_hit rfl hb h1 (by rw [h2]; exact greetArgs_get hn _) (.tag_fail hs))) (reported_last (tr := []) (by simp))
  | @noMark w name prop s hw hn h =>
    obtain ⟨i, hi⟩ := List.mem_iff_getElem?.1 hn
    have hword := hwords _ hn
    exact greet_rejects hw (word_head hword.1 hword.2) (mark_missing (pick_name ht hi hword.1) h) (reported_last (by simp))
  | @more w name prop s hw hn h =>
    obtain ⟨i, hi⟩ := List.mem_iff_getElem?.1 hn
    have hword := hwords _ hn
    have : 0 < s.length := List.length_pos_iff.2 h
    exact greet_short hw (word_head hword.1 hword.2) (mark_read (pick_name ht hi hword.1)) (by simp; omega) (by simp)
  | @emptyName w s hw htl =>
    subst htl
    obtain ⟨tr0, h1, h2⟩ := pick_other (L := L) (off := 2 + w.length) ht (s := '!' :: s) (by simp) (fun x hx hp => by
        have h1 := hmark x hx
        have h2 := (hwords x hx).1
        cases hx1 : x.1 with
        | nil => exact h2 hx1
        | cons c cs =>
          rw [hx1] at hp h1
          obtain ⟨r, hr⟩ := hp
          simp at hr
          exact h1 (by simp [hr.1]))
      (.untilWs_fail ⟨by simp, by simp, by simp⟩)
    refine greet_rejects hw (by simp; decide) (.seq_fail h2) (reported_last fun x hx => ?_)
    exact Nat.le_of_eq (h1 x hx)
  | @otherNoMark w v s hw htl h0 hv hn h =>
    subst htl
    obtain ⟨tr0, h1, h2⟩ := other_read (L := L) (off := 2 + w.length) ht h0 hv hn (fun c hc => .inr (h c hc))
    refine greet_rejects hw (word_head h0 fun c hc => (hv c hc).2) (mark_missing h2 ?_) (reported_last fun x hx => ?_)
    · intro he
      exact absurd (h _ he) (by decide)
    · exact Nat.le_trans (Nat.le_of_eq (h1 x hx)) (by simp [Range.next])
  | @otherMore w v s hw htl h0 hv hn h =>
    subst htl
    obtain ⟨tr0, h1, h2⟩ := other_read (L := L) (off := 2 + w.length) ht h0 hv hn (fun c hc => .inl (by cases hc; rfl))
    have : 0 < s.length := List.length_pos_iff.2 h
    refine greet_short hw (word_head h0 fun c hc => (hv c hc).2) (mark_read h2) (by simp; omega) (fun x hx => ?_)
    rw [h1 x hx]
    omega

end

theorem first_match {α : Type} {P : α → Prop} : ∀ {xs : List α} {x : α}, x ∈ xs → P x →
    ∃ pre y post, xs = pre ++ y :: post ∧ P y ∧ ∀ z ∈ pre, ¬ P z
  | a :: xs, x, hx, h => by
    by_cases ha : P a
    · exact ⟨[], a, xs, rfl, ha, by simp⟩
    · rcases List.mem_cons.1 hx with rfl | hx
      · exact absurd h ha
      · obtain ⟨pre, y, post, rfl, h1, h2⟩ := first_match hx h
        refine ⟨a :: pre, y, post, rfl, h1, fun z hz => ?_⟩
        rcases List.mem_cons.1 hz with rfl | hz
        · exact ha
        · exact h2 z hz

/-- Every text is a greeting, or there is something wrong with it. -/
theorem greet_total {names : List (Str × Str)}
    (hbang : ∀ x ∈ names, '!' ∉ x.1) (hpre : ∀ x ∈ names, ∀ y ∈ names, x.1 <+: y.1 → x = y)
    (tail : Bool) (text : Str) : (∃ data, GreetText names tail text data) ∨ ∃ e, GreetWrong names tail text e := by
  by_cases h : c!"hi" <+: text
  · obtain ⟨t, rfl⟩ := h
    obtain ⟨w, s, rfl, hw, hs⟩ := ws_split t
    cases s with
    | nil => exact .inr ⟨_, by simpa using GreetWrong.nothing hw⟩
    | cons c cs =>
      have hc := hs c rfl
      by_cases hp : ∃ x ∈ names, x.1 <+: c :: cs
      · obtain ⟨⟨name, prop⟩, hx, s, he⟩ := hp
        simp only at he
        rw [← he]
        by_cases hm : s.head? = some '!'
        · cases s with
          | nil => cases hm
          | cons d s =>
            cases hm
            by_cases h0 : s = []
            · subst h0
              obtain ⟨pre, ⟨name', prop'⟩, post, h1, h2, h3⟩ := first_match (P := fun x : Str × Str => x.1 <+: name ++ c!"!")
                hx (List.prefix_append _ _)
              have hx' : (name', prop') ∈ names := by simp [h1]
              have hle : name' <+: name := by
                rcases List.prefix_concat_iff.1 h2 with h | h
                · exact absurd (show '!' ∈ name' by rw [show name' = name ++ c!"!" from h]; simp) (hbang _ hx')
                · exact h
              cases hpre _ hx' _ hx hle
              exact .inl ⟨_, .name hw h1 h3⟩
            · exact .inr ⟨_, .more hw hx h0⟩
        · exact .inr ⟨_, .noMark hw hx hm⟩
      · have hno : ∀ x ∈ names, ¬ x.1 <+: c :: cs := fun x hx h => hp ⟨x, hx, h⟩
        cases tail with
        | false =>
          by_cases hh : ∀ x ∈ names, x.1.head? ≠ some c
          · exact .inr ⟨_, .noName hw rfl hc hh⟩
          · simp only [Classical.not_forall, Classical.not_not] at hh
            obtain ⟨⟨name, prop⟩, hx, hh⟩ := hh
            obtain ⟨i, hi⟩ := List.mem_iff_getElem?.1 hx
            exact .inr ⟨_, .notName hw rfl hi hh.symm (hno _ hx)⟩
        | true =>
          by_cases hm : c = '!'
          · subst hm
            exact .inr ⟨_, .emptyName hw rfl⟩
          · have h1 := List.takeWhile_append_dropWhile (p := fun c => c != '!' && !isWs c) (l := c :: cs)
            have h2 : ∀ d ∈ (c :: cs).takeWhile (fun c => c != '!' && !isWs c), d ≠ '!' ∧ isWs d = false := fun d hd => by
              simpa using List.all_eq_true.1 (List.all_takeWhile (p := fun c => c != '!' && !isWs c) (l := c :: cs)) d hd
            have h3 : (c :: cs).takeWhile (fun c => c != '!' && !isWs c) ≠ [] := by simp [hm, hc]
            have h4 : ∀ d, ((c :: cs).dropWhile (fun c => c != '!' && !isWs c)).head? = some d → d = '!' ∨ isWs d = true := by
              intro d hd
              have := List.head?_dropWhile_not (fun c => c != '!' && !isWs c) (c :: cs)
              rw [hd] at this
              by_cases hd1 : d = '!'
              · exact .inl hd1
              · right
                simpa [hd1] using this
            generalize (c :: cs).takeWhile (fun c => c != '!' && !isWs c) = v at *
            generalize (c :: cs).dropWhile (fun c => c != '!' && !isWs c) = s at *
            rw [← h1] at hno ⊢
            cases s with
            | nil => exact .inr ⟨_, .otherNoMark hw rfl h3 h2 hno (by simp)⟩
            | cons d s =>
              rcases h4 d rfl with rfl | h4
              · by_cases h0 : s = []
                · subst h0
                  exact .inl ⟨_, .other hw rfl h3 h2 hno⟩
                · exact .inr ⟨_, .otherMore hw rfl h3 h2 hno h0⟩
              · exact .inr ⟨_, .otherNoMark hw rfl h3 h2 hno (by simp [h4])⟩
  · exact .inr ⟨_, .noHi h⟩

/-- The table for these names. -/
def greetTable : Nat → Table → List (Str × Str) → Table
  | _, tb, [] => tb
  | k, tb, (name, _) :: names => greetTable (k + 1) (match name with | [] => tb | c :: _ => tb.set (firstByte c) (UInt8.ofNat k)) names

def benchTable (k : Nat) : Table := greetTable 0 (fun _ => 255) (benchNames.take k)

theorem bench_fast_2 : Optimizes (greetSyntax (benchNames.take 2) false) (greetFast (benchTable 2) (benchNames.take 2) false) := ⟨10, rfl⟩
theorem bench_fast_3 : Optimizes (greetSyntax (benchNames.take 3) false) (greetFast (benchTable 3) (benchNames.take 3) false) := ⟨10, rfl⟩
theorem bench_fast_5 : Optimizes (greetSyntax benchNames false) (greetFast (benchTable 5) benchNames false) := ⟨10, rfl⟩
theorem bench_fast_tail : Optimizes (greetSyntax benchNames true) (greetFast (benchTable 5) benchNames true) := ⟨10, rfl⟩

/-- The first characters of the names. -/
theorem benchTable_ok {k : Nat} (hk : k = 2 ∨ k = 3 ∨ k = 5) : GreetTable (benchTable k) (benchNames.take k) := by
  constructor
  · intro i name prop c hn hc
    rcases hk with rfl | rfl | rfl
    · match i, hn with
      | 0, hn => cases hn; cases hc; decide
      | 1, hn => cases hn; cases hc; decide
    · match i, hn with
      | 0, hn => cases hn; cases hc; decide
      | 1, hn => cases hn; cases hc; decide
      | 2, hn => cases hn; cases hc; decide
    · match i, hn with
      | 0, hn => cases hn; cases hc; decide
      | 1, hn => cases hn; cases hc; decide
      | 2, hn => cases hn; cases hc; decide
      | 3, hn => cases hn; cases hc; decide
      | 4, hn => cases hn; cases hc; decide
  · intro c hc
    have ne : ∀ (d : Char) (m : Nat), m < 128 → d = Char.ofNat m → firstByte d = UInt8.ofNat m → c ≠ d →
        firstByte c ≠ firstByte d := fun d m hm hd hf hcd h => hcd ((firstByte_ascii hm (h.trans hf)).trans hd.symm)
    have hJ := ne 'J' 74 (by decide) rfl rfl
    have hP := ne 'P' 80 (by decide) rfl rfl
    have hC := ne 'C' 67 (by decide) rfl rfl
    have hN := ne 'N' 78 (by decide) rfl rfl
    have hM := ne 'M' 77 (by decide) rfl rfl
    rcases hk with rfl | rfl | rfl <;>
    · simp [benchNames, eq_comm] at hc
      simp_all [benchTable, benchNames, greetTable, Table.set]

theorem bench_reports {L : Lexer} (hL : L.Lawful) (hs : NoSlash L) {rules : Str} {ns : List (F64 × Str × Desc)}
    {names : List (Str × Str)} {tail : Bool} {tb : Table} (htext : Doc.Text L ⟨[], ns⟩ rules)
    (hread : (Doc.read [] ns).1.map syntaxOf = some (greetSyntax names tail)) (hsmall : ¬ Doc.Overflows ⟨[], ns⟩)
    (hw : wellFormed (greetSyntax names tail).rules = true) (hok : SyntaxOk (greetSyntax names tail))
    (ho : Optimizes (greetSyntax names tail) (greetFast tb names tail)) (ht : GreetTable tb names)
    (hsub : ∀ x ∈ names, x ∈ benchNames) (E : ErrText) {text : Str}
    (hgreet : ∀ data, BenchEnds L E rules text (.ok data) ↔ GreetText names tail text data) (msg : Str) :
    BenchEnds L E rules text (.error msg) ↔ ∃ e, GreetWrong names tail text e ∧ reportErr E text e = .ok msg := by
  obtain ⟨syn', ho', h⟩ := syntax_unoptimized hL hs htext hsmall hread hw hok
  cases C31_deterministic ho' ho
  have hwords : ∀ x ∈ names, Word x.1 := fun x hx => bench_words x (hsub x hx)
  have hbang : ∀ x ∈ names, '!' ∉ x.1 := fun x hx => (by decide : ∀ x ∈ benchNames, '!' ∉ x.1) x (hsub x hx)
  have hmark : ∀ x ∈ names, x.1.head? ≠ some '!' := fun x hx h => hbang x hx (List.mem_of_mem_head? h)
  have hpre : ∀ x ∈ names, ∀ y ∈ names, x.1 <+: y.1 → x = y := fun x hx y hy =>
    (by decide : ∀ x ∈ benchNames, ∀ y ∈ benchNames, x.1 <+: y.1 → x = y) x (hsub x hx) y (hsub y hy)
  obtain ⟨h1, h2⟩ := bench_ends (E := E) (text := text) h
  rw [h2]
  constructor
  · rintro ⟨e, toks, h3, h4⟩
    rcases greet_total hbang hpre tail text with ⟨data, hd⟩ | ⟨e', he⟩
    · cases parses_det h3 ((h1 data).1 ((hgreet data).2 hd))
    · obtain ⟨toks', h5⟩ := greet_wrong (L := L) ht hwords hmark he
      cases parses_det h3 h5
      exact ⟨e, he, h4⟩
  · rintro ⟨e, he, h4⟩
    obtain ⟨toks', h5⟩ := greet_wrong (L := L) ht hwords hmark he
    exact ⟨e, toks', h5, h4⟩

/-- C78: the report for a text that is not a greeting. -/
theorem C78_greeting_reports {L : Lexer} (hL : L.Lawful) (hs : NoSlash L) (hN : ReadsNumbers L) (E : ErrText) (text msg : Str) :
    ∀ b ∈ greetBenches, BenchEnds L E b.1 text (.error msg) ↔
      ∃ e, GreetWrong b.2.1 b.2.2 text e ∧ reportErr E text e = .ok msg := by
  intro b hb
  have hg := (C78_greetings hL hs hN E text b hb).1
  simp only [greetBenches, List.mem_cons, List.not_mem_nil, or_false] at hb
  rcases hb with rfl | rfl | rfl | rfl | rfl
  · exact bench_reports hL hs (eatDoc_text hL hN (by decide +kernel)) bench_hello_read (by decide +kernel) (by decide +kernel)
      (C26_check_sound (by decide +kernel)) bench_fast_2 (benchTable_ok (.inl rfl)) (fun _ h => List.mem_of_mem_take h) E hg msg
  · exact bench_reports hL hs (eatDoc_text hL hN (by decide +kernel)) bench_hello_read (by decide +kernel) (by decide +kernel)
      (C26_check_sound (by decide +kernel)) bench_fast_2 (benchTable_ok (.inl rfl)) (fun _ h => List.mem_of_mem_take h) E hg msg
  · exact bench_reports hL hs (eatDoc_text hL hN (by decide +kernel)) bench_3_read (by decide +kernel) (by decide +kernel)
      (C26_check_sound (by decide +kernel)) bench_fast_3 (benchTable_ok (.inr (.inl rfl))) (fun _ h => List.mem_of_mem_take h) E hg msg
  · exact bench_reports hL hs (eatDoc_text hL hN (by decide +kernel)) bench_5_read (by decide +kernel) (by decide +kernel)
      (C26_check_sound (by decide +kernel)) bench_fast_5 (benchTable_ok (.inr (.inr rfl))) (fun _ h => h) E hg msg
  · exact bench_reports hL hs (eatDoc_text hL hN (by decide +kernel)) bench_tail_read (by decide +kernel) (by decide +kernel)
      (C26_check_sound (by decide +kernel)) bench_fast_tail (benchTable_ok (.inr (.inr rfl))) (fun _ h => h) E hg msg

/-- With the rules of `bench_select_tail`: after `Peter` a `!` is expected, also after `Pet` and space; `!` is no name. -/
example : GreetWrong benchNames true c!"hi Peters!" ⟨⟨8, 0⟩, .expectedTag c!"!" 1010⟩ ∧
    GreetWrong benchNames true c!"hi Pet !" ⟨⟨6, 0⟩, .expectedTag c!"!" 1010⟩ ∧
    GreetWrong benchNames true c!"hi !" ⟨⟨3, 0⟩, .expectedSomething 1008⟩ ∧
    GreetWrong benchNames false c!"hi Pete!" ⟨⟨3, 0⟩, .expectedTag c!"Peter" 1004⟩ :=
  ⟨.noMark (w := c!" ") (name := c!"Peter") (prop := c!"peter") (s := c!"s!") (by decide) (by decide) (by decide),
    .otherNoMark (w := c!" ") (v := c!"Pet") (s := c!" !") (by decide) rfl (by decide) (by decide) (by decide) (by decide),
    .emptyName (w := c!" ") (s := []) (by decide) rfl,
    .notName (w := c!" ") (i := 1) (name := c!"Peter") (prop := c!"peter") (s := c!"Pete!") (by decide) rfl rfl rfl (by decide)⟩

/-! ### Deep recursion -/

section
variable {L : Lexer} {ind : Indent} {off i : Nat}

/-- A word is read. -/
theorem deep_word_run {v s : Str} (hv : Word v) (hs : ∀ c, s.head? = some c → isWs c = true) :
    Run (envOf L deepSyntax.rules ind) (.rule (.untilAnyOrWs c!" " false (some c!"foo") 1001)) ⟨v ++ s, off⟩ i
      (some (v.length, [⟨⟨off, v.length⟩, .string c!"foo" v⟩])) i [] := by
  have h := Run.untilWs_ok (E := envOf L deepSyntax.rules ind) (any := c!" ") (opt := false)
    (prop := some c!"foo") (id := 1001) (p := ⟨v ++ s, off⟩) (i := i) (n := v.length)
    (Boot.longest_append (fun c hc => ⟨by
      have := hv.2 c hc
      simp
      rintro rfl
      exact absurd this (by decide), hv.2 c hc⟩) (fun c hc => by simp [hs c hc]))
    (fun e => absurd (List.length_eq_zero_iff.1 e) hv.1)
  simpa [named] using h

/-- A word and space are read, and then there is a choice. -/
theorem deep_choice {v w rest : Str} (hv : Word v) (hw : Gap w) (hr : ∀ c, rest.head? = some c → isWs c = false)
    {o : Outcome} {tr : List RErr} (h : Run (envOf L deepSyntax.rules ind)
      (.sel [.tag c!"foo" false false none 1003, .node c!"foo" none (some 0) 1004]) ⟨rest, off + (v.length + w.length)⟩ i o i tr)
    (id : DebugId) : ∃ o', (o = none → o' = none) ∧ (∀ n ts, o = some (n, ts) → ∃ ts', o' = some (v.length + (w.length + n), ts')) ∧
      Run (envOf L deepSyntax.rules ind) (.rule (.node c!"foo" none (some 0) id)) ⟨v ++ (w ++ rest), off⟩ i o' i tr := by
  have h1 := deep_word_run (L := L) (ind := ind) (off := off) (i := i) hv (s := w ++ rest) (fun c hc => by
    obtain ⟨x, xs, rfl⟩ : ∃ x xs, w = x :: xs := List.exists_cons_of_ne_nil hw.1
    cases hc
    exact hw.2 _ (by simp))
  have h2 := Run.ws_ok (E := envOf L deepSyntax.rules ind) (opt := false) (id := 1002) (p := ⟨w ++ rest, off + v.length⟩)
    (i := i) (n := w.length) (Boot.longest_append hw.2 (fun y hy => by simp [hr y hy]))
    (fun e => absurd (List.length_eq_zero_iff.1 e) hw.1)
  have h3 : Run (envOf L deepSyntax.rules ind) (.rule (.select
      [.tag c!"foo" false false none 1003, .node c!"foo" none (some 0) 1004] 1005)) (adv (adv ⟨v ++ (w ++ rest), off⟩ v.length) w.length) i o i tr := by
    rw [adv_left, adv_left, Nat.add_assoc]
    exact .select h
  have h2' : Run (envOf L deepSyntax.rules ind) (.rule (.whitespace false 1002)) (adv ⟨v ++ (w ++ rest), off⟩ v.length) i
      (some (w.length, [])) i [] := by
    rw [adv_left]
    exact h2
  cases o with
  | none =>
    exact ⟨none, fun _ => rfl, by simp, .node_fail rfl (.sequence (.seq_cons (tr := []) (o := none) h1
      (.seq_cons (tr := []) (o := none) h2' (.seq_fail h3))))⟩
  | some x =>
    obtain ⟨n, ts⟩ := x
    have h4 := Run.seq_cons h3 Run.seq_nil
    have h5 := Run.node_ok (E := envOf L deepSyntax.rules ind) (name := c!"foo") (prop := none) (id := id) (ix := 0) rfl
      (Run.sequence (id := 1006) (Run.seq_cons h1 (Run.seq_cons h2' h4)))
    refine ⟨some (v.length + (w.length + n), _), by simp, ?_, by simpa [wrapped] using h5⟩
    rintro n' ts' he
    cases he
    exact ⟨_, rfl⟩

/-- It fails with this error, or stops before the end of the text and this is the error of that. -/
def DeepRejects (L : Lexer) (ind : Indent) (i off : Nat) (text : Str) (e : RErr) : Prop :=
  ∀ id : DebugId, ∃ tr, (Run (envOf L deepSyntax.rules ind) (.rule (.node c!"foo" none (some 0) id)) ⟨text, off⟩ i none i tr ∧
      Reported tr e ∧ off ≤ e.range.next) ∨
    ∃ n ts, Run (envOf L deepSyntax.rules ind) (.rule (.node c!"foo" none (some 0) id)) ⟨text, off⟩ i (some (n, ts)) i tr ∧
      n < text.length ∧ e = ⟨⟨off + n, 0⟩, .expectedEnd⟩ ∧ ∀ x ∈ tr, x.range.next ≤ off + n

theorem deep_wrong {text : Str} {e : RErr} (h : DeepWrong off text e) : DeepRejects L ind i off text e := by
  induction h with
  | @noWord off s h =>
    intro id
    refine ⟨_, .inl ⟨.node_fail rfl (.sequence (.seq_fail (.untilWs_fail ⟨by simp, by simp, fun c hc => ?_⟩))),
      reported_last (tr := []) (by simp), by simp [Range.next]⟩⟩
    simp [h c (by simpa using hc)]
  | @noGap off word h =>
    intro id
    have h1 := deep_word_run (L := L) (ind := ind) (off := off) (i := i) h (s := []) (by simp)
    rw [List.append_nil] at h1
    refine ⟨_, .inl ⟨.node_fail rfl (.sequence (.seq_cons (tr := []) (o := none) h1 (.seq_fail (.ws_fail ?_)))),
      reported_last (tr := []) (by simp), by simp [Range.next]⟩⟩
    simp [adv, Longest]
  | @after off word w s h hw hs =>
    intro id
    obtain ⟨o', -, h2, h3⟩ := deep_choice (L := L) (ind := ind) (off := off) (i := i) h hw (rest := c!"foo" ++ s)
      (fun c hc => by cases hc; decide) (.sel_here (.tag_ok (t := c!"foo") (List.prefix_append _ _))) id
    obtain ⟨ts', rfl⟩ := h2 _ _ rfl
    have : 0 < s.length := List.length_pos_iff.2 hs
    exact ⟨_, .inr ⟨_, ts', h3, by simp; omega, rfl, by simp⟩⟩
  | @next off word w rest e h hw hf hr he ih =>
    intro id
    obtain ⟨tr, ⟨h1, h2, h3⟩ | ⟨n, ts, h1, h2, rfl, h4⟩⟩ := ih 1004
    · obtain ⟨o', h5, -, h6⟩ := deep_choice (L := L) (ind := ind) (off := off) (i := i) h hw hr
        (.sel_next (.tag_fail hf) (.sel_next h1 .sel_nil)) id
      cases h5 rfl
      refine ⟨_, .inl ⟨h6, ?_, by omega⟩⟩
      obtain ⟨a, b, rfl, ha, hb⟩ := h2
      refine ⟨⟨⟨off + (word.length + w.length), 0⟩, .expectedTag c!"foo" 1003⟩ :: a, b, by simp [here], ?_, hb⟩
      intro x hx
      rcases List.mem_cons.1 hx with rfl | hx
      · exact h3
      · exact ha x hx
    · obtain ⟨o', -, h5, h6⟩ := deep_choice (L := L) (ind := ind) (off := off) (i := i) h hw hr
        (.sel_next (.tag_fail hf) (.sel_here h1)) id
      obtain ⟨ts', rfl⟩ := h5 _ _ rfl
      refine ⟨_, .inr ⟨_, ts', h6, by simp; omega, by simp [Nat.add_assoc], ?_⟩⟩
      intro x hx
      rcases List.mem_append.1 hx with hx | hx
      · simp [here] at hx
        subst hx
        simp [Range.next]
      · have := h4 x hx
        omega

theorem deep_wrong_parses {text : Str} {e : RErr} (h : DeepWrong 0 text e) :
    ∃ toks, Parses L deepSyntax text [] ind (.err e toks) := by
  obtain ⟨tr, ⟨h1, h2, -⟩ | ⟨n, ts, h1, h2, rfl, h4⟩⟩ := deep_wrong (L := L) (ind := ind) (i := ind.indent) h 2001
  · exact parses_err_run.2 ⟨_, .fails rfl h1, h2⟩
  · rw [Nat.zero_add] at h4 ⊢
    exact parses_err_run.2 ⟨_, .short rfl h1 h2, reported_last h4⟩

end

/-- Every text is accepted, or there is something wrong with it. -/
theorem deep_total {m : Nat} : ∀ {text : Str} (off : Nat), text.length < m →
    (∃ k ts, DeepText k off text ts) ∨ ∃ e, DeepWrong off text e := by
  induction m with
  | zero =>
    intros
    omega
  | succ m ih =>
    intro text off hm
    have h1 := List.takeWhile_append_dropWhile (p := fun c => !isWs c) (l := text)
    have h2 : ∀ c ∈ text.takeWhile (fun c => !isWs c), isWs c = false := fun c hc => by
      simpa using List.all_eq_true.1 (List.all_takeWhile (p := fun c => !isWs c) (l := text)) c hc
    have h3 : ∀ c, (text.dropWhile fun c => !isWs c).head? = some c → isWs c = true := fun c hc => by
      have := List.head?_dropWhile_not (fun c => !isWs c) text
      rw [hc] at this
      simpa using this
    generalize text.takeWhile (fun c => !isWs c) = word at *
    generalize (text.dropWhile fun c => !isWs c) = s at *
    subst h1
    by_cases h0 : word = []
    · subst h0
      exact .inr ⟨_, .noWord h3⟩
    · have hword : Word word := ⟨h0, h2⟩
      obtain ⟨w, rest, rfl, hw, hr⟩ := ws_split s
      by_cases hw0 : w = []
      · subst hw0
        have : rest = [] := by
          cases rest with
          | nil => rfl
          | cons c cs => exact absurd (h3 c rfl) (by simp [hr c rfl])
        subst this
        exact .inr ⟨_, by simpa using DeepWrong.noGap hword⟩
      · have hgap : Gap w := ⟨hw0, hw⟩
        by_cases hf : c!"foo" <+: rest
        · obtain ⟨t, rfl⟩ := hf
          by_cases ht : t = []
          · subst ht
            exact .inl ⟨_, _, .last hword hgap⟩
          · exact .inr ⟨_, .after hword hgap ht⟩
        · have : 0 < word.length := List.length_pos_iff.2 h0
          rcases ih (text := rest) (off + (word.length + w.length)) (by simp at hm; omega) with ⟨k, ts, h⟩ | ⟨e, h⟩
          · exact .inl ⟨_, _, .more hword hgap hf h⟩
          · exact .inr ⟨_, .next hword hgap hf hr h⟩

/-- C78: the report of `bench_deep_string` for a text that it does not accept. -/
theorem C78_deep_reports {L : Lexer} (hL : L.Lawful) (hs : NoSlash L) (hN : ReadsNumbers L) (E : ErrText) (text msg : Str) :
    BenchEnds L E benchDeepRules text (.error msg) ↔ ∃ e, DeepWrong 0 text e ∧ reportErr E text e = .ok msg := by
  obtain ⟨syn', ho, h⟩ := syntax_unoptimized hL hs (rules := benchDeepRules) (eatDoc_text hL hN (by decide +kernel)) (by decide +kernel)
    bench_deep_read (by decide +kernel) (C26_check_sound (by decide +kernel))
  cases C31_deterministic ho (show Optimizes deepSyntax deepSyntax from ⟨10, rfl⟩)
  rw [(bench_ends h).2]
  constructor
  · rintro ⟨e, toks, h1, h2⟩
    rcases deep_total (text := text) 0 (Nat.lt_succ_self _) with ⟨k, ts, hd⟩ | ⟨e', he⟩
    · cases parses_det h1 (deep_exact.2 ⟨k, hd⟩)
    · obtain ⟨toks', h3⟩ := deep_wrong_parses (L := L) (ind := Indent.default) he
      cases parses_det h1 h3
      exact ⟨e, he, h2⟩
  · rintro ⟨e, he, h2⟩
    obtain ⟨toks', h3⟩ := deep_wrong_parses (L := L) (ind := Indent.default) he
    exact ⟨e, toks', h3, h2⟩

/-- In `hi food foo` the text should end after `foo`, in `hi hi ` a word is missing, in `hi hi` space. -/
example : DeepWrong 0 c!"hi food foo" ⟨⟨6, 0⟩, .expectedEnd⟩ ∧ DeepWrong 0 c!"hi hi " ⟨⟨6, 0⟩, .expectedSomething 1001⟩ ∧
    DeepWrong 0 c!"hi hi" ⟨⟨5, 0⟩, .expectedWhitespace 1002⟩ := by
  have hhi : Word c!"hi" := ⟨by decide, by decide⟩
  have hsp : Gap c!" " := ⟨by decide, by decide⟩
  exact ⟨.after (s := c!"d foo") hhi hsp (by decide),
    .next (rest := c!"hi ") hhi hsp (by decide) (by decide) (.next (rest := []) hhi hsp (by decide) (by decide) (.noWord (by decide))),
    .next (rest := c!"hi") hhi hsp (by decide) (by decide) (.noGap hhi)⟩

end Verif.Props
