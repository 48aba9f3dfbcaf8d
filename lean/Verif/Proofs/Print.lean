import Verif.Proofs.Notation
import Verif.Spec.Print
/-
What is printed is in the notation, and stands for the rule.
-/
namespace Verif
open Spec

theorem quoteChar_item (c : Char) : ∃ x : StrItem, x.char = c ∧ x.text = quoteChar c := by
  by_cases h1 : c = '"'
  · exact ⟨.quote, h1.symm, by simp [quoteChar, h1, StrItem.text]⟩
  by_cases h2 : c = '\\'
  · exact ⟨.backslash, h2.symm, by simp [quoteChar, h2, StrItem.text]⟩
  by_cases h3 : c = '\n'
  · exact ⟨.newline, h3.symm, by simp [quoteChar, h3, StrItem.text]⟩
  by_cases h4 : c = '\r'
  · exact ⟨.ret, h4.symm, by simp [quoteChar, h4, StrItem.text]⟩
  by_cases h5 : c = '\t'
  · exact ⟨.tab, h5.symm, by simp [quoteChar, h5, StrItem.text]⟩
  exact ⟨.plain c ⟨h1, h2, h3, h4, h5⟩, rfl, by simp [quoteChar, h1, h2, h3, h4, h5, StrItem.text]⟩

theorem quoted_lit {L : Lexer} (hL : L.Lawful) (s : Str) : IsLit L s (quoted s) := by
  have : ∃ items : List StrItem, s = items.map StrItem.char ∧ s.flatMap quoteChar = items.flatMap StrItem.text := by
    induction s with
    | nil => exact ⟨[], rfl, rfl⟩
    | cons c s ih =>
      obtain ⟨items, h1, h2⟩ := ih
      obtain ⟨x, hx, ht⟩ := quoteChar_item c
      exact ⟨x :: items, by simp [hx, ← h1], by simp [ht, h2]⟩
  obtain ⟨items, h1, h2⟩ := this
  have := Boot.isLit_items hL items
  rw [← h1, ← h2] at this
  exact this

theorem quoted_empty {s : Str} (h : (quoted s).length = 2) : s = [] := by
  cases s with
  | nil => rfl
  | cons c s =>
    obtain ⟨x, -, ht⟩ := quoteChar_item c
    have : 1 ≤ (quoteChar c).length := by rw [← ht]; cases x <;> simp [StrItem.text]
    simp [quoted] at h
    omega

theorem propText_text {L : Lexer} (hL : L.Lawful) {p : Option Str} (h : p ≠ some []) : PropText L (p.map SetV.value) (propText p) := by
  cases p with
  | none => rfl
  | some s => exact ⟨_, ⟨quoted_lit hL s, fun e => absurd (quoted_empty e ▸ rfl) h⟩, rfl⟩

theorem mark_switch (c : Char) (b : Bool) : Switch c (ifSet b) (mark c b) := by
  cases b <;> simp [Switch, ifSet, mark]

theorem print_head : (r : Rule) → Printable r →
    ∃ c t, print r = c :: t ∧ (c = '"' → ∃ s inv p id, r = .tag s false inv p id) ∧ c ≠ '_'
  | .whitespace o _, _ => ⟨_, _, rfl, by simp, by decide⟩
  | .untilAnyOrWs .., _ => ⟨_, _, by rw [print]; rfl, by simp, by decide⟩
  | .untilAny .., _ => ⟨_, _, by rw [print]; rfl, by simp, by decide⟩
  | .tag t false inv none id, _ => ⟨_, _, by rw [print]; rfl, fun _ => ⟨_, _, _, _, rfl⟩, by decide⟩
  | .tag t true inv none id, _ => ⟨_, _, by rw [print]; rfl, by simp, by decide⟩
  | .tag t false inv (some p) id, _ => ⟨_, _, by rw [print]; rfl, fun _ => ⟨_, _, _, _, rfl⟩, by decide⟩
  | .tag t true inv (some p) id, _ => ⟨_, _, by rw [print]; rfl, by simp, by decide⟩
  | .text .., _ => ⟨_, _, by rw [print]; rfl, by simp, by decide⟩
  | .number .., _ => ⟨_, _, by rw [print]; rfl, by simp, by decide⟩
  | .node name p ix id, h => by
    obtain ⟨⟨⟨h1, h2⟩, h3⟩, -⟩ := h
    cases name with
    | nil => exact absurd rfl h1
    | cons c t =>
      refine ⟨c, t ++ propText p, by rw [print]; rfl, ?_, by simpa using h3⟩
      rintro rfl
      exact absurd (by simp) (h2 '"' (by simp)).1
  | .sequence .., _ => ⟨_, _, by rw [print], by simp, by decide⟩
  | .select .., _ => ⟨_, _, by rw [print], by simp, by decide⟩
  | .fastSelect .., h => h.elim
  | .optional .., _ => ⟨_, _, by rw [print], by simp, by decide⟩
  | .not .., _ => ⟨_, _, by rw [print], by simp, by decide⟩
  | .separateBy .., _ => ⟨_, _, by rw [print]; rfl, by simp, by decide⟩
  | .lines .., _ => ⟨_, _, by rw [print]; rfl, by simp, by decide⟩
  | .repeat_ .., _ => ⟨_, _, by rw [print]; rfl, by simp, by decide⟩

theorem describeAll_ne {rs : List Rule} (h : rs ≠ []) : describeAll rs ≠ [] := by
  cases rs with
  | nil => exact absurd rfl h
  | cons r rs => simp [describeAll]

theorem textL_space {L : Lexer} : {ds : List Desc} → {u : Str} → Desc.TextL L ds u → Desc.TextL L ds (' ' :: u)
  | [], u, h => by
    intro c hc
    rcases List.mem_cons.1 hc with rfl | hc
    · decide
    · exact h c hc
  | d :: ds, u, h => by
    obtain ⟨w, a, x, hw, ha, hx, h0, rfl⟩ := h
    refine ⟨' ' :: w, a, x, ?_, ha, hx, h0, rfl⟩
    intro c hc
    rcases List.mem_cons.1 hc with rfl | hc
    · decide
    · exact hw c hc

mutual
/-- The text of a rule stands for its description. -/
theorem print_text {L : Lexer} (hL : L.Lawful) : (r : Rule) → Printable r → (describe r).Text L (print r)
  | .whitespace o _, _ => by simp [describe, print, Desc.Text]
  | .untilAnyOrWs any o p _, h =>
    ⟨_, _, _, ⟨quoted_lit hL any, fun _ => rfl⟩, rfl, propText_text hL h, by rw [print]⟩
  | .untilAny any o p _, h =>
    ⟨_, _, _, ⟨quoted_lit hL any, fun _ => rfl⟩, rfl, propText_text hL h, by rw [print]⟩
  | .tag t neg inv none id, h =>
    ⟨_, _, mark_switch '!' neg, ⟨quoted_lit hL t, fun e => absurd (quoted_empty e) h.1⟩, by rw [h.2.2 rfl]; rfl, by rw [print]⟩
  | .tag t neg inv (some p) id, h =>
    ⟨_, _, _, _, mark_switch '!' neg, ⟨quoted_lit hL t, fun e => absurd (quoted_empty e) h.1⟩, mark_switch '!' inv,
      ⟨quoted_lit hL p, fun e => absurd (quoted_empty e ▸ rfl) h.2.1⟩, by rw [print]⟩
  | .text e p _, h => ⟨_, _, rfl, propText_text hL h, by rw [print]⟩
  | .number p u _, h => ⟨_, _, mark_switch '_' u, propText_text hL h, by rw [print]⟩
  | .node name p _ _, h => ⟨_, h.1.1, h.1.2, propText_text hL h.2, by rw [print]⟩
  | .sequence rs _, h => ⟨describeAll_ne h.1, _, printAll_text hL rs h.2, by rw [print]⟩
  | .select rs _, h => ⟨describeAll_ne h.1, _, printAll_text hL rs h.2, by rw [print]⟩
  | .fastSelect .., h => h.elim
  | .optional r _, h => ⟨_, print_text hL r h, by rw [print]⟩
  | .not r _, h => by
    obtain ⟨c, t, e, hq, hu⟩ := print_head r h.1
    refine ⟨_, print_text hL r h.1, ?_, ?_, by rw [print]⟩
    · rw [e]
      simp only [List.head?_cons, ne_eq, Option.some.injEq]
      intro hc
      obtain ⟨s, inv, p, id, e⟩ := hq hc
      exact h.2 s inv p id e
    · rw [e]; simpa using hu
  | .separateBy r b o t _, h =>
    ⟨o, mark '.' t, [], print b, [' '], print r, [], rfl, mark_switch '.' t, by simp [Space], print_text hL b h.2.1,
      by simp [Space]; decide, by simp, print_text hL r h.1, by simp [Space], by rw [print]; rfl⟩
  | .lines r i _, h =>
    ⟨mark '+' i, [], print r, [], mark_switch '+' i, by simp [Space], print_text hL r h, by simp [Space], by rw [print]; rfl⟩
  | .repeat_ r o _, h => ⟨_, print_text hL r h, by rw [print]⟩
theorem printAll_text {L : Lexer} (hL : L.Lawful) : (rs : List Rule) → PrintableAll rs → Desc.TextL L (describeAll rs) (printAll rs)
  | [], _ => by simp [describeAll, printAll, Desc.TextL, Space]
  | r :: rs, h => by
    refine ⟨[], print r, ' ' :: printAll rs, by simp [Space], print_text hL r h.1, ?_, fun _ => ⟨' ', rfl, by decide⟩, by
      rw [printAll]; rfl⟩
    exact textL_space (printAll_text hL rs h.2)
end

theorem value_get (p : Option Str) : (p.map SetV.value).bind (·.get []) = p := by
  cases p <;> rfl

theorem value_missing (p : Option Str) : propMissing [] (p.map SetV.value) = 0 := by
  cases p <;> rfl

theorem value_text (s : Str) : (SetV.value s).get [] = some s ∧ (SetV.value s).missing [] = 0 := ⟨rfl, rfl⟩

theorem ifSet_getD (b : Bool) : (ifSet b).getD false = b := by cases b <;> rfl

mutual
/-- The description of a rule means the rule. -/
theorem describe_read : (r : Rule) → Printable r → ∀ i,
    ∃ r' i', (describe r).read [] i = (some r', i', 0) ∧ bare r' = bare r
  | .whitespace o _, _, i => ⟨.whitespace o (i + 1), i + 1, by simp only [describe, Desc.read], rfl⟩
  | .untilAnyOrWs any o p _, h, i => ⟨.untilAnyOrWs any o p (i + 1), i + 1, by
    simp [describe, Desc.read, needs, value_get, value_missing, value_text], rfl⟩
  | .untilAny any o p _, h, i => ⟨.untilAny any o p (i + 1), i + 1, by
    simp [describe, Desc.read, needs, value_get, value_missing, value_text], rfl⟩
  | .tag t neg inv p id, h, i => ⟨.tag t neg inv p (i + 1), i + 1, by
    simp [describe, Desc.read, needs, value_get, value_missing, value_text, ifSet_getD], rfl⟩
  | .text e p _, h, i => ⟨.text e p (i + 1), i + 1, by
    simp [describe, Desc.read, value_get, value_missing], rfl⟩
  | .number p u _, h, i => ⟨.number p u (i + 1), i + 1, by
    simp [describe, Desc.read, value_get, value_missing, ifSet_getD], rfl⟩
  | .node name p _ _, h, i => ⟨.node name p none (i + 1), i + 1, by
    simp [describe, Desc.read, value_get, value_missing], rfl⟩
  | .sequence rs _, h, i => by
    obtain ⟨rs', i', e, hb⟩ := describeAll_read rs h.2 i
    exact ⟨.sequence rs' (i' + 1), i' + 1, by simp only [describe, Desc.read, e], by simp [bare, hb]⟩
  | .select rs _, h, i => by
    obtain ⟨rs', i', e, hb⟩ := describeAll_read rs h.2 i
    exact ⟨.select rs' (i' + 1), i' + 1, by simp only [describe, Desc.read, e], by simp [bare, hb]⟩
  | .fastSelect .., h, i => h.elim
  | .optional r _, h, i => by
    obtain ⟨r', i', e, hb⟩ := describe_read r h i
    exact ⟨.optional r' (i' + 1), i' + 1, by simp only [describe, Desc.read, e, around], by simp [bare, hb]⟩
  | .not r _, h, i => by
    obtain ⟨r', i', e, hb⟩ := describe_read r h.1 i
    exact ⟨.not r' (i' + 1), i' + 1, by simp only [describe, Desc.read, e, around], by simp [bare, hb]⟩
  | .separateBy r b o t _, h, i => by
    obtain ⟨hr, hb, rfl⟩ := h
    obtain ⟨b', i', e, hb⟩ := describe_read b hb i
    obtain ⟨r', i'', e', hb'⟩ := describe_read r hr i'
    exact ⟨.separateBy r' b' o true (i'' + 1), i'' + 1,
      by simp [describe, Desc.read, e, e', around, drop1, ifSet], by simp [bare, hb, hb']⟩
  | .lines r l _, h, i => by
    obtain ⟨r', i', e, hb⟩ := describe_read r h i
    exact ⟨.lines r' l (i' + 1), i' + 1, by simp only [describe, Desc.read, e, around, ifSet_getD], by simp [bare, hb]⟩
  | .repeat_ r o _, h, i => by
    obtain ⟨r', i', e, hb⟩ := describe_read r h i
    exact ⟨.repeat_ r' o (i' + 1), i' + 1, by simp [describe, Desc.read, e, around, drop1], by simp [bare, hb]⟩
theorem describeAll_read : (rs : List Rule) → PrintableAll rs → ∀ i,
    ∃ rs' i', Desc.readL [] (describeAll rs) i = (rs', i', 0) ∧ bareAll rs' = bareAll rs
  | [], _, i => ⟨[], i, by simp only [describeAll, Desc.readL], rfl⟩
  | r :: rs, h, i => by
    obtain ⟨r', i', e, hb⟩ := describe_read r h.1 i
    obtain ⟨rs', i'', e', hb'⟩ := describeAll_read rs h.2 i'
    exact ⟨r' :: rs', i'', by simp [describeAll, Desc.readL, e, e', drop1], by simp [bareAll, hb, hb']⟩
end

theorem describeDoc_read : (ns : List Numbered) → (∀ n ∈ ns, Printable n.rule) →
    ∃ rs, Doc.read (describeDoc ns).strings (describeDoc ns).nodes = (some rs, 0) ∧
      rs.map (fun x => (x.1, bare x.2)) = ns.map fun n => (n.name, bare n.rule)
  | [], _ => ⟨[], rfl, rfl⟩
  | n :: ns, h => by
    obtain ⟨r', i', e, hb⟩ := describe_read n.rule (h n (by simp)) (n.number.toUsize * 1000)
    obtain ⟨rs, e', hb'⟩ := describeDoc_read ns fun n hn => h n (by simp [hn])
    refine ⟨(n.name, r') :: rs, ?_, by simp [hb, hb']⟩
    simp only [describeDoc] at e' ⊢
    simp [Doc.read, e, e']

theorem printed_entry {L : Lexer} (hL : L.Lawful) {n : Numbered} (h : n.Ok L) (u : Str) :
    (Entry.node n.number n.name (describe n.rule)).Text L
      (n.digits ++ ' ' :: (n.name ++ c!" = " ++ print n.rule)) u := by
  have hs : Space [' '] := by simp [Space]; decide
  exact ⟨n.digits, [' '], [' '], [' '], print n.rule, h.1 _ _ (by decide), hs, by simp, h.2.1.1, h.2.1.2, hs, by simp, hs,
    print_text hL _ h.2.2, by simp⟩

theorem printed_entries {L : Lexer} (hL : L.Lawful) : (ns : List Numbered) → (∀ n ∈ ns, n.Ok L) →
    EntriesText L true (ns.map fun n => .node n.number n.name (describe n.rule)) (printDoc ns) ∧
    EntriesText L false (ns.map fun n => .node n.number n.name (describe n.rule)) ('\n' :: printDoc ns)
  | [], _ => by
    have hs : Space ['\n'] := by simp [Space]; decide
    exact ⟨by simp [EntriesText, printDoc, Space], hs⟩
  | n :: ns, h => by
    have hs : Space ['\n'] := by simp [Space]; decide
    have ih := (printed_entries hL ns fun n hn => h n (by simp [hn])).2
    have he := printed_entry hL (h n (by simp)) ('\n' :: printDoc ns)
    exact ⟨⟨[], _, _, by simp [Space], by simp, he, ih, by simp [printDoc]⟩,
      ⟨['\n'], _, _, hs, by simp, he, ih, by simp [printDoc]⟩⟩

theorem printed_doc {L : Lexer} (hL : L.Lawful) {ns : List Numbered} (h : ∀ n ∈ ns, n.Ok L) :
    (describeDoc ns).Text L (printDoc ns) := by
  refine ⟨[], ns.map fun n : Numbered => .node n.number n.name (describe n.rule), by simp, ?_, (printed_entries hL ns h).1, rfl, ?_⟩
  · intro e he
    obtain ⟨n, -, rfl⟩ := List.mem_map.1 he
    rfl
  · clear h
    induction ns with
    | nil => rfl
    | cons n ns ih => simpa [describeDoc, nodesIn] using ih

end Verif
