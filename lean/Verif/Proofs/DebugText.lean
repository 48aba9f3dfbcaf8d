import Verif.Model.DebugText
import Verif.Spec.DebugText
import Verif.Props.ErrorHandler
import Verif.Props.Eq
/-
The text `{:?}` writes can be read back, apart from tables (for C108).
-/
namespace Verif.Props
open Spec
namespace DebugText

theorem hex_inj : ∀ (m n : Nat), Nat.toDigits 16 m = Nat.toDigits 16 n → m = n := by
  intro m
  induction m using Nat.strongRecOn with
  | ind m ih =>
    intro n h
    have dig : ∀ a < 16, ∀ b < 16, a.digitChar = b.digitChar → a = b := by decide
    rw [Nat.toDigits_eq_if (by decide), Nat.toDigits_eq_if (n := n) (by decide)] at h
    split at h <;> split at h
    · exact dig _ ‹_› _ ‹_› (by simpa using h)
    · have := congrArg List.length h
      simp at this
    · have := congrArg List.length h
      simp at this
    · have h' := List.append_inj' h rfl
      have h1 := ih (m / 16) (by omega) _ h'.1
      have h2 := dig (m % 16) (by omega) (n % 16) (by omega) (by simpa using h'.2)
      omega

theorem hex_char : ∀ (n : Nat) (c : Char), c ∈ Nat.toDigits 16 n → c ≠ '}' ∧ c ≠ '"' ∧ c ≠ '\n' := by
  intro n
  induction n using Nat.strongRecOn with
  | ind n ih =>
    intro c h
    have dig : ∀ a < 16, (Nat.digitChar a) ≠ '}' ∧ Nat.digitChar a ≠ '"' ∧ a.digitChar ≠ '\n' := by decide
    rw [Nat.toDigits_eq_if (by decide)] at h
    split at h
    · simp at h; subst h; exact dig _ ‹_›
    · rcases List.mem_append.1 h with h | h
      · exact ih _ (by omega) _ h
      · simp at h; subst h; exact dig _ (by omega)

theorem char_inj {plain : Bool → Char → Bool} {first : Bool} {c c' : Char} {u v : Str}
    (h : debugChar plain first c ++ u = debugChar plain first c' ++ v) : c = c' ∧ u = v := by
  have hex : ∀ x y : Nat, Nat.toDigits 16 x ++ '}' :: u = Nat.toDigits 16 y ++ '}' :: v → x = y ∧ u = v := by
    intro x y h
    have := Props.split_at (fun h => (hex_char _ _ h).1 rfl) (fun h => (hex_char _ _ h).1 rfl) h
    exact ⟨hex_inj _ _ this.1, this.2⟩
  unfold debugChar at h
  repeat' split at h
  all_goals simp at h
  all_goals first
    | exact absurd h.1.symm ‹_›
    | exact absurd h.1 ‹_›
    | (have := hex _ _ h; exact ⟨Char.toNat_inj.1 this.1, this.2⟩)
    | (constructor <;> simp_all; done)

theorem char_quote {plain : Bool → Char → Bool} {first : Bool} {c : Char} {u v : Str} :
    debugChar plain first c ++ u ≠ '"' :: v := by
  unfold debugChar
  repeat' split
  all_goals simp
  all_goals first | assumption | simp_all

theorem chars_iff {plain : Bool → Char → Bool} : ∀ (s s' : Str) (first : Bool) (u v : Str),
    debugChars plain first s ++ u = debugChars plain first s' ++ v ↔ s = s' ∧ u = v
  | [], [], _, _, _ => by simp [debugChars]
  | [], c :: cs, first, u, v => by
    simp only [debugChars, List.append_assoc, List.cons_append, List.nil_append]
    exact ⟨fun h => absurd h.symm char_quote, fun h => by simp at h⟩
  | c :: cs, [], first, u, v => by
    simp only [debugChars, List.append_assoc, List.cons_append, List.nil_append]
    exact ⟨fun h => absurd h char_quote, fun h => by simp at h⟩
  | c :: cs, c' :: cs', first, u, v => by
    simp only [debugChars, List.append_assoc]
    refine ⟨fun h => ?_, fun ⟨h, h'⟩ => by simp only [List.cons.injEq] at h; rw [h.1, h.2, h']⟩
    obtain ⟨h1, h2⟩ := char_inj h
    obtain ⟨h3, h4⟩ := (chars_iff cs cs' false u v).1 h2
    exact ⟨by rw [h1, h3], h4⟩

theorem str_iff {plain : Bool → Char → Bool} {s s' u v : Str} :
    debugStr plain s ++ u = debugStr plain s' ++ v ↔ s = s' ∧ u = v := by
  simp only [debugStr, List.cons_append, List.cons.injEq, true_and]
  exact chars_iff s s' true u v

theorem bool_iff {b b' : Bool} {u v : Str} : debugBool b ++ u = debugBool b' ++ v ↔ b = b' ∧ u = v := by
  cases b <;> cases b' <;> simp [debugBool]

theorem option_iff {α : Type} {f : α → Str}
    (hf : ∀ a b u v, f a ++ ')' :: u = f b ++ ')' :: v ↔ a = b ∧ u = v) {a b : Option α} {u v : Str} :
    debugOption f a ++ u = debugOption f b ++ v ↔ a = b ∧ u = v := by
  cases a <;> cases b <;> simp [debugOption, hf]

theorem dec_stop {c : Char} (hc : c.isDigit = false) {m n : Nat} {u v : Str} :
    dec m ++ c :: u = dec n ++ c :: v ↔ m = n ∧ u = v := by
  have no : ∀ k, c ∉ dec k := fun k h => by
    have := Nat.isDigit_of_mem_toDigits (by decide) (by decide) h
    rw [hc] at this; exact absurd this (by decide)
  exact ⟨fun h => have ⟨h1, h2⟩ := Props.split_at (no m) (no n) h; ⟨dec_inj h1, h2⟩, fun ⟨h1, h2⟩ => by rw [h1, h2]⟩

theorem dec_space {m n : Nat} {u v : Str} : dec m ++ ' ' :: u = dec n ++ ' ' :: v ↔ m = n ∧ u = v :=
  dec_stop (by decide)

theorem ostr_iff {plain : Bool → Char → Bool} {a b : Option Str} {u v : Str} :
    debugOption (debugStr plain) a ++ u = debugOption (debugStr plain) b ++ v ↔ a = b ∧ u = v :=
  option_iff (fun _ _ _ _ => by rw [str_iff]; simp)

theorem onat_iff {a b : Option Nat} {u v : Str} :
    debugOption dec a ++ u = debugOption dec b ++ v ↔ a = b ∧ u = v :=
  option_iff (fun _ _ _ _ => dec_stop (by decide))

set_option linter.unusedSimpArgs false
set_option maxHeartbeats 1000000
mutual
theorem rule_iff {plain : Bool → Char → Bool} : ∀ (r r' : Rule) (u v : Str),
    r.debug plain ++ u = r'.debug plain ++ v ↔ r.blank = r'.blank ∧ u = v
  | .whitespace .., r', u, v => by
    cases r' <;> simp [Rule.debug, Rule.blank, str_iff, bool_iff, ostr_iff, dec_space, dec_comma, and_assoc]
  | .tag .., r', u, v => by
    cases r' <;> simp [Rule.debug, Rule.blank, str_iff, bool_iff, ostr_iff, dec_space, dec_comma, and_assoc]
  | .untilAny .., r', u, v => by
    cases r' <;> simp [Rule.debug, Rule.blank, str_iff, bool_iff, ostr_iff, dec_space, dec_comma, and_assoc]
  | .untilAnyOrWs .., r', u, v => by
    cases r' <;> simp [Rule.debug, Rule.blank, str_iff, bool_iff, ostr_iff, dec_space, dec_comma, and_assoc]
  | .text .., r', u, v => by
    cases r' <;> simp [Rule.debug, Rule.blank, str_iff, bool_iff, ostr_iff, dec_space, dec_comma, and_assoc]
  | .number p a i, r', u, v => by
    cases r' <;> simp [Rule.debug, Rule.blank, str_iff, bool_iff, ostr_iff, dec_space, dec_comma, and_assoc]
    all_goals grind
  | .select rs i, r', u, v => by
    cases r' <;> simp [Rule.debug, Rule.blank, list_iff rs, dec_space, dec_comma, and_assoc]
  | .fastSelect .., r', u, v => by
    cases r' <;> simp [Rule.debug, Rule.blank]
  | .sequence rs i, r', u, v => by
    cases r' <;> simp [Rule.debug, Rule.blank, list_iff rs, dec_space, dec_comma, and_assoc]
  | .separateBy r b o t i, r', u, v => by
    cases r' <;> simp [Rule.debug, Rule.blank, rule_iff r, rule_iff b, bool_iff, dec_space, dec_comma, and_assoc]
  | .repeat_ r o i, r', u, v => by
    cases r' <;> simp [Rule.debug, Rule.blank, rule_iff r, bool_iff, dec_space, dec_comma, and_assoc]
  | .lines r o i, r', u, v => by
    cases r' <;> simp [Rule.debug, Rule.blank, rule_iff r, bool_iff, dec_space, dec_comma, and_assoc]
    all_goals grind
  | .node n p x i, r', u, v => by
    cases r' <;> simp [Rule.debug, Rule.blank, str_iff, bool_iff, ostr_iff, onat_iff, dec_space, dec_comma, and_assoc]
    all_goals grind
  | .optional r i, r', u, v => by
    cases r' <;> simp [Rule.debug, Rule.blank, rule_iff r, dec_space, dec_comma, and_assoc]
  | .not r i, r', u, v => by
    cases r' <;> simp [Rule.debug, Rule.blank, rule_iff r, dec_space, dec_comma, and_assoc]
theorem list_iff {plain : Bool → Char → Bool} : ∀ (rs rs' : List Rule) (u v : Str),
    Rule.debugList plain rs ++ u = Rule.debugList plain rs' ++ v ↔ Rule.blankL rs = Rule.blankL rs' ∧ u = v
  | [], [], u, v => by simp [Rule.debugList, Rule.blankL]
  | [], r :: rs, u, v => by
    cases r <;> simp [Rule.debugList, Rule.blankL, Rule.debug]
  | r :: rs, [], u, v => by
    cases r <;> simp [Rule.debugList, Rule.blankL, Rule.debug]
  | r :: rs, r' :: rs', u, v => by
    simp [Rule.debugList, Rule.blankL, rule_iff r, rest_iff rs, and_assoc]
theorem rest_iff {plain : Bool → Char → Bool} : ∀ (rs rs' : List Rule) (u v : Str),
    Rule.debugRest plain rs ++ u = Rule.debugRest plain rs' ++ v ↔ Rule.blankL rs = Rule.blankL rs' ∧ u = v
  | [], [], u, v => by simp [Rule.debugRest, Rule.blankL]
  | [], r :: rs, u, v => by simp [Rule.debugRest, Rule.blankL]
  | r :: rs, [], u, v => by simp [Rule.debugRest, Rule.blankL]
  | r :: rs, r' :: rs', u, v => by
    simp [Rule.debugRest, Rule.blankL, rule_iff r, rest_iff rs, and_assoc]
end

mutual
theorem blank_of_none : ∀ (r : Rule), (∀ x, Occurs x r → ¬ IsTable x) → r.blank = r
  | .whitespace .., _ | .tag .., _ | .untilAny .., _ | .untilAnyOrWs .., _ | .text .., _ | .number .., _
  | .node .., _ => by simp [Rule.blank]
  | .fastSelect .., h => absurd ⟨_, _, _, _, rfl⟩ (h _ .refl)
  | .select rs i, h => by
    rw [Rule.blank, blankL_of_none rs (fun r hr x hx => h x (.step hx (.select hr)))]
  | .sequence rs i, h => by
    rw [Rule.blank, blankL_of_none rs (fun r hr x hx => h x (.step hx (.sequence hr)))]
  | .separateBy r b o t i, h => by
    rw [Rule.blank, blank_of_none r (fun x hx => h x (.step hx .item)),
      blank_of_none b (fun x hx => h x (.step hx .sep))]
  | .repeat_ r o i, h => by rw [Rule.blank, blank_of_none r (fun x hx => h x (.step hx .repeat_))]
  | .lines r o i, h => by rw [Rule.blank, blank_of_none r (fun x hx => h x (.step hx .lines))]
  | .optional r i, h => by rw [Rule.blank, blank_of_none r (fun x hx => h x (.step hx .optional))]
  | .not r i, h => by rw [Rule.blank, blank_of_none r (fun x hx => h x (.step hx .not))]
theorem blankL_of_none : ∀ (rs : List Rule), (∀ r ∈ rs, ∀ x, Occurs x r → ¬ IsTable x) → Rule.blankL rs = rs
  | [], _ => rfl
  | r :: rs, h => by
    rw [Rule.blankL, blank_of_none r (h r (by simp)), blankL_of_none rs (fun r hr => h r (by simp [hr]))]
end

mutual
theorem of_blank : ∀ (r : Rule), (∀ x, Occurs x r.blank → ¬ IsTable x) → r.blank = r
  | .whitespace .., _ | .tag .., _ | .untilAny .., _ | .untilAnyOrWs .., _ | .text .., _ | .number .., _
  | .node .., _ => by simp [Rule.blank]
  | .fastSelect .., h => absurd ⟨_, _, _, _, rfl⟩ (h _ .refl)
  | .select rs i, h => by
    rw [Rule.blank] at h
    rw [Rule.blank, of_blankL rs (fun r hr x hx => h x (.step hx (.select hr)))]
  | .sequence rs i, h => by
    rw [Rule.blank] at h
    rw [Rule.blank, of_blankL rs (fun r hr x hx => h x (.step hx (.sequence hr)))]
  | .separateBy r b o t i, h => by
    rw [Rule.blank] at h
    rw [Rule.blank, of_blank r (fun x hx => h x (.step hx .item)),
      of_blank b (fun x hx => h x (.step hx .sep))]
  | .repeat_ r o i, h => by
    rw [Rule.blank] at h
    rw [Rule.blank, of_blank r (fun x hx => h x (.step hx .repeat_))]
  | .lines r o i, h => by
    rw [Rule.blank] at h
    rw [Rule.blank, of_blank r (fun x hx => h x (.step hx .lines))]
  | .optional r i, h => by
    rw [Rule.blank] at h
    rw [Rule.blank, of_blank r (fun x hx => h x (.step hx .optional))]
  | .not r i, h => by
    rw [Rule.blank] at h
    rw [Rule.blank, of_blank r (fun x hx => h x (.step hx .not))]
theorem of_blankL : ∀ (rs : List Rule), (∀ r ∈ Rule.blankL rs, ∀ x, Occurs x r → ¬ IsTable x) → Rule.blankL rs = rs
  | [], _ => rfl
  | r :: rs, h => by
    rw [Rule.blankL] at h
    rw [Rule.blankL, of_blank r (h r.blank (by simp)), of_blankL rs (fun r hr => h r (by simp [hr]))]
end

theorem char_line {plain : Bool → Char → Bool} {first : Bool} {c : Char} : '\n' ∉ debugChar plain first c := by
  unfold debugChar
  repeat' split
  all_goals simp
  all_goals first
    | exact fun h => absurd h.symm ‹_›
    | exact fun h => (hex_char _ _ h).2.2 rfl

theorem chars_line {plain : Bool → Char → Bool} : ∀ (s : Str) (first : Bool), '\n' ∉ debugChars plain first s
  | [], _ => by simp [debugChars]
  | c :: cs, _ => by simp [debugChars, char_line, chars_line cs]

theorem str_line {plain : Bool → Char → Bool} {s : Str} : '\n' ∉ debugStr plain s := by
  simp [debugStr, chars_line]

theorem bool_line {b : Bool} : '\n' ∉ debugBool b := by cases b <;> simp [debugBool]

theorem dec_line {n : Nat} : '\n' ∉ dec n := fun h =>
  absurd (Nat.isDigit_of_mem_toDigits (by decide) (by decide) h) (by decide)

theorem ostr_line {plain : Bool → Char → Bool} {s : Option Str} : '\n' ∉ debugOption (debugStr plain) s := by
  cases s <;> simp [debugOption, str_line]

theorem onat_line {n : Option Nat} : '\n' ∉ debugOption dec n := by
  cases n <;> simp [debugOption, dec_line]

mutual
theorem rule_line {plain : Bool → Char → Bool} : ∀ (r : Rule), '\n' ∉ r.debug plain
  | .whitespace .. | .tag .. | .untilAny .. | .untilAnyOrWs .. | .text .. | .number .. | .node .. | .fastSelect .. => by
    simp [Rule.debug, str_line, bool_line, dec_line, ostr_line, onat_line]
  | .select rs i | .sequence rs i => by simp [Rule.debug, dec_line, list_line rs]
  | .separateBy r b o t i => by simp [Rule.debug, bool_line, dec_line, rule_line r, rule_line b]
  | .repeat_ r o i | .lines r o i => by simp [Rule.debug, bool_line, dec_line, rule_line r]
  | .optional r i | .not r i => by simp [Rule.debug, dec_line, rule_line r]
theorem list_line {plain : Bool → Char → Bool} : ∀ (rs : List Rule), '\n' ∉ Rule.debugList plain rs
  | [] => by simp [Rule.debugList]
  | r :: rs => by simp [Rule.debugList, rule_line r, rest_line rs]
theorem rest_line {plain : Bool → Char → Bool} : ∀ (rs : List Rule), '\n' ∉ Rule.debugRest plain rs
  | [] => by simp [Rule.debugRest]
  | r :: rs => by simp [Rule.debugRest, rule_line r, rest_line rs]
end

theorem items_line {plain : Bool → Char → Bool} : ∀ (as : List Str), '\n' ∉ debugItems (debugStr plain) as
  | [] => by simp [debugItems]
  | [a] => by simp [debugItems, str_line]
  | a :: b :: as => by simp [debugItems, str_line, items_line (b :: as)]

theorem items_iff {plain : Bool → Char → Bool} : ∀ (as bs : List Str) (u v : Str),
    debugItems (debugStr plain) as ++ u = debugItems (debugStr plain) bs ++ v ↔ as = bs ∧ u = v
  | [], [], u, v => by simp [debugItems]
  | [], [b], u, v => by simp [debugItems, debugStr]
  | [], b :: c :: bs, u, v => by simp [debugItems, debugStr]
  | [a], [], u, v => by simp [debugItems, debugStr]
  | a :: a' :: as, [], u, v => by simp [debugItems, debugStr]
  | [a], [b], u, v => by simp [debugItems, str_iff]
  | [a], b :: c :: bs, u, v => by simp [debugItems, str_iff]
  | a :: a' :: as, [b], u, v => by simp [debugItems, str_iff]
  | a :: a' :: as, b :: b' :: bs, u, v => by
    simp [debugItems, str_iff, items_iff (a' :: as) (b' :: bs), and_assoc]

end DebugText
end Verif.Props
