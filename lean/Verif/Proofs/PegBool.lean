import Verif.Proofs.PegOpt
import Verif.Spec.PegBool
/-
Syntaxes put together from others.
-/
namespace Verif
open Spec

/-! ### Renaming -/

theorem rename_matches {G G' : List Peg} {f : Nat → Nat} (hG : ∀ i e, G[i]? = some e → G'[f i]? = some (e.rename f)) {e : Peg} {s : Str}
    {x : Option Nat} (h : Peg.Matches G e s x) : Peg.Matches G' (e.rename f) s x := by
  induction h with
  | empty => exact .empty
  | char_ok h => exact .char_ok h
  | char_no h => exact .char_no h
  | char_end => exact .char_end
  | token => exact .token
  | seq_no _ ih => exact .seq_no ih
  | seq _ _ ih ih' => exact .seq ih ih'
  | alt_first _ ih => exact .alt_first ih
  | alt_next _ _ ih ih' => exact .alt_next ih ih'
  | star_stop _ ih => exact .star_stop ih
  | star_more _ _ ih ih' => exact .star_more ih ih'
  | neg_ok _ ih => exact .neg_ok ih
  | neg_no _ ih => exact .neg_no ih
  | ref hk _ ih => exact .ref (hG _ _ hk) ih

theorem matches_rename {G G' : List Peg} {f : Nat → Nat} (hG : ∀ i e, G[i]? = some e → G'[f i]? = some (e.rename f))
    (hc : ∀ e ∈ G, e.Closed G.length) {e' : Peg} {s : Str} {x : Option Nat} (h : Peg.Matches G' e' s x) :
    ∀ e : Peg, e.Closed G.length → e' = e.rename f → Peg.Matches G e s x := by
  induction h with
  | empty => intro e he heq; cases e <;> cases heq; exact .empty
  | char_ok h => intro e he heq; cases e <;> cases heq; exact .char_ok h
  | char_no h => intro e he heq; cases e <;> cases heq; exact .char_no h
  | char_end => intro e he heq; cases e <;> cases heq; exact .char_end
  | token => intro e he heq; cases e <;> cases heq; exact .token
  | seq_no _ ih => intro e he heq; cases e <;> cases heq; exact .seq_no (ih _ he.1 rfl)
  | seq _ _ ih ih' => intro e he heq; cases e <;> cases heq; exact .seq (ih _ he.1 rfl) (ih' _ he.2 rfl)
  | alt_first _ ih => intro e he heq; cases e <;> cases heq; exact .alt_first (ih _ he.1 rfl)
  | alt_next _ _ ih ih' => intro e he heq; cases e <;> cases heq; exact .alt_next (ih _ he.1 rfl) (ih' _ he.2 rfl)
  | star_stop _ ih => intro e he heq; cases e <;> cases heq; exact .star_stop (ih _ he rfl)
  | star_more _ _ ih ih' => intro e he heq; cases e <;> cases heq; exact .star_more (ih _ he rfl) (ih' (.star _) he rfl)
  | neg_ok _ ih => intro e he heq; cases e <;> cases heq; exact .neg_ok (ih _ he rfl)
  | neg_no _ ih => intro e he heq; cases e <;> cases heq; exact .neg_no (ih _ he rfl)
  | ref hk _ ih =>
    intro e he heq
    cases e <;> cases heq
    rename_i i
    have hi : G[i]? = some G[i] := List.getElem?_eq_getElem he
    have := hG _ _ hi
    rw [hk] at this
    cases this
    exact .ref hi (ih _ (hc _ (List.getElem_mem _)) rfl)

theorem word_rename (f : Nat → Nat) (t : Str) : (Peg.word t).rename f = .word t := by
  induction t with
  | nil => rfl
  | cons c t ih => simp [Peg.word, Peg.rename, ih]

mutual
theorem pegOf_rename (L : Lexer) (f : Nat → Nat) : ∀ r : Rule, pegOf L (renameRule f r) = (pegOf L r).rename f
  | .whitespace opt id => by cases opt <;> rfl
  | .tag t not inv prop id => by
    cases not <;> simp [renameRule, pegOf, Peg.rename, word_rename]
  | .untilAny any opt prop id => by cases opt <;> rfl
  | .untilAnyOrWs any opt prop id => by cases opt <;> rfl
  | .text empty prop id => rfl
  | .number prop us id => rfl
  | .select args id => pegSel_rename L f args
  | .sequence args id => pegSeq_rename L f args
  | .separateBy r b opt trail id => by
    cases opt <;> cases trail <;> simp [renameRule, pegOf, Peg.rename, Peg.tail, pegOf_rename L f r, pegOf_rename L f b]
  | .repeat_ r opt id => by cases opt <;> simp [renameRule, pegOf, Peg.rename, Peg.plus, pegOf_rename L f r]
  | .node name prop ix id => by cases ix <;> rfl
  | .optional r id => by simp [renameRule, pegOf, Peg.rename, pegOf_rename L f r]
  | .not r id => by simp [renameRule, pegOf, Peg.rename, pegOf_rename L f r]
  | .lines _ _ _ => rfl
  | .fastSelect _ _ _ _ => rfl
theorem pegSel_rename (L : Lexer) (f : Nat → Nat) : ∀ rs : List Rule, pegSel L (renameRules f rs) = (pegSel L rs).rename f
  | [] => rfl
  | r :: rs => by simp [renameRules, pegSel, Peg.rename, pegOf_rename L f r, pegSel_rename L f rs]
theorem pegSeq_rename (L : Lexer) (f : Nat → Nat) : ∀ rs : List Rule, pegSeq L (renameRules f rs) = (pegSeq L rs).rename f
  | [] => rfl
  | r :: rs => by simp [renameRules, pegSeq, Peg.rename, pegOf_rename L f r, pegSeq_rename L f rs]
end

theorem rename_id (e : Peg) : e.rename id = e := by
  induction e with
  | seq _ _ iha ihb => simp [Peg.rename, iha, ihb]
  | alt _ _ iha ihb => simp [Peg.rename, iha, ihb]
  | star _ ih => simp [Peg.rename, ih]
  | neg _ ih => simp [Peg.rename, ih]
  | _ => rfl

theorem renameRules_eq (f : Nat → Nat) (rs : List Rule) : renameRules f rs = rs.map (renameRule f) := by
  induction rs with
  | nil => rfl
  | cons r rs ih => simp [renameRules, ih]

theorem rename_child {f : Nat → Nat} {c r : Rule} (h : Child c (renameRule f r)) : ∃ d, Child d r ∧ c = renameRule f d := by
  cases r <;> simp only [renameRule] at h <;> cases h
  case select.select hm =>
    rw [renameRules_eq, List.mem_map] at hm
    obtain ⟨d, hd, rfl⟩ := hm
    exact ⟨d, .select hd, rfl⟩
  case fastSelect.fast hm =>
    rw [renameRules_eq, List.mem_map] at hm
    obtain ⟨d, hd, rfl⟩ := hm
    exact ⟨d, .fast hd, rfl⟩
  case sequence.sequence hm =>
    rw [renameRules_eq, List.mem_map] at hm
    obtain ⟨d, hd, rfl⟩ := hm
    exact ⟨d, .sequence hd, rfl⟩
  case separateBy.item => exact ⟨_, .item, rfl⟩
  case separateBy.sep => exact ⟨_, .sep, rfl⟩
  case repeat_.repeat_ => exact ⟨_, .repeat_, rfl⟩
  case lines.lines => exact ⟨_, .lines, rfl⟩
  case optional.optional => exact ⟨_, .optional, rfl⟩
  case not.not => exact ⟨_, .not, rfl⟩

theorem rename_occurs {f : Nat → Nat} {x r : Rule} (h : Occurs x (renameRule f r)) : ∃ y, Occurs y r ∧ x = renameRule f y := by
  generalize hr : renameRule f r = q at h
  induction h generalizing r with
  | refl => exact ⟨r, .refl, hr.symm⟩
  | step _ hc ih =>
    subst hr
    obtain ⟨d, hd, rfl⟩ := rename_child hc
    obtain ⟨y, hy, rfl⟩ := ih rfl
    exact ⟨y, .step hy hd, rfl⟩

theorem rename_flat {f : Nat → Nat} {r : Rule} (h : Bare r) : Bare (renameRule f r) := by
  intro x hx
  obtain ⟨y, hy, rfl⟩ := rename_occurs hx
  have := h y hy
  cases y <;> simp_all [renameRule]

/-! ### References in range -/

theorem word_closed (n : Nat) (t : Str) : (Peg.word t).Closed n := by
  induction t with
  | nil => trivial
  | cons c t ih => exact ⟨trivial, ih⟩

theorem RuleOk.child {refs : List Rule} {c r : Rule} (h : RuleOk refs r) (hc : Child c r) : RuleOk refs c := fun x hx => h x (.step hx hc)

mutual
theorem pegOf_closed {refs : List Rule} (L : Lexer) : ∀ r : Rule, RuleOk refs r → (pegOf L r).Closed refs.length
  | .whitespace opt id, _ => by cases opt <;> simp [pegOf, Peg.Closed, Peg.plus]
  | .tag t not inv prop id, _ => by
    cases not
    · exact word_closed _ t
    · exact word_closed _ t
  | .untilAny any opt prop id, _ => by cases opt <;> simp [pegOf, Peg.Closed, Peg.plus]
  | .untilAnyOrWs any opt prop id, _ => by cases opt <;> simp [pegOf, Peg.Closed, Peg.plus]
  | .text empty prop id, _ => trivial
  | .number prop us id, _ => trivial
  | .select args id, h => pegSel_closed L args fun _ hr => RuleOk.child h (.select hr)
  | .sequence args id, h => pegSeq_closed L args fun _ hr => RuleOk.child h (.sequence hr)
  | .separateBy r b opt trail id, h => by
    have h1 := pegOf_closed L r (RuleOk.child h .item)
    have h2 := pegOf_closed L b (RuleOk.child h .sep)
    cases opt <;> cases trail <;> simp [pegOf, Peg.Closed, Peg.tail, h1, h2]
  | .repeat_ r opt id, h => by
    have h1 := pegOf_closed L r (RuleOk.child h .repeat_)
    cases opt <;> simp [pegOf, Peg.Closed, Peg.plus, h1]
  | .node name prop ix id, h => by
    cases ix with
    | none => trivial
    | some i => exact h _ .refl
  | .optional r id, h => ⟨pegOf_closed L r (RuleOk.child h .optional), trivial⟩
  | .not r id, h => pegOf_closed L r (RuleOk.child h .not)
  | .lines _ _ _, _ => trivial
  | .fastSelect _ _ _ _, _ => trivial
theorem pegSel_closed {refs : List Rule} (L : Lexer) : ∀ rs : List Rule, (∀ r ∈ rs, RuleOk refs r) → (pegSel L rs).Closed refs.length
  | [], _ => trivial
  | r :: rs, h => ⟨pegOf_closed L r (h r (by simp)), pegSel_closed L rs fun q hq => h q (by simp [hq])⟩
theorem pegSeq_closed {refs : List Rule} (L : Lexer) : ∀ rs : List Rule, (∀ r ∈ rs, RuleOk refs r) → (pegSeq L rs).Closed refs.length
  | [], _ => trivial
  | r :: rs, h => ⟨pegOf_closed L r (h r (by simp)), pegSeq_closed L rs fun q hq => h q (by simp [hq])⟩
end

/-- The rules of a syntax do the same among others. -/
theorem part_matches {L : Lexer} {syn : Syntax} (hs : SyntaxOk syn) {pre post : List Peg} {G : List Peg}
    (hG : G = pre ++ ((syn.rules.map (renameRule (pre.length + ·))).map (pegOf L) ++ post)) {r : Rule} (hr : r ∈ syn.rules) {s : Str}
    {x : Option Nat} :
    Peg.Matches G (pegOf L (renameRule (pre.length + ·) r)) s x ↔ Peg.Matches (syn.rules.map (pegOf L)) (pegOf L r) s x := by
  subst hG
  have hG : ∀ i e, (syn.rules.map (pegOf L))[i]? = some e →
      (pre ++ ((syn.rules.map (renameRule (pre.length + ·))).map (pegOf L) ++ post))[pre.length + i]? = some (e.rename (pre.length + ·)) := by
    intro i e he
    rw [List.getElem?_append_right (Nat.le_add_right _ _), Nat.add_sub_cancel_left]
    rw [List.getElem?_map, Option.map_eq_some_iff] at he
    obtain ⟨q, hq, rfl⟩ := he
    rw [List.getElem?_append_left, List.getElem?_map, List.getElem?_map, hq, ← pegOf_rename]
    · rfl
    · simpa using (List.getElem?_eq_some_iff.1 hq).1
  have hc : ∀ e ∈ syn.rules.map (pegOf L), e.Closed (syn.rules.map (pegOf L)).length := by
    intro e he
    rw [List.mem_map] at he
    obtain ⟨q, hq, rfl⟩ := he
    rw [List.length_map]
    exact pegOf_closed L q (hs q hq)
  rw [pegOf_rename]
  constructor
  · intro h
    exact matches_rename hG hc h _ (hc _ (List.mem_map_of_mem hr)) rfl
  · intro h
    exact rename_matches hG h

theorem pegOf_zero (L : Lexer) (r : Rule) : pegOf L (renameRule (0 + ·) r) = pegOf L r := by
  have : (fun n : Nat => 0 + n) = id := by funext n; simp
  rw [pegOf_rename, this, rename_id]

/-- The first rules of a syntax do the same with others after them. -/
theorem first_matches {L : Lexer} {syn : Syntax} (hs : SyntaxOk syn) {post : List Peg} {G : List Peg}
    (hG : G = syn.rules.map (pegOf L) ++ post) {r : Rule} (hr : r ∈ syn.rules) {s : Str}
    {x : Option Nat} : Peg.Matches G (pegOf L r) s x ↔ Peg.Matches (syn.rules.map (pegOf L)) (pegOf L r) s x := by
  have hm : (syn.rules.map (renameRule (0 + ·))).map (pegOf L) = syn.rules.map (pegOf L) := by
    rw [List.map_map]
    exact List.map_congr_left fun r _ => pegOf_zero L r
  have := part_matches (L := L) (G := G) (pre := []) (post := post) hs (by rw [List.length_nil, hm]; exact hG) hr (s := s) (x := x)
  rwa [List.length_nil, pegOf_zero] at this

/-! ### The end -/

theorem end_matches {L : Lexer} {G : List Peg} : Peg.Matches G (pegOf L endRule) [] (some 0) := .neg_ok (.seq_no .char_end)

theorem all_star {G : List Peg} {C : Char → Bool} (hC : ∀ c, C c = true) (s : Str) : Peg.Matches G (.star (.char C)) s (some s.length) := by
  induction s with
  | nil => exact .star_stop .char_end
  | cons c s ih => simpa [Nat.add_comm] using Peg.Matches.star_more (.char_ok (hC c)) ih

theorem end_no {L : Lexer} {G : List Peg} {s : Str} (h : s ≠ []) : Peg.Matches G (pegOf L endRule) s none := by
  cases s with
  | nil => exact absurd rfl h
  | cons c s => exact .neg_no (n := 1 + s.length) (.seq (o := some s.length) (.char_ok (by simp)) (all_star (by simp) s))

theorem rest_matches {L : Lexer} {G : List Peg} (s : Str) : Peg.Matches G (pegOf L restRule) s (some s.length) :=
  all_star (by simp) s

/-! ### What the combined syntaxes do -/

/-- The outcome of the last rule of a syntax. -/
def Last (L : Lexer) (syn : Syntax) (s : Str) (x : Option Nat) : Prop :=
  ∃ r, syn.rules.getLast? = some r ∧ Peg.Matches (syn.rules.map (pegOf L)) (pegOf L r) s x

theorem Last.det {L : Lexer} {syn : Syntax} {s : Str} {x y : Option Nat} (h : Last L syn s x) (h' : Last L syn s y) : x = y := by
  obtain ⟨r, hr, h⟩ := h
  obtain ⟨q, hq, h'⟩ := h'
  rw [hr] at hq
  cases hq
  exact h.det h'

theorem getLast?_eq_getElem {α : Type} {l : List α} {a : α} (h : l.getLast? = some a) : l[l.length - 1]? = some a := by
  rw [← List.getLast?_eq_getElem?]; exact h

theorem lastOf_first {L : Lexer} {syn : Syntax} (hs : SyntaxOk syn) (hne : syn.rules ≠ []) {post : List Rule} {s : Str}
    {x : Option Nat} : Peg.Matches ((syn.rules ++ post).map (pegOf L)) (pegOf L (lastRuleOf syn.rules.length)) s x ↔ Last L syn s x := by
  obtain ⟨r, hr⟩ : ∃ r, syn.rules.getLast? = some r := ⟨_, List.getLast?_eq_some_getLast hne⟩
  have hi := getLast?_eq_getElem hr
  have hlt : syn.rules.length - 1 < syn.rules.length := (List.getElem?_eq_some_iff.1 hi).1
  have hi' : ((syn.rules ++ post).map (pegOf L))[syn.rules.length - 1]? = some (pegOf L r) := by
    rw [List.getElem?_map, List.getElem?_append_left hlt, hi]; rfl
  have key := first_matches (L := L) (G := (syn.rules ++ post).map (pegOf L)) (post := post.map (pegOf L)) hs (by simp)
    (List.mem_of_getLast? hr) (s := s) (x := x)
  constructor
  · intro h
    cases h with
    | ref hk h =>
      rw [hi'] at hk
      cases hk
      exact ⟨r, hr, key.1 h⟩
  · rintro ⟨q, hq, h⟩
    rw [hr] at hq
    cases hq
    exact .ref hi' (key.2 h)

theorem lastOf_second {L : Lexer} {a b : Syntax} (hs : SyntaxOk b) (hne : b.rules ≠ []) {post : List Rule} {s : Str} {x : Option Nat} :
    Peg.Matches ((together a b ++ post).map (pegOf L)) (pegOf L (lastRuleOf (together a b).length)) s x ↔ Last L b s x := by
  obtain ⟨r, hr⟩ : ∃ r, b.rules.getLast? = some r := ⟨_, List.getLast?_eq_some_getLast hne⟩
  have hi := getLast?_eq_getElem hr
  have hlt : b.rules.length - 1 < b.rules.length := (List.getElem?_eq_some_iff.1 hi).1
  have hlen : (together a b).length = a.rules.length + b.rules.length := by simp [together]
  have hi' : ((together a b ++ post).map (pegOf L))[(together a b).length - 1]? =
      some (pegOf L (renameRule (a.rules.length + ·) r)) := by
    rw [List.getElem?_map, List.getElem?_append_left (by omega), together, List.getElem?_append_right (by simp; omega), List.getElem?_map]
    have e : (a.rules ++ b.rules.map (renameRule (a.rules.length + ·))).length - 1 - a.rules.length = b.rules.length - 1 := by
      simp; omega
    rw [e, hi]; rfl
  have key := part_matches (L := L) (G := (together a b ++ post).map (pegOf L)) (pre := a.rules.map (pegOf L)) (post := post.map (pegOf L)) hs
    (by simp [together]) (List.mem_of_getLast? hr) (s := s) (x := x)
  rw [List.length_map] at key
  constructor
  · intro h
    cases h with
    | ref hk h =>
      rw [hi'] at hk
      cases hk
      exact ⟨r, hr, key.1 h⟩
  · rintro ⟨q, hq, h⟩
    rw [hr] at hq
    cases hq
    exact .ref hi' (key.2 h)

theorem seq_zero {G : List Peg} {a b : Peg} {s : Str} {x : Option Nat} (h : Peg.Matches G a s (some 0)) (h' : Peg.Matches G b s x) :
    Peg.Matches G (.seq a b) s x := by
  have := Peg.Matches.seq h (by rwa [List.drop_zero])
  cases x with
  | none => exact this
  | some n => simpa using this

/-- A whole text, or not. -/
theorem whole_ok {L : Lexer} {G : List Peg} {e : Peg} {s : Str} (h : Peg.Matches G e s (some s.length)) :
    Peg.Matches G (.seq e (.seq (pegOf L endRule) .empty)) s (some s.length) := by
  refine .seq (o := some 0) h (.seq (n := 0) (o := some 0) ?_ .empty)
  rw [List.drop_length]
  exact end_matches

theorem whole_no {L : Lexer} {G : List Peg} {e : Peg} {s : Str} {x : Option Nat} (h : Peg.Matches G e s x) (hx : ∀ n, x = some n → n < s.length) :
    Peg.Matches G (.seq e (.seq (pegOf L endRule) .empty)) s none := by
  cases x with
  | none => exact .seq_no h
  | some n =>
    refine .seq (o := none) h (.seq_no (end_no ?_))
    have := hx n rfl
    intro h0
    have := congrArg List.length h0
    simp at this
    omega

theorem whole_inv {L : Lexer} {G : List Peg} {e : Peg} {s : Str} {x : Option Nat}
    (h : Peg.Matches G (.seq e (.seq (pegOf L endRule) .empty)) s x) : ∃ y, Peg.Matches G e s y := by
  cases h with
  | seq_no h => exact ⟨_, h⟩
  | seq h _ => exact ⟨_, h⟩

end Verif
