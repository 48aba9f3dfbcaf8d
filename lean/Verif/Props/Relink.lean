import Verif.Proofs.Names
import Verif.Props.Sayable
/-
C85: of the rules of a syntax only those that are referred to matter, and not their order or names.
-/
namespace Verif.Props
open Spec

section
variable {L : Lexer}

/-- C85: parsing does the same, step for step, with syntaxes that start with the same rule but for where
its references point, if the rules they point to are the same in this sense. -/
theorem C85_same {ρ : Nat → Nat → Prop} {syn syn' : Syntax} (h : Linked ρ syn syn') : Interchangeable L syn syn' := by
  have key : ∀ {syn syn' : Syntax}, Linked ρ syn syn' → SameParser L syn syn' := by
    intro syn syn' h text toks ind
    have := fun n => relink_parse h L n text toks ind
    exact ⟨fun o => by simp only [Parses, this], by simp only [ParseDiverges, this]⟩
  exact ⟨key h, fun o o' ho ho' => key (relink_optimizes h ho ho')⟩

/-- C85: only the rules met matter, and their names do not: two lists of rules are interchangeable if
the last rules are the same and the names met stand for the same rules, up to a change of names. -/
theorem C85_names {rs rs' : List (Str × Rule)} (σ : Str → Str) (hb : ∀ x ∈ rs, ByName x.2)
    (hl : rs'.getLast?.map (·.2) = rs.getLast?.map fun x => called σ x.2)
    (hm : ∀ name, Met rs name → meant (σ name) rs' = (meant name rs).map (called σ)) :
    Interchangeable L (syntaxOf rs) (syntaxOf rs') := C85_same (names_linked hb hl hm)

theorem same_names {rs rs' : List (Str × Rule)} (hb : ∀ x ∈ rs, ByName x.2)
    (hl : rs'.getLast?.map (·.2) = rs.getLast?.map (·.2)) (hm : ∀ name, Met rs name → meant name rs' = meant name rs) :
    Interchangeable L (syntaxOf rs) (syntaxOf rs') := by
  have e : called id = fun r => r := funext called_id
  refine C85_names id hb ?_ ?_
  · rw [hl, e]
  · intro name h
    rw [e]
    simpa using hm name h

/-- C85: the rules before the last may be given in another order, if no two of them have the same name. -/
theorem C85_order {rs rs' : List (Str × Rule)} {x : Str × Rule} (h : rs.Perm rs') (hn : (rs.map (·.1)).Nodup)
    (hb : ∀ y ∈ rs ++ [x], ByName y.2) : Interchangeable L (syntaxOf (rs ++ [x])) (syntaxOf (rs' ++ [x])) := by
  refine same_names hb (by simp) fun name _ => ?_
  rw [meant_append, meant_append, meant_perm h hn]

/-- C85: a rule before the last that is not met may be left out. -/
theorem C85_unused {a b : List (Str × Rule)} {x : Str × Rule} (hb : ∀ y ∈ a ++ x :: b, ByName y.2) (h0 : b ≠ [])
    (hx : ¬ Met (a ++ x :: b) x.1) : Interchangeable L (syntaxOf (a ++ x :: b)) (syntaxOf (a ++ b)) := by
  refine same_names hb ?_ fun name h => ?_
  · obtain ⟨y, hy⟩ : ∃ y, b.getLast? = some y := by
      cases hb : b.getLast? with
      | none => exact absurd (List.getLast?_eq_none_iff.1 hb) h0
      | some y => exact ⟨y, rfl⟩
    simp [List.getLast?_append, List.getLast?_cons, hy]
  · have : name ≠ x.1 := by rintro rfl; exact hx h
    rw [meant_append, meant_append]
    simp [meant, this]

/-- C85: a rule before the last with the name of an earlier rule may be left out. -/
theorem C85_duplicate {a b : List (Str × Rule)} {x : Str × Rule} (hb : ∀ y ∈ a ++ x :: b, ByName y.2) (h0 : b ≠ [])
    (hx : x.1 ∈ a.map (·.1)) : Interchangeable L (syntaxOf (a ++ x :: b)) (syntaxOf (a ++ b)) := by
  refine same_names hb ?_ fun name h => ?_
  · obtain ⟨y, hy⟩ : ∃ y, b.getLast? = some y := by
      cases hb : b.getLast? with
      | none => exact absurd (List.getLast?_eq_none_iff.1 hb) h0
      | some y => exact ⟨y, rfl⟩
    simp [List.getLast?_append, List.getLast?_cons, hy]
  · rw [meant_append, meant_append]
    by_cases e : name = x.1
    · obtain ⟨r, hr⟩ := meant_some hx
      rw [e, hr]
      rfl
    · simp [meant, e]

/-- C85: the rules may be given other names, if names that are different stay different. -/
theorem C85_rename {rs : List (Str × Rule)} {σ : Str → Str} (hb : ∀ x ∈ rs, ByName x.2)
    (hσ : ∀ x ∈ rs, ∀ name, Met rs name → σ name = σ x.1 → name = x.1) :
    Interchangeable L (syntaxOf rs) (syntaxOf (rs.map fun x => (σ x.1, called σ x.2))) := by
  refine C85_names σ hb ?_ fun name h => ?_
  · simp only [List.getLast?_map, Option.map_map]
    rfl
  · exact meant_map fun x hx => hσ x hx name h

theorem says_byName {text : Str} {rs : List (Str × Rule)} (h : Says L text rs) : ∀ x ∈ rs, ByName x.2 := by
  obtain ⟨doc, -, -, h⟩ := h
  intro x hx name prop i id ho
  have := Rule.all_occurs ho (Doc.read_plain _ false (by simp) h x hx)
  simpa [plain] using this

/-- C85: two texts of which `syntax` makes something make the same of every text, if the rules said
start the same and the names met stand for the same. -/
theorem C85_texts (hL : L.Lawful) (hX : L.Exact) {text text' : Str} {rs rs' : List (Str × Rule)}
    (h : Says L text rs) (h' : Says L text' rs') (σ : Str → Str)
    (hl : rs'.getLast?.map (·.2) = rs.getLast?.map fun x => called σ x.2)
    (hm : ∀ name, Met rs name → meant (σ name) rs' = (meant name rs).map (called σ)) {syn syn' : Syntax}
    (hs : SyntaxReturns L text (.ok syn)) (hs' : SyntaxReturns L text' (.ok syn')) : SameParser L syn syn' := by
  obtain ⟨o, ho, e⟩ := (C83_read hL hX h _).1 hs
  obtain ⟨o', ho', e'⟩ := (C83_read hL hX h' _).1 hs'
  cases e
  cases e'
  exact (C85_names σ (says_byName h) hl hm).2 _ _ ho ho'

end

/-! ### The conditions are needed -/

/-- `0 a = "x"`, `0 a = "y"`. -/
def exTwoA : List (Str × Rule) := [(c!"a", .tag c!"x" false false none 1), (c!"a", .tag c!"y" false false none 2)]

/-- `0 doc = a`. -/
def exOfA : Str × Rule := (c!"doc", .node c!"a" none none 3)

/-- C85: the order of rules of the same name matters. -/
theorem C85_order_refuted : ¬ ∀ (rs rs' : List (Str × Rule)) (x : Str × Rule), rs.Perm rs' →
    (∀ y ∈ rs ++ [x], ByName y.2) → Interchangeable stdLexer (syntaxOf (rs ++ [x])) (syntaxOf (rs' ++ [x])) := by
  intro h
  have hb : ∀ y ∈ exTwoA ++ [exOfA], ByName y.2 := by
    intro y hy name prop i id ho
    simp only [exTwoA, exOfA, List.cons_append, List.nil_append, List.mem_cons, List.not_mem_nil, or_false] at hy
    rcases hy with rfl | rfl | rfl <;> (cases ho with | step _ hc => cases hc)
  have h1 := ((h exTwoA [(c!"a", .tag c!"y" false false none 2), (c!"a", .tag c!"x" false false none 1)] exOfA
    (List.Perm.swap _ _ _) hb).1 c!"x" [] Indent.default).1 (.ok [])
  obtain ⟨-, n, hn⟩ := h1.1 ⟨by simp, 5, by rfl⟩
  have h2 : Parses stdLexer (syntaxOf ([(c!"a", .tag c!"y" false false none 2), (c!"a", .tag c!"x" false false none 1)] ++ [exOfA]))
      c!"x" [] Indent.default (.err ⟨⟨0, 0⟩, .expectedTag c!"y" 2⟩ []) := ⟨by simp, 5, by rfl⟩
  have := parses_det ⟨by simp, n, hn⟩ h2
  cases this

/-- `0 x = [x {x "b"}]`. -/
def exStuck : Str × Rule := (c!"x", .sequence [.node c!"x" none none 1,
  .select [.node c!"x" none none 2, .tag c!"b" false false none 3] 4] 5)

/-- C85: a rule that is not met may keep the optimizer, and so `syntax`, from returning. -/
theorem C85_unused_refuted : ¬ ∀ (a b : List (Str × Rule)) (x : Str × Rule), (∀ y ∈ a ++ x :: b, ByName y.2) → b ≠ [] →
    ¬ Met (a ++ x :: b) x.1 → (∃ o, Optimizes (syntaxOf (a ++ b)) o) → ∃ o, Optimizes (syntaxOf (a ++ x :: b)) o := by
  intro h
  have hb : ∀ y ∈ [] ++ exStuck :: [(c!"doc", Rule.tag c!"a" false false none 6)], ByName y.2 := by
    intro y hy name prop i id ho
    simp only [exStuck, List.nil_append, List.mem_cons, List.not_mem_nil, or_false] at hy
    rcases hy with rfl | rfl
    · have := Rule.all_occurs ho (p := plain false) rfl
      simp [plain] at this
    · cases ho with | step _ hc => cases hc
  have hm : ¬ Met ([] ++ exStuck :: [(c!"doc", Rule.tag c!"a" false false none 6)]) exStuck.1 := by
    have : ∀ name, ¬ Met ([] ++ exStuck :: [(c!"doc", Rule.tag c!"a" false false none 6)]) name := by
      intro name hm
      induction hm with
      | last hl hn =>
        cases hl
        obtain ⟨_, _, _, ho⟩ := hn
        cases ho with | step _ hc => cases hc
      | step _ _ _ ih => exact ih
    exact this _
  obtain ⟨o, n, ho⟩ := h [] [(c!"doc", .tag c!"a" false false none 6)] exStuck hb (by simp) hm ⟨_, 5, rfl⟩
  have key : ∀ (refs : List Rule) (q : Rule), refs[0]? = some (.sequence [.node c!"x" none (some 0) 1, q] 5) → ∀ n id,
      uniqueByte refs n (.node c!"x" none (some 0) id) = .timeout := by
    intro refs q hr n
    induction n using Nat.strongRecOn with
    | _ n ih =>
      intro id
      match n with
      | 0 => rfl
      | 1 => simp [uniqueByte, hr]
      | n + 2 => simp only [uniqueByte, hr]; exact ih n (by omega) 1
  obtain ⟨rules, h1, h2⟩ := Comp.bind_ok.1 ho
  have h3 := Comp.all_get h1 0
  have hk := key (syntaxOf ([] ++ exStuck :: [(c!"doc", .tag c!"a" false false none 6)])).rules _ rfl n 2
  have h4 : ∀ refs, uniqueByte refs n (.node c!"x" none (some 0) 2) = .timeout →
      optimizeRule refs n (.sequence [.node c!"x" none (some 0) 1,
        .select [.node c!"x" none (some 0) 2, .tag c!"b" false false none 3] 4] 5) = .timeout := by
    intro refs hk
    simp only [optimizeRule, optimizeRules, optimizeSelect, uniqueTable, uniqueLoop, hk]
    rfl
  have h5 : some Comp.timeout = (rules[0]?).map Comp.ok := (congrArg some (h4 _ hk)).symm.trans h3
  cases hr : rules[0]? with
  | none => rw [hr] at h5; cases h5
  | some r => rw [hr] at h5; cases h5

/-! ### A case -/

/-- `0 item = "a":"item"`, `0 sep = ","`, `0 old = item`. -/
def exParts : List (Str × Rule) := [(c!"item", .tag c!"a" false false (some c!"item") 1),
  (c!"sep", .tag c!"," false false none 2), (c!"old", .node c!"item" none none 3)]

/-- `0 doc = .s!(sep item:"x")`. -/
def exWhole : Str × Rule := (c!"doc", .separateBy (.node c!"item" (some c!"x") none 4) (.node c!"sep" none none 5) false true 6)

/-- The rules from the last to the first, with `old` left out and other names. -/
def exOther : List (Str × Rule) := [(c!"1", .tag c!"," false false none 2), (c!"2", .tag c!"a" false false (some c!"item") 1),
  (c!"3", .separateBy (.node c!"2" (some c!"x") none 4) (.node c!"1" none none 5) false true 6)]

/-- The change of names. -/
def exNames (name : Str) : Str := if name = c!"item" then c!"2" else if name = c!"sep" then c!"1" else name

example : Interchangeable stdLexer (syntaxOf (exParts ++ [exWhole])) (syntaxOf exOther) := by
  have h1 : ∀ name, Met (exParts ++ [exWhole]) name → name = c!"item" ∨ name = c!"sep" := by
    intro name h
    induction h with
    | last hl hn =>
      cases hl
      obtain ⟨_, _, _, ho⟩ := hn
      cases ho with
      | step ho hc => cases hc with
        | item => cases ho with
          | refl => exact .inl rfl
          | step _ hc => cases hc
        | sep => cases ho with
          | refl => exact .inr rfl
          | step _ hc => cases hc
    | step _ hr hn ih =>
      rcases ih with rfl | rfl <;> cases hr <;>
        (obtain ⟨_, _, _, ho⟩ := hn; cases ho with | step _ hc => cases hc)
  refine C85_names exNames ?_ rfl ?_
  · intro y hy name prop i id ho
    have : ∀ y ∈ exParts ++ [exWhole], Rule.all (plain false) y.2 = true := by decide +kernel
    have := Rule.all_occurs ho (this y hy)
    simp [plain] at this
  · intro name h
    rcases h1 name h with rfl | rfl <;> rfl

example : parse stdLexer 9 (syntaxOf (exParts ++ [exWhole])) c!"a,a" [] =
    .ok [⟨⟨0, 0⟩, .startNode c!"x"⟩, ⟨⟨0, 1⟩, .bool c!"item" true⟩, ⟨⟨0, 1⟩, .endNode c!"x"⟩,
      ⟨⟨2, 0⟩, .startNode c!"x"⟩, ⟨⟨2, 1⟩, .bool c!"item" true⟩, ⟨⟨2, 1⟩, .endNode c!"x"⟩] := by rfl

end Verif.Props
