import Verif.Spec.Relink
import Verif.Spec.Optimize
import Verif.Spec.Api
import Verif.Proofs.OptPanic
import Verif.Proofs.RenumberOpt
/-
Where references point, and under what names, does not matter as long as the rules there are alike.
-/
namespace Verif
open Spec

variable {ρ : Nat → Nat → Prop}

theorem Spec.RelinkedL.length {rs rs'} (h : RelinkedL ρ rs rs') : rs.length = rs'.length := by
  match h with
  | .nil => rfl
  | .cons _ h' => simp [RelinkedL.length h']

theorem Spec.RelinkedL.get {rs rs'} (h : RelinkedL ρ rs rs') : ∀ k : Nat, LinkedAt ρ rs[k]? rs'[k]? := by
  match h with
  | .nil => intro k; simp [LinkedAt]
  | .cons h h' =>
    intro k
    cases k with
    | zero => exact h
    | succ k => simpa using RelinkedL.get h' k

theorem Spec.RelinkedL.last {rs rs'} (h : RelinkedL ρ rs rs') : LinkedAt ρ rs.getLast? rs'.getLast? := by
  rw [List.getLast?_eq_getElem?, List.getLast?_eq_getElem?, ← h.length]
  exact h.get _

/-! ### Parsing -/

/-- The two evaluators do the same on rules that differ only in their references. -/
def EvLike (ρ : Nat → Nat → Prop) (ev ev' : Ev) : Prop := ∀ r r', Relinked ρ r r' → ev r = ev' r'

section
variable {ev ev' : Ev} (he : EvLike ρ ev ev')
include he

theorem relink_select {rs rs'} (h : RelinkedL ρ rs rs') (id : DebugId) (s : Nat) (p : Pos) :
    ∀ oe st, evalSelect ev id s p rs oe st = evalSelect ev' id s p rs' oe st := by
  match h with
  | .nil => intro oe st; cases oe <;> rfl
  | .cons h h' =>
    intro oe st
    simp only [evalSelect, he _ _ h, relink_select h' id s p]

theorem relink_sequence {rs rs'} (h : RelinkedL ρ rs rs') (start : Pos) :
    ∀ p s oe st, evalSequence ev start rs p s oe st = evalSequence ev' start rs' p s oe st := by
  match h with
  | .nil => intros; rfl
  | .cons h h' =>
    intro p s oe st
    simp only [evalSequence, he _ _ h, relink_sequence h' start]

theorem relink_fast {rs rs'} (h : RelinkedL ρ rs rs') (tb : UInt8 → UInt8) (tail : Bool) (id : DebugId)
    (st : St) (s : Nat) (p : Pos) : evalFastSelect ev tb rs tail id st s p = evalFastSelect ev' tb rs' tail id st s p := by
  unfold evalFastSelect
  have hl := h.last
  cases p.src with
  | nil => rfl
  | cons c cs =>
    simp only
    have hg := h.get (tb (firstByte c)).toNat
    generalize rs.getLast? = a at hl ⊢
    generalize rs'.getLast? = a' at hl ⊢
    generalize rs[(tb (firstByte c)).toNat]? = b at hg ⊢
    generalize rs'[(tb (firstByte c)).toNat]? = b' at hg ⊢
    match a, a', hl, b, b', hg with
    | none, none, _, none, none, _ => rfl
    | none, none, _, some b, some b', hg => simp only [he _ _ hg]
    | some a, some a', hl, none, none, _ => simp only [he _ _ hl]
    | some a, some a', hl, some b, some b', hg => simp only [he _ _ hl, he _ _ hg]

theorem relink_repeat {r r'} (h : Relinked ρ r r') (opt : Bool) (start : Pos) :
    ∀ n first p s oe st, evalRepeat ev r opt start n first p s oe st = evalRepeat ev' r' opt start n first p s oe st := by
  intro n
  induction n with
  | zero => intros; rfl
  | succ n ih => intros; simp only [evalRepeat, he _ _ h, ih]

theorem relink_separate {r r' b b'} (h : Relinked ρ r r') (h' : Relinked ρ b b') (opt trail : Bool) (start : Pos) :
    ∀ n first p s oe st, evalSeparateBy ev r b opt trail start n first p s oe st =
      evalSeparateBy ev' r' b' opt trail start n first p s oe st := by
  intro n
  induction n with
  | zero => intros; rfl
  | succ n ih => intros; simp only [evalSeparateBy, he _ _ h, he _ _ h', ih]

theorem relink_line {r r'} (h : Relinked ρ r r') (ind : Bool) :
    (if ind then lineClosureIndent ev r else lineClosure ev r) =
      if ind then lineClosureIndent ev' r' else lineClosure ev' r' := by
  cases ind
  · funext x p
    simp [lineClosure, he _ _ h]
  · funext x p
    simp [lineClosureIndent, lineItem, he _ _ h]

end

theorem relink_eval (L : Lexer) {refs refs' : List Rule} (hr : ∀ i j, ρ i j → LinkedAt ρ refs[i]? refs'[j]?) :
    ∀ n, EvLike ρ (eval L refs n) (eval L refs' n) := by
  intro n
  induction n with
  | zero => intro r r' h; rfl
  | succ n ih =>
    intro r r' h
    funext st s p
    simp only [eval, step]
    cases h with
    | select hs => exact relink_select ih hs ..
    | fastSelect hs => exact relink_fast ih hs ..
    | sequence hs => exact relink_sequence ih hs ..
    | separateBy h h' => exact relink_separate ih h h' ..
    | repeat_ h => exact relink_repeat ih h ..
    | lines h => simp only [relink_line ih h]
    | optional h => simp only [evalOptional, ih _ _ h]
    | not h => simp only [evalNot, ih _ _ h]
    | @node _ _ _ i j _ h =>
      simp only [evalNode]
      have := hr i j h
      generalize refs[i]? = a at this ⊢
      generalize refs'[j]? = a' at this ⊢
      match a, a', this with
      | none, none, _ => rfl
      | some a, some a', h => simp only [ih _ _ h]
    | _ => rfl

theorem relink_parse {syn syn' : Syntax} (h : Linked ρ syn syn') (L : Lexer) (n : Nat) (text : Str) (toks : List Tok)
    (ind : Indent) : parseWithIndent L n syn text toks ind = parseWithIndent L n syn' text toks ind := by
  unfold parseWithIndent
  have h0 := h.start
  generalize syn.rules.getLast? = a at h0 ⊢
  generalize syn'.rules.getLast? = a' at h0 ⊢
  match a, a', h0 with
  | none, none, _ => rfl
  | some a, some a', h0 => simp only [relink_eval L h.rules n _ _ h0]

/-! ### Optimizing -/

section
variable {refs refs' : List Rule} (hrefs : ∀ i j, ρ i j → LinkedAt ρ refs[i]? refs'[j]?)
include hrefs

theorem uniqueByte_relink : ∀ n {r r'}, Relinked ρ r r' → uniqueByte refs' n r' = uniqueByte refs n r := by
  intro n
  induction n with
  | zero => intro r r' _; simp [uniqueByte]
  | succ n ih =>
    intro r r' h
    cases h with
    | not hr => cases hr with
      | not hr => simp [uniqueByte, ih hr]
      | _ => simp [uniqueByte]
    | select hs => cases hs with
      | nil => simp [uniqueByte]
      | cons hr hs => cases hs with
        | nil => simp [uniqueByte, ih hr]
        | cons => simp [uniqueByte]
    | sequence hs => cases hs with
      | nil => simp [uniqueByte]
      | cons hr hs => simp [uniqueByte, ih hr]
    | separateBy hr hb => simp [uniqueByte, ih hr]
    | repeat_ hr => simp [uniqueByte, ih hr]
    | @node _ _ _ i j _ h =>
      simp only [uniqueByte]
      have := hrefs i j h
      generalize refs[i]? = a at this ⊢
      generalize refs'[j]? = a' at this ⊢
      match a, a', this with
      | none, none, _ => rfl
      | some a, some a', h => exact ih h
    | _ => simp [uniqueByte]

theorem uniqueLoop_relink (n : Nat) {rs rs'} (h : RelinkedL ρ rs rs') :
    ∀ i t u, uniqueLoop refs' n i rs' t u = uniqueLoop refs n i rs t u := by
  match h with
  | .nil => intros; rfl
  | .cons h1 h2 =>
    intro i t u
    simp only [uniqueLoop, uniqueByte_relink hrefs n h1, uniqueLoop_relink n h2]

end

/-- Lists of computations that are alike one by one. -/
inductive CompsLinked (ρ : Nat → Nat → Prop) : List (Comp Rule) → List (Comp Rule) → Prop
  | nil : CompsLinked ρ [] []
  | cons {x y xs ys} (h : CompLike (Relinked ρ) x y) (h' : CompsLinked ρ xs ys) :
      CompsLinked ρ (x :: xs) (y :: ys)

theorem CompsLinked.all {xs ys} (h : CompsLinked ρ xs ys) :
    CompLike (RelinkedL ρ) (Comp.all xs) (Comp.all ys) := by
  induction h with
  | nil => exact .ok .nil
  | cons h _ ih =>
    cases h with
    | panic => exact .panic
    | timeout => exact .timeout
    | ok h =>
      simp only [Comp.all]
      generalize Comp.all _ = a at ih
      generalize Comp.all _ = b at ih
      cases ih with
      | ok h' => exact .ok (.cons h h')
      | panic => exact .panic
      | timeout => exact .timeout

theorem CompsLinked.take {xs ys} (h : CompsLinked ρ xs ys) : ∀ k, CompsLinked ρ (xs.take k) (ys.take k) := by
  induction h with
  | nil => intro k; simpa using .nil
  | cons h _ ih =>
    intro k
    cases k with
    | zero => exact .nil
    | succ k => exact .cons h (ih k)

theorem CompsLinked.drop {xs ys} (h : CompsLinked ρ xs ys) : ∀ k, CompsLinked ρ (xs.drop k) (ys.drop k) := by
  induction h with
  | nil => intro k; simpa using .nil
  | cons h h' ih =>
    intro k
    cases k with
    | zero => exact .cons h h'
    | succ k => exact ih k

theorem Spec.RelinkedL.snoc {rs rs' r r'} (h : RelinkedL ρ rs rs') (hr : Relinked ρ r r') :
    RelinkedL ρ (rs ++ [r]) (rs' ++ [r']) := by
  match h with
  | .nil => exact .cons hr .nil
  | .cons h1 h2 => exact .cons h1 (h2.snoc hr)

theorem optimizeSelect_relink {refs refs' : List Rule} (hrefs : ∀ i j, ρ i j → LinkedAt ρ refs[i]? refs'[j]?) (n : Nat) {rs rs' id xs ys} (h : RelinkedL ρ rs rs') (hx : CompsLinked ρ xs ys) :
    CompLike (Relinked ρ) (optimizeSelect refs n rs xs id) (optimizeSelect refs' n rs' ys id) := by
  have plain : CompLike (Relinked ρ) (do let a ← Comp.all xs; return .select a id)
      (do let a ← Comp.all ys; return .select a id) :=
    hx.all.bind fun _ _ h => .ok (.select h)
  unfold optimizeSelect
  have hu : uniqueTable refs' n rs' = uniqueTable refs n rs := uniqueLoop_relink hrefs n h _ _ _
  rw [hu]
  cases uniqueTable refs n rs with
  | panic => exact .panic
  | timeout => exact .timeout
  | ok t =>
    obtain ⟨t, u⟩ := t
    simp only [← h.length]
    split
    · split
      · exact (hx.drop 1).all.bind fun _ _ _ => plain
      · exact plain
    · refine (hx.take u).all.bind fun a b hab => ?_
      split
      · exact (hx.drop u).all.bind fun _ _ h' => .ok (.fastSelect (hab.snoc (.select h')))
      · exact .ok (.fastSelect hab)

mutual
theorem optimizeRule_relink {refs refs' : List Rule} (hrefs : ∀ i j, ρ i j → LinkedAt ρ refs[i]? refs'[j]?)
    (n : Nat) {r r'} (h : Relinked ρ r r') :
    CompLike (Relinked ρ) (optimizeRule refs n r) (optimizeRule refs' n r') := by
  match h with
  | .whitespace => exact .ok .whitespace
  | .tag => exact .ok .tag
  | .untilAny => exact .ok .untilAny
  | .untilAnyOrWs => exact .ok .untilAnyOrWs
  | .text => exact .ok .text
  | .number => exact .ok .number
  | .unresolved => exact .ok .unresolved
  | .node h => exact .ok (.node h)
  | .fastSelect hs => exact .ok (.fastSelect hs)
  | .select hs =>
    simp only [optimizeRule]
    exact optimizeSelect_relink hrefs n hs (optimizeRules_relink hrefs n hs)
  | .sequence hs =>
    simp only [optimizeRule]
    exact (optimizeRules_relink hrefs n hs).all.bind fun _ _ h' => .ok (.sequence h')
  | .separateBy hr hb =>
    simp only [optimizeRule]
    exact (optimizeRule_relink hrefs n hr).bind fun _ _ h1 =>
      (optimizeRule_relink hrefs n hb).bind fun _ _ h2 => .ok (.separateBy h1 h2)
  | .repeat_ hr =>
    simp only [optimizeRule]
    exact (optimizeRule_relink hrefs n hr).bind fun _ _ h1 => .ok (.repeat_ h1)
  | .lines hr =>
    simp only [optimizeRule]
    exact (optimizeRule_relink hrefs n hr).bind fun _ _ h1 => .ok (.lines h1)
  | .optional hr =>
    simp only [optimizeRule]
    exact (optimizeRule_relink hrefs n hr).bind fun _ _ h1 => .ok (.optional h1)
  | .not hr =>
    simp only [optimizeRule]
    exact (optimizeRule_relink hrefs n hr).bind fun _ _ h1 => .ok (.not h1)
theorem optimizeRules_relink {refs refs' : List Rule} (hrefs : ∀ i j, ρ i j → LinkedAt ρ refs[i]? refs'[j]?)
    (n : Nat) {rs rs'} (h : RelinkedL ρ rs rs') :
    CompsLinked ρ (optimizeRules refs n rs) (optimizeRules refs' n rs') := by
  match h with
  | .nil => exact .nil
  | .cons h h' => exact .cons (optimizeRule_relink hrefs n h) (optimizeRules_relink hrefs n h')
end

theorem Comp.all_get {α : Type} {xs : List (Comp α)} {ys : List α} (h : Comp.all xs = .ok ys) (k : Nat) :
    xs[k]? = ys[k]?.map .ok := by
  induction xs generalizing ys k with
  | nil => cases h; simp
  | cons x xs ih =>
    cases x with
    | panic => cases h
    | timeout => cases h
    | ok y =>
      simp only [Comp.all] at h
      cases hxs : Comp.all xs with
      | panic => rw [hxs] at h; cases h
      | timeout => rw [hxs] at h; cases h
      | ok ys' =>
        rw [hxs] at h
        cases h
        cases k with
        | zero => simp
        | succ k => simpa using ih hxs k

theorem optimize_get {n : Nat} {syn o : Syntax} (h : syn.optimize n = .ok o) (k : Nat) :
    (syn.rules[k]?).map (optimizeRule syn.rules n) = o.rules[k]?.map .ok := by
  obtain ⟨rules, h1, h2⟩ := Comp.bind_ok.1 h
  cases h2
  simpa using Comp.all_get h1 k

theorem relink_optimizes {syn syn' o o' : Syntax} (h : Linked ρ syn syn') (ho : Optimizes syn o)
    (ho' : Optimizes syn' o') : Linked ρ o o' := by
  obtain ⟨a, ha⟩ := ho
  obtain ⟨b, hb⟩ := ho'
  have ha := optimize_mono (Nat.le_max_left a b) ha
  have hb := optimize_mono (Nat.le_max_right a b) hb
  have key : ∀ i j : Nat, LinkedAt ρ syn.rules[i]? syn'.rules[j]? → LinkedAt ρ o.rules[i]? o'.rules[j]? := by
    intro i j hij
    have h1 := optimize_get ha i
    have h2 := optimize_get hb j
    generalize syn.rules[i]? = x at h1 hij
    generalize syn'.rules[j]? = x' at h2 hij
    generalize o.rules[i]? = y at h1 ⊢
    generalize o'.rules[j]? = y' at h2 ⊢
    match x, x', hij with
    | none, none, _ =>
      match y, y', h1, h2 with
      | none, none, _, _ => trivial
    | some x, some x', hij =>
      match y, y', h1, h2 with
      | some y, some y', h1, h2 =>
        have := optimizeRule_relink h.rules (max a b) hij
        rw [Option.map_some, Option.map_some, Option.some.injEq] at h1 h2
        rw [h1, h2] at this
        cases this with
        | ok h => exact h
  have len : ∀ {n : Nat} {s o : Syntax}, s.optimize n = .ok o → o.rules.length = s.rules.length := by
    intro n s o h
    apply Nat.le_antisymm
    · apply Nat.le_of_not_lt
      intro hlt
      have := optimize_get h s.rules.length
      simp [List.getElem?_eq_getElem hlt] at this
    · apply Nat.le_of_not_lt
      intro hlt
      have := optimize_get h o.rules.length
      simp [List.getElem?_eq_getElem hlt] at this
  refine ⟨fun i j hij => key i j (h.rules i j hij), ?_⟩
  have h0 := h.start
  rw [List.getLast?_eq_getElem?, List.getLast?_eq_getElem?] at h0 ⊢
  rw [len ha, len hb]
  exact key _ _ h0

end Verif
