import Verif.Spec.Predictable
/-
Marks with lists mean marks.
-/
namespace Verif
open Spec

theorem mem_joinKeys {a b : List (Option Char)} {x : Option Char} : x ∈ joinKeys a b ↔ x ∈ a ∨ x ∈ b := by
  simp only [joinKeys, List.mem_append, List.mem_filter, Bool.not_eq_true', List.contains_eq_mem, decide_eq_false_iff_not]
  constructor
  · rintro (h | h)
    · exact .inl h
    · exact .inr h.1
  · rintro (h | h)
    · exact .inl h
    · by_cases h' : x ∈ a
      · exact .inl h'
      · exact .inr ⟨h, h'⟩

theorem mem_keysIf {p : Bool} {a : List (Option Char)} {x : Option Char} : x ∈ keysIf p a ↔ p = true ∧ x ∈ a := by
  cases p <;> simp [keysIf]

theorem keyOf_some {A : List Char} {c d : Char} (hd : d ∈ A) : keyOf A c = some d ↔ c = d := by
  unfold keyOf
  split
  · simp
  · rename_i h
    constructor
    · intro h; cases h
    · rintro rfl; exact absurd hd h

theorem keyOf_map {A B : List Char} {c : Char} (hB : ∀ x ∈ B, x ∈ A) : keyOf A c ∈ B.map some ↔ c ∈ B := by
  rw [List.mem_map]
  constructor
  · rintro ⟨d, hd, h⟩
    rw [(keyOf_some (hB d hd)).1 h.symm]
    exact hd
  · intro h
    exact ⟨c, h, ((keyOf_some (hB c h)).2 rfl).symm⟩

theorem keyOf_all {A : List Char} (c : Char) : keyOf A c ∈ allKeys A := by
  unfold keyOf allKeys
  split <;> simp [*]

/-- The element stands for one that means the same. -/
theorem keyOf_surj {A : List Char} {o : Char} (ho : o ∉ A) {x : Option Char} (hx : x ∈ allKeys A) : ∃ c, keyOf A c = x := by
  cases x with
  | none => exact ⟨o, by simp [keyOf, ho]⟩
  | some d => exact ⟨d, (keyOf_some (by simpa [allKeys] using hx)).2 rfl⟩

theorem mem_wsChars {c : Char} : c ∈ wsChars ↔ isWs c = true := by
  have hof : ∀ n : Nat, n < 55296 → (c = Char.ofNat n ↔ c.toNat = n) := by
    intro n hn
    constructor
    · rintro rfl
      have : n.isValidChar := .inl (by omega)
      simp [Char.ofNat, this, Char.toNat, Char.ofNatAux]
    · rintro rfl
      exact (Char.ofNat_toNat c).symm
  simp only [wsChars, List.map, List.mem_cons, List.not_mem_nil, or_false, isWs, Bool.or_eq_true, Bool.and_eq_true, decide_eq_true_eq,
    beq_iff_eq]
  rw [hof 9 (by omega), hof 10 (by omega), hof 11 (by omega), hof 12 (by omega), hof 13 (by omega), hof 32 (by omega),
    hof 0x85 (by omega), hof 0xA0 (by omega), hof 0x1680 (by omega), hof 0x2000 (by omega), hof 0x2001 (by omega),
    hof 0x2002 (by omega), hof 0x2003 (by omega), hof 0x2004 (by omega), hof 0x2005 (by omega), hof 0x2006 (by omega),
    hof 0x2007 (by omega), hof 0x2008 (by omega), hof 0x2009 (by omega), hof 0x200A (by omega), hof 0x2028 (by omega),
    hof 0x2029 (by omega), hof 0x202F (by omega), hof 0x205F (by omega), hof 0x3000 (by omega)]
  omega

/-- All characters that matter are in the list. -/
structure Separated (A : List Char) (nums : Bool → List Char) : Prop where
  ws : ∀ c ∈ wsChars, c ∈ A
  quote : '"' ∈ A
  num : ∀ us, ∀ c ∈ nums us, c ∈ A

section
variable {L : Lexer} {A : List Char} {nums : Bool → List Char} {F : Nat → Found} {N : Nat → List (Option Char)}

theorem mark_ext {a b : Mark} (h1 : ∀ c, a.first c ↔ b.first c) (h2 : ∀ c, a.again c ↔ b.again c) (h3 : a.empty = b.empty)
    (h4 : a.sure = b.sure) (h5 : a.safe = b.safe) (h6 : a.idle = b.idle) : a = b := by
  cases a; cases b
  simp only at h1 h2 h3 h4 h5 h6
  rw [funext fun c => propext (h1 c), funext fun c => propext (h2 c), h3, h4, h5, h6]

theorem called_mark (a : Found) : (a.mark A).called = a.called.mark A := rfl
theorem nothing_mark : Mark.nothing = Found.nothing.mark A :=
  mark_ext (by simp [Mark.nothing, Found.nothing, Found.mark]) (by simp [Mark.nothing, Found.nothing, Found.mark]) rfl rfl rfl rfl
theorem fail_mark : Mark.fail = Found.fail.mark A :=
  mark_ext (by simp [Mark.fail, Found.fail, Found.mark]) (by simp [Mark.fail, Found.fail, Found.mark]) rfl rfl rfl rfl
theorem then_mark (a b : Found) : (a.mark A).then_ (b.mark A) = (a.then_ b).mark A :=
  mark_ext (by simp [Mark.then_, Found.then_, Found.mark, mem_joinKeys, mem_keysIf])
    (by simp [Mark.then_, Found.then_, Found.mark, mem_joinKeys, mem_keysIf]) rfl rfl rfl rfl
theorem else_mark (a b : Found) : (a.mark A).else_ (b.mark A) = (a.else_ b).mark A :=
  mark_ext (by simp [Mark.else_, Found.else_, Found.mark, mem_joinKeys])
    (by simp [Mark.else_, Found.else_, Found.mark, mem_joinKeys, mem_keysIf, and_assoc]) rfl rfl rfl rfl
theorem left_mark (a : Found) (c : Char) : (a.mark A).left c ↔ keyOf A c ∈ a.left := by
  simp [Mark.left, Found.left, Found.mark, mem_joinKeys, mem_keysIf]
theorem loop_mark (a : Found) (opt : Bool) : (a.mark A).loop opt = (a.loop opt).mark A :=
  mark_ext (fun _ => Iff.rfl) (left_mark a) rfl rfl rfl rfl
theorem lines_mark (hA : Separated A nums) (a : Found) : (a.mark A).lines = a.lines.mark A :=
  mark_ext (by
    intro c
    show _ ↔ keyOf A c ∈ joinKeys _ _
    rw [mem_joinKeys, keyOf_map hA.ws, mem_wsChars]
    rfl) (left_mark a) rfl rfl rfl rfl
theorem turns_mark (a b : Found) (opt trail : Bool) : (a.mark A).turns (b.mark A) opt trail = (a.turns b opt trail).mark A :=
  mark_ext (by simp [Mark.turns, Found.turns, Found.mark, mem_joinKeys, mem_keysIf])
    (by
      intro c
      show _ ↔ keyOf A c ∈ joinKeys _ _
      rw [mem_joinKeys, ← left_mark, ← left_mark]
      rfl) rfl rfl rfl rfl
theorem leaf_mark {first : Char → Prop} {l : List (Option Char)} {e s : Bool} (h : ∀ c, first c ↔ keyOf A c ∈ l) :
    Mark.leaf first e s = (Found.leaf l e s).mark A :=
  mark_ext h (by simp [Mark.leaf, Found.leaf, Found.mark]) rfl rfl rfl rfl

mutual
theorem markOf_mark (hA : Separated A nums) (hn : NumbersBegin L nums) : ∀ (r : Rule), (∀ c ∈ charsOf r, c ∈ A) →
    markOf L (fun i => (F i).mark A) r = (foundOf A nums F r).mark A
  | .whitespace opt _, _ => by
    unfold markOf foundOf
    exact leaf_mark fun c => by rw [keyOf_map hA.ws, mem_wsChars]
  | .tag t neg _ _ _, h => by
    unfold markOf foundOf
    refine leaf_mark fun c => ?_
    cases neg with
    | true => simp
    | false =>
      simp only [charsOf, asksFor] at h
      simp only [Bool.false_eq_true, if_false, true_and]
      rw [keyOf_map h]
      simp [Option.mem_toList]
  | .untilAny any opt _ _, h => by
    unfold markOf foundOf
    refine leaf_mark fun c => ?_
    simp only [charsOf, asksFor] at h
    simp only [List.mem_filter, keyOf_all, true_and, Bool.not_eq_true', List.contains_eq_mem, decide_eq_false_iff_not, keyOf_map h]
  | .untilAnyOrWs any opt _ _, h => by
    unfold markOf foundOf
    refine leaf_mark fun c => ?_
    simp only [charsOf, asksFor] at h
    simp only [List.mem_filter, keyOf_all, true_and, Bool.not_eq_true', List.contains_eq_mem, decide_eq_false_iff_not, keyOf_map h,
      keyOf_map hA.ws, mem_wsChars, Bool.and_eq_true, Bool.not_eq_true]
  | .text _ _ _, _ => by
    unfold markOf foundOf
    refine leaf_mark fun c => ?_
    rw [List.mem_singleton, keyOf_some hA.quote]
  | .number _ us _, _ => by
    unfold markOf foundOf
    refine leaf_mark fun c => ?_
    rw [keyOf_map (hA.num us)]
    exact hn us c
  | .node _ _ none _, _ => by
    unfold markOf foundOf
    exact leaf_mark fun c => by simp
  | .node _ _ (some i) _, _ => by
    unfold markOf foundOf
    rfl
  | .select rs _, h => by
    unfold markOf foundOf
    rw [markSelect_mark hA hn rs h, called_mark]
  | .fastSelect _ _ _ _, _ => by
    unfold markOf foundOf
    exact leaf_mark fun c => by simp [keyOf_all]
  | .sequence rs _, h => by
    unfold markOf foundOf
    rw [markSequence_mark hA hn rs h, called_mark]
  | .separateBy r b opt trail _, h => by
    unfold markOf foundOf
    simp only [charsOf, List.mem_append] at h
    rw [markOf_mark hA hn r fun c hc => h c (.inl hc), markOf_mark hA hn b fun c hc => h c (.inr hc), turns_mark, called_mark]
  | .repeat_ r opt _, h => by
    unfold markOf foundOf
    rw [markOf_mark hA hn r h, loop_mark, called_mark]
  | .lines r _ _, h => by
    unfold markOf foundOf
    rw [markOf_mark hA hn r h, lines_mark hA, called_mark]
  | .optional r _, h => by
    unfold markOf foundOf
    rw [markOf_mark hA hn r h, nothing_mark, else_mark, called_mark]
  | .not _ _, _ => by
    unfold markOf foundOf
    rw [leaf_mark (A := A) (l := []) (fun c => by simp), called_mark]
theorem markSequence_mark (hA : Separated A nums) (hn : NumbersBegin L nums) : ∀ (rs : List Rule), (∀ c ∈ charsOfAll rs, c ∈ A) →
    markSequence L (fun i => (F i).mark A) rs = (foundSequence A nums F rs).mark A
  | [], _ => by
    unfold markSequence foundSequence
    exact nothing_mark
  | r :: rs, h => by
    unfold markSequence foundSequence
    simp only [charsOfAll, List.mem_append] at h
    rw [markOf_mark hA hn r fun c hc => h c (.inl hc), markSequence_mark hA hn rs fun c hc => h c (.inr hc), then_mark]
theorem markSelect_mark (hA : Separated A nums) (hn : NumbersBegin L nums) : ∀ (rs : List Rule), (∀ c ∈ charsOfAll rs, c ∈ A) →
    markSelect L (fun i => (F i).mark A) rs = (foundSelect A nums F rs).mark A
  | [], _ => by
    unfold markSelect foundSelect
    exact fail_mark
  | r :: rs, h => by
    unfold markSelect foundSelect
    simp only [charsOfAll, List.mem_append] at h
    rw [markOf_mark hA hn r fun c hc => h c (.inl hc), markSelect_mark hA hn rs fun c hc => h c (.inr hc), else_mark]
end

mutual
theorem moreOf_keys (hA : Separated A nums) (hn : NumbersBegin L nums) (c : Char) : ∀ (r : Rule), (∀ c ∈ charsOf r, c ∈ A) →
    (moreOf L (fun i => (F i).mark A) (fun i c => keyOf A c ∈ N i) r c ↔ keyOf A c ∈ furtherOf A nums F N r)
  | .whitespace _ _, _ => by simp [moreOf, furtherOf]
  | .tag _ _ _ _ _, _ => by simp [moreOf, furtherOf]
  | .untilAny _ _ _ _, _ => by simp [moreOf, furtherOf]
  | .untilAnyOrWs _ _ _ _, _ => by simp [moreOf, furtherOf]
  | .text _ _ _, _ => by simp [moreOf, furtherOf]
  | .number _ _ _, _ => by simp [moreOf, furtherOf]
  | .node _ _ none _, _ => by simp [moreOf, furtherOf]
  | .node _ _ (some i) _, _ => by simp [moreOf, furtherOf]
  | .select rs _, h => by
    unfold moreOf furtherOf
    exact moreSelect_keys hA hn c rs h
  | .fastSelect _ _ _ _, _ => by simp [moreOf, furtherOf]
  | .sequence rs _, h => by
    unfold moreOf furtherOf
    exact moreSequence_keys hA hn c rs h
  | .separateBy r b opt trail _, h => by
    unfold moreOf furtherOf
    simp only [charsOf, List.mem_append] at h
    have hr : ∀ c ∈ charsOf r, c ∈ A := fun c hc => h c (.inl hc)
    have hb : ∀ c ∈ charsOf b, c ∈ A := fun c hc => h c (.inr hc)
    rw [moreOf_keys hA hn c r hr, moreOf_keys hA hn c b hb, markOf_mark hA hn r hr, markOf_mark hA hn b hb]
    simp only [mem_joinKeys, mem_keysIf, Found.mark, Bool.or_eq_true]
  | .repeat_ r _ _, h => by
    unfold moreOf furtherOf
    rw [moreOf_keys hA hn c r h, markOf_mark hA hn r h, mem_joinKeys]
    rfl
  | .lines _ _ _, _ => by simp [moreOf, furtherOf]
  | .optional r _, h => by
    unfold moreOf furtherOf
    rw [moreOf_keys hA hn c r h, markOf_mark hA hn r h, mem_joinKeys]
    rfl
  | .not _ _, _ => by simp [moreOf, furtherOf]
theorem moreSequence_keys (hA : Separated A nums) (hn : NumbersBegin L nums) (c : Char) : ∀ (rs : List Rule), (∀ c ∈ charsOfAll rs, c ∈ A) →
    (moreSequence L (fun i => (F i).mark A) (fun i c => keyOf A c ∈ N i) rs c ↔ keyOf A c ∈ furtherSequence A nums F N rs)
  | [], _ => by simp [moreSequence, furtherSequence]
  | r :: rs, h => by
    unfold moreSequence furtherSequence
    simp only [charsOfAll, List.mem_append] at h
    have hr : ∀ c ∈ charsOf r, c ∈ A := fun c hc => h c (.inl hc)
    have hb : ∀ c ∈ charsOfAll rs, c ∈ A := fun c hc => h c (.inr hc)
    rw [moreOf_keys hA hn c r hr, moreSequence_keys hA hn c rs hb, markSequence_mark hA hn rs hb, mem_joinKeys, mem_keysIf]
    rfl
theorem moreSelect_keys (hA : Separated A nums) (hn : NumbersBegin L nums) (c : Char) : ∀ (rs : List Rule), (∀ c ∈ charsOfAll rs, c ∈ A) →
    (moreSelect L (fun i => (F i).mark A) (fun i c => keyOf A c ∈ N i) rs c ↔ keyOf A c ∈ furtherSelect A nums F N rs)
  | [], _ => by simp [moreSelect, furtherSelect]
  | r :: rs, h => by
    unfold moreSelect furtherSelect
    simp only [charsOfAll, List.mem_append] at h
    have hr : ∀ c ∈ charsOf r, c ∈ A := fun c hc => h c (.inl hc)
    have hb : ∀ c ∈ charsOfAll rs, c ∈ A := fun c hc => h c (.inr hc)
    rw [moreOf_keys hA hn c r hr, moreSelect_keys hA hn c rs hb, markSelect_mark hA hn rs hb, markOf_mark hA hn r hr,
      mem_joinKeys, mem_joinKeys, mem_keysIf]
    rfl
end

end

end Verif
