import Verif.Proofs.StdLexer
import Verif.Props.Rules
/-
A check that `.l(r)` reads a list of items, one after the other, each on new lines.
-/
namespace Verif
open Spec Props

/-- Running the rule where the item begins reads the item and gives the data. -/
def itemOk (refs : List Rule) (r : Rule) (m : Nat) (e rest : Str) (off : Nat) (d : List MetaData) : Bool :=
  match runOk stdLexer refs m r ⟨e ++ rest, off⟩ Indent.default with
  | some (n, ts, ind) => n == e.length && ind == Indent.default && ts.map (·.data) == d
  | none => false

/-- The items with a new line before each of them. -/
def itemsText (es : List (Str × List MetaData)) : Str := es.flatMap fun x => '\n' :: x.1

/-- All items are read; `gap` new lines stand before the first. -/
def itemsOk (refs : List Rule) (r : Rule) (m : Nat) (tail : Str) : List (Str × List MetaData) → (gap off : Nat) → Bool
  | [], _, _ => true
  | (e, d) :: es, gap, off =>
    (match e with
      | c :: _ => !isWs c
      | [] => false) &&
    itemOk refs r m e (itemsText es ++ tail) (off + gap) d && itemsOk refs r m tail es 1 (off + gap + e.length)

theorem std_lineNext_gap {first : Bool} {item : Str} {gap : Nat} {c : Char} {s : Str} (hc : isWs c = false)
    (hg : gap = 1 ∨ gap = 0 ∧ first = true) :
    stdLexer.lineNext first item (List.replicate gap '\n' ++ c :: s) = .call gap := by
  have hn : isWs '\n' = true := by decide
  rcases hg with rfl | ⟨rfl, rfl⟩
  · simp [stdLexer, Std.lineNext, List.takeWhile, hn, hc, Std.afterLastNl]
  · simp [stdLexer, Std.lineNext, List.takeWhile, hc, Std.afterLastNl]

theorem lines_items {refs : List Rule} {r : Rule} {id : DebugId} {m : Nat} {tail : Str} {n : Nat} {us : List MetaData}
    {off' : Nat} (hend : ∀ item, ∃ ts tr, Run (envOf stdLexer refs Indent.default) (.lines r false id false item)
      ⟨tail, off'⟩ 0 (some (n, ts)) 0 tr ∧ ts.map (·.data) = us) :
    ∀ (es : List (Str × List MetaData)) (gap off : Nat) (first : Bool) (item : Str),
      itemsOk refs r m tail es gap off = true → es ≠ [] → (gap = 1 ∨ gap = 0 ∧ first = true) →
      off' + 1 = off + gap + (itemsText es).length →
      ∃ ts tr, Run (envOf stdLexer refs Indent.default) (.lines r false id first item)
        ⟨List.replicate gap '\n' ++ ((itemsText es).drop 1 ++ tail), off⟩ 0
        (some (gap + ((itemsText es).length - 1) + n, ts)) 0 tr ∧
        ts.map (·.data) = es.flatMap (·.2) ++ us
  | [], _, _, _, _, _, h, _, _ => absurd rfl h
  | (e, d) :: es, gap, off, first, item, h, _, hg, ho => by
    simp only [itemsOk, Bool.and_eq_true] at h
    obtain ⟨⟨h0, h1⟩, h2⟩ := h
    obtain ⟨c, e', rfl⟩ : ∃ c e', e = c :: e' := by
      cases e with
      | nil => cases h0
      | cons c e' => exact ⟨c, e', rfl⟩
    simp only [Bool.not_eq_true'] at h0
    have hm : ∃ ts tr, Run (envOf stdLexer refs Indent.default) (.rule r)
        ⟨c :: e' ++ (itemsText es ++ tail), off + gap⟩ 0 (some ((c :: e').length, ts)) 0 tr ∧ ts.map (·.data) = d := by
      unfold itemOk at h1
      split at h1
      · rename_i n' ts ind hr
        simp only [Bool.and_eq_true, beq_iff_eq] at h1
        obtain ⟨⟨rfl, rfl⟩, rfl⟩ := h1
        obtain ⟨j, tr, hr, hj⟩ := matches_iff.1 (matches_of_eval m hr)
        have : j = 0 := by
          have := congrArg Indent.indent hj
          exact this.symm
        subst this
        exact ⟨ts, tr, hr, rfl⟩
      · cases h1
    obtain ⟨ts, tr, hr, hd⟩ := hm
    have hcall := std_lineNext_gap (first := first) (item := item) (s := e' ++ (itemsText es ++ tail)) h0 hg
    have e1 : List.replicate gap '\n' ++ ((itemsText ((c :: e', d) :: es)).drop 1 ++ tail) =
        List.replicate gap '\n' ++ c :: (e' ++ (itemsText es ++ tail)) := by simp [itemsText]
    rw [e1]
    have hlen : (itemsText ((c :: e', d) :: es)).length = 1 + (c :: e').length + (itemsText es).length := by
      simp [itemsText]; omega
    have hline : Run (envOf stdLexer refs Indent.default) (.line r false first)
        (adv ⟨List.replicate gap '\n' ++ c :: (e' ++ (itemsText es ++ tail)), off⟩ gap) 0
        (some ((c :: e').length, ts)) 0 tr := by
      refine .line_plain ?_
      simpa [adv] using hr
    rw [hlen]
    have hit : ((List.replicate gap '\n' ++ c :: (e' ++ (itemsText es ++ tail))).drop gap).take (c :: e').length
        = c :: e' := by simp
    have hpos : adv ⟨List.replicate gap '\n' ++ c :: (e' ++ (itemsText es ++ tail)), off⟩ (gap + (c :: e').length) =
        ⟨itemsText es ++ tail, off + gap + (c :: e').length⟩ := by
      simp [adv, List.drop_append]
      omega
    rw [hlen] at ho
    cases es with
    | nil =>
      obtain ⟨us', tr', h3, h4⟩ := hend (c :: e')
      refine ⟨ts ++ us', tr ++ tr', ?_, ?_⟩
      · have := Run.lines_more (id := id) (o := some (n, us')) (tr' := tr') (l := 0) hcall hline (by
          rw [hit, hpos]
          have : off + gap + (c :: e').length = off' := by simp [itemsText] at ho ⊢; omega
          rw [this]
          simpa [itemsText] using h3)
        simp only [before] at this
        rw [show gap + (1 + (c :: e').length + (itemsText []).length - 1) + n = gap + (c :: e').length + n by
          simp [itemsText]]
        exact this
      · simp [hd, h4]
    | cons e2 es =>
      obtain ⟨ts', tr', h3, h4⟩ := lines_items hend (e2 :: es) 1 (off + gap + (c :: e').length) false (c :: e') h2
        (by simp) (.inl rfl) (by omega)
      have hne : itemsText (e2 :: es) = '\n' :: (itemsText (e2 :: es)).drop 1 := by simp [itemsText]
      refine ⟨ts ++ ts', tr ++ tr', ?_, ?_⟩
      · have := Run.lines_more (id := id) (o := some (1 + ((itemsText (e2 :: es)).length - 1) + n, ts')) (tr' := tr')
          (l := 0) hcall hline (by
          rw [hit, hpos]
          have e3 : itemsText (e2 :: es) ++ tail = List.replicate 1 '\n' ++ ((itemsText (e2 :: es)).drop 1 ++ tail) := by
            simp [itemsText]
          rw [e3]
          exact h3)
        simp only [before] at this
        have hl : 1 ≤ (itemsText (e2 :: es)).length := by rw [hne]; simp
        rw [show gap + (1 + (c :: e').length + (itemsText (e2 :: es)).length - 1) + n =
          gap + (c :: e').length + (1 + ((itemsText (e2 :: es)).length - 1) + n) by omega]
        exact this
      · simp [hd, h4]

end Verif
