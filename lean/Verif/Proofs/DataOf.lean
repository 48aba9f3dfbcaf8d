import Verif.Spec.DataOf
import Verif.Proofs.Compose
import Verif.Proofs.Dead
import Verif.Proofs.Print
import Verif.Proofs.StdLexer
/-
Exactly the data said without texts belongs to texts that are put together.
-/
namespace Verif.Props
open Spec

theorem std_decode_nil : ∀ {cs : List Char} {off : Nat}, Std.decode cs off = .ok [] → cs = [] := by
  intro cs off h
  have hm : ∀ (e : Except (Range × StrErr) Str) (x : Char), e.map (x :: ·) ≠ .ok [] := by
    intro e x he
    cases e <;> simp [Except.map] at he
  unfold Std.decode at h
  split at h
  · rfl
  · split at h
    · split at h
      · exact (hm _ _ h).elim
      · cases h
    · split at h
      · exact (hm _ _ h).elim
      · cases h
    · cases h
  · exact (hm _ _ h).elim

theorem std_emptyQuotes : EmptyQuotes stdLexer := by
  intro y n h h'
  have h1 := Std.str_some h
  have h2 := std_decode_nil h'
  have h3 := congrArg List.length h2
  simp only [List.length_take, List.length_drop, List.length_nil] at h3
  omega

section
variable {L : Lexer} {refs : List Rule} {ind : Indent}

theorem namedTok_data {prop : Option Str} {off n : Nat} {f : Str → MetaData} : (named prop off n f).map (·.data) = datum prop f := by
  cases prop <;> rfl

theorem wrappedTok_inNode {prop : Option Str} {off n : Nat} {ts : List Tok} : (wrapped prop off n ts).map (·.data) = inNode prop (ts.map (·.data)) := by
  cases prop <;> simp [wrapped, inNode]

/-- The data of what is put together. -/
theorem composes_data (hE : EmptyQuotes L) {g off x ts} (h : Composes (envOf L refs ind) g off x ts) :
    (∀ x, Part refs x → Outright x) → PlainlyGoal (envOf L refs ind) g → DataOf L refs g (ts.map (·.data)) := by
  intro hP
  induction h with
  | @token r off x i ts j tr hr h =>
    intro hg
    have hr' := hP _ hg
    generalize ho : some (x.length, ts) = o at h
    cases h with
    | ws_ok h h0 => cases ho; exact .whitespace
    | tag_ok h =>
      simp only [Option.some.injEq, Prod.mk.injEq] at ho
      rw [ho.2, namedTok_data]
      exact .tag
    | notTag_ok h => cases hr'
    | until_ok h h0 =>
      simp only [Option.some.injEq, Prod.mk.injEq] at ho
      obtain ⟨rfl, rfl⟩ := ho
      rw [namedTok_data]
      exact .untilAny h.2.1 fun he => h0 (by simpa using congrArg List.length he)
    | untilWs_ok h h0 =>
      simp only [Option.some.injEq, Prod.mk.injEq] at ho
      obtain ⟨rfl, rfl⟩ := ho
      rw [namedTok_data]
      exact .untilAnyOrWs h.2.1 fun he => h0 (by simpa using congrArg List.length he)
    | text_ok h h2 hv =>
      simp only [Option.some.injEq, Prod.mk.injEq] at ho
      rw [ho.2, namedTok_data]
      exact .text fun he => h2 (hE _ _ h (he ▸ hv))
    | num_ok h hv =>
      simp only [Option.some.injEq, Prod.mk.injEq] at ho
      obtain ⟨rfl, rfl⟩ := ho
      rw [namedTok_data]
      exact .number ⟨_, h, hv⟩
    | _ => first | exact hr.elim | cases ho
  | select hr h ih => exact fun hg => .select hr (ih (decided_part hg (.select hr)))
  | sequence h ih => exact fun hg => .sequence (ih fun r hr => decided_part hg (.sequence hr))
  | seq_nil => exact fun _ => .seq_nil
  | seq_cons h h' ih ih' =>
    intro hg
    rw [List.map_append]
    exact .seq_cons (ih (hg _ (by simp))) (ih' fun r hr => hg r (by simp [hr]))
  | repeat_any h ih => exact fun hg => .repeat_any (ih (decided_part hg .repeat_))
  | repeat_some h h' ih ih' =>
    intro hg
    rw [List.map_append]
    exact .repeat_some (ih (decided_part hg .repeat_)) (ih' (decided_part hg .repeat_))
  | rep_nil => exact fun _ => .rep_nil
  | rep_cons h h' ih ih' =>
    intro hg
    rw [List.map_append]
    exact .rep_cons (ih hg) (ih' hg)
  | sep_none => exact fun _ => .sep_none
  | sep_some h h' ih ih' =>
    intro hg
    have hp := decided_part hg .item
    rw [List.map_append]
    exact .sep_some (ih hp) (ih' ⟨hp, decided_part hg .sep⟩)
  | tail_nil => exact fun _ => .tail_nil
  | tail_trail h ih => exact fun hg => .tail_trail (ih hg.2)
  | tail_cons h h' h'' ih ih' ih'' =>
    intro hg
    rw [List.map_append, List.map_append]
    exact .tail_cons (ih hg.2) (ih' hg.1) (ih'' hg)
  | node hr h ih =>
    intro hg
    rw [wrappedTok_inNode]
    exact .node hr (ih ⟨_, List.mem_of_getElem? hr, .refl⟩)
  | optional_none => exact fun _ => .optional_none
  | optional_some h ih => exact fun hg => .optional_some (ih (decided_part hg .optional))

variable (ind) in
/-- There is a text with this data, wherever it stands. -/
def TextFor (L : Lexer) (refs : List Rule) (g : Goal) (ds : List MetaData) : Prop :=
  ∃ y, ∀ off, ∃ ts, Composes (envOf L refs ind) g off y ts ∧ ts.map (·.data) = ds

theorem TextFor.mono {g g' ds} (h : TextFor ind L refs g ds)
    (hg : ∀ off y ts, Composes (envOf L refs ind) g off y ts → Composes (envOf L refs ind) g' off y ts) : TextFor ind L refs g' ds :=
  h.imp fun _ h off => (h off).imp fun _ h => ⟨hg _ _ _ h.1, h.2⟩

theorem TextFor.append {g g' g'' ds es} (h : TextFor ind L refs g ds) (h' : TextFor ind L refs g' es)
    (hg : ∀ off x y ts us, Composes (envOf L refs ind) g off x ts → Composes (envOf L refs ind) g' (off + x.length) y us →
      Composes (envOf L refs ind) g'' off (x ++ y) (ts ++ us)) : TextFor ind L refs g'' (ds ++ es) := by
  obtain ⟨x, h⟩ := h
  obtain ⟨y, h'⟩ := h'
  refine ⟨x ++ y, fun off => ?_⟩
  obtain ⟨ts, h1, rfl⟩ := h off
  obtain ⟨us, h2, rfl⟩ := h' (off + x.length)
  exact ⟨_, hg _ _ _ _ _ h1 h2, by simp⟩

theorem textFor_nil {g} (h : ∀ off, Composes (envOf L refs ind) g off [] []) : TextFor ind L refs g [] := ⟨[], fun off => ⟨[], h off, rfl⟩⟩

/-- All of this data has texts. -/
theorem data_composes (hL : L.Lawful) {g ds} (h : DataOf L refs g ds) : TextFor ind L refs g ds := by
  induction h with
  | whitespace => exact ⟨[' '], fun off => ⟨[], .token (i := 0) (j := 0) (tr := []) trivial (.ws_ok (p := ⟨[' '], off⟩) (n := 1) ⟨by simp, by simp [isWs], by simp⟩ (by simp)), rfl⟩⟩
  | @tag t inv prop id =>
    exact ⟨t, fun off => ⟨_, .token (i := 0) (j := 0) (tr := []) trivial (.tag_ok (p := ⟨t, off⟩) (List.prefix_refl _)), namedTok_data⟩⟩
  | @untilAny any opt prop id s h h0 =>
    refine ⟨s, fun off => ⟨_, .token (i := 0) (j := 0) (tr := []) trivial (.until_ok (p := ⟨s, off⟩) (n := s.length)
      ⟨Nat.le_refl _, by simpa using h, by simp⟩ fun hn => h0 (List.eq_nil_of_length_eq_zero hn)), ?_⟩⟩
    rw [namedTok_data, List.take_length]
  | @untilAnyOrWs any opt prop id s h h0 =>
    refine ⟨s, fun off => ⟨_, .token (i := 0) (j := 0) (tr := []) trivial (.untilWs_ok (p := ⟨s, off⟩) (n := s.length)
      ⟨Nat.le_refl _, by simpa using h, by simp⟩ fun hn => h0 (List.eq_nil_of_length_eq_zero hn)), ?_⟩⟩
    rw [namedTok_data, List.take_length]
  | @text empty prop id s h0 =>
    have hq := quoted_lit hL s []
    rw [List.append_nil] at hq
    exact ⟨quoted s, fun off => ⟨_, .token (i := 0) (j := 0) (tr := []) trivial (.text_ok (p := ⟨quoted s, off⟩) hq.1
      (fun h2 => h0 (quoted_empty h2)) hq.2), namedTok_data⟩⟩
  | number h =>
    obtain ⟨y, h1, h2⟩ := h
    exact ⟨y, fun off => ⟨_, .token (i := 0) (j := 0) (tr := []) trivial (.num_ok (p := ⟨y, off⟩) h1 h2), namedTok_data⟩⟩
  | select hr _ ih => exact ih.mono fun _ _ _ => .select hr
  | sequence _ ih => exact ih.mono fun _ _ _ => .sequence
  | seq_nil => exact textFor_nil fun _ => .seq_nil
  | seq_cons _ _ ih ih' => exact ih.append ih' fun _ _ _ _ _ => .seq_cons
  | repeat_any _ ih => exact ih.mono fun _ _ _ => .repeat_any
  | repeat_some _ _ ih ih' => exact ih.append ih' fun _ _ _ _ _ => .repeat_some
  | rep_nil => exact textFor_nil fun _ => .rep_nil
  | rep_cons _ _ ih ih' => exact ih.append ih' fun _ _ _ _ _ => .rep_cons
  | sep_none => exact textFor_nil fun _ => .sep_none
  | sep_some _ _ ih ih' => exact ih.append ih' fun _ _ _ _ _ => .sep_some
  | tail_nil => exact textFor_nil fun _ => .tail_nil
  | tail_trail _ ih => exact ih.mono fun _ _ _ => .tail_trail
  | tail_cons _ _ _ ih ih' ih'' =>
    obtain ⟨z, h⟩ := ih
    obtain ⟨x, h'⟩ := ih'
    obtain ⟨y, h''⟩ := ih''
    refine ⟨z ++ (x ++ y), fun off => ?_⟩
    obtain ⟨rs, h1, rfl⟩ := h off
    obtain ⟨ts, h2, rfl⟩ := h' (off + z.length)
    obtain ⟨us, h3, rfl⟩ := h'' (off + z.length + x.length)
    exact ⟨_, .tail_cons h1 h2 h3, by simp⟩
  | node hr _ ih =>
    obtain ⟨y, h⟩ := ih
    refine ⟨y, fun off => ?_⟩
    obtain ⟨ts, h1, rfl⟩ := h off
    exact ⟨_, .node hr h1, wrappedTok_inNode⟩
  | optional_none => exact textFor_nil fun _ => .optional_none
  | optional_some _ ih => exact ih.mono fun _ _ _ => .optional_some

end

end Verif.Props
