import Verif.Proofs.Items
import Verif.Proofs.RunProps
/-
The data of a match lies in the range matched, node by node.
-/
namespace Verif.Spec

theorem Spans.le {lo hi : Nat} {ts : List Tok} (h : Spans lo hi ts) : lo ≤ hi := by
  induction h with
  | nil h => exact h
  | value h hl hr ih => simp only [Range.next] at ih; omega
  | node hl hb hr ih₁ ih₂ => omega

theorem Spans.lower {lo lo' hi : Nat} {ts : List Tok} (h : Spans lo hi ts) (hl : lo' ≤ lo) :
    Spans lo' hi ts := by
  cases h with
  | nil h => exact .nil (by omega)
  | value h h' hr => exact .value h (by omega) hr
  | node h' hb hr => exact .node (by omega) hb hr

theorem Spans.upper {lo hi hi' : Nat} {ts : List Tok} (h : Spans lo hi ts) (hl : hi ≤ hi') :
    Spans lo hi' ts := by
  induction h with
  | nil h => exact .nil (by omega)
  | value h h' hr ih => exact .value h (by omega) (ih hl)
  | node h' hb hr _ ih => exact .node (by omega) hb (ih hl)

theorem Spans.append {a b c : Nat} {ts us : List Tok} (h : Spans a b ts) (h' : Spans b c us) :
    Spans a c (ts ++ us) := by
  induction h with
  | nil h => exact h'.lower h
  | value h hl hr ih => exact .value h hl (ih h')
  | node hl hb hr ih₁ ih₂ => simpa using Spans.node hl hb (ih₂ h')

theorem Spans.items {lo hi : Nat} {ts : List Tok} (h : Spans lo hi ts) : Items ts := by
  induction h with
  | nil => exact .nil
  | value h _ _ ih => exact .value h ih
  | node _ _ _ ih₁ ih₂ => exact .node ih₁ ih₂

theorem Spans.within {lo hi : Nat} {ts : List Tok} (h : Spans lo hi ts) :
    ∀ t ∈ ts, Within lo hi t.range := by
  induction h with
  | nil => simp
  | @value t lo hi rest h hl hr ih =>
    have := hr.le
    have hn : t.range.next = t.range.offset + t.range.length := rfl
    intro u hu
    rcases List.mem_cons.1 hu with rfl | hu
    · exact ⟨hl, this⟩
    · have := ih u hu
      exact ⟨by have := this.1; omega, this.2⟩
  | @node name body rest lo hi off len hl hb hr ih₁ ih₂ =>
    have := hr.le
    intro u hu
    simp only [List.cons_append, List.mem_cons, List.mem_append] at hu
    rcases hu with rfl | hu | rfl | hu
    · exact ⟨hl, by simp [Range.next]; omega⟩
    · have := ih₁ u hu
      exact ⟨by have := this.1; omega, by have := this.2; omega⟩
    · exact ⟨hl, by simpa [Range.next] using this⟩
    · have := ih₂ u hu
      exact ⟨by have := this.1; omega, this.2⟩

theorem spans_named {prop : Option Str} {off len : Nat} {f : Str → MetaData}
    (h : ∀ n, ¬ IsNode (f n)) : Spans off (off + len) (named prop off len f) := by
  cases prop with
  | none => exact .nil (by omega)
  | some n => exact .value (h n) (Nat.le_refl _) (.nil (Nat.le_refl _))

theorem spans_wrapped {prop : Option Str} {off len : Nat} {ts : List Tok}
    (h : Spans off (off + len) ts) : Spans off (off + len) (wrapped prop off len ts) := by
  cases prop with
  | none => exact h
  | some n => exact .node (Nat.le_refl _) h (.nil (Nat.le_refl _))

theorem run_spans {E : Env} {g p i o j tr} (h : Run E g p i o j tr) :
    ∀ n ts, o = some (n, ts) → Spans p.off (p.off + n) ts := by
  induction h with
  | tag_ok | notTag_ok | until_ok | untilWs_ok | text_ok | num_ok =>
    intro n ts he
    cases he
    exact spans_named (by simp [IsNode])
  | node_ok hr h ih =>
    intro n ts he
    cases he
    exact spans_wrapped (ih _ _ rfl)
  | seq_cons h h' ih ih' | repeat_ok h h' ih ih' | rep_more h h' ih ih' | sep_first h h' ih ih' =>
    intro n ts he
    obtain ⟨m, us, rfl, rfl, rfl⟩ := before_some he
    simpa [adv, Nat.add_assoc] using (ih _ _ rfl).append (ih' _ _ rfl)
  | lines_more hn h h' ih ih' =>
    intro n ts he
    obtain ⟨m, us, rfl, rfl, rfl⟩ := before_some he
    have h₁ := (ih _ _ rfl)
    have h₂ := (ih' _ _ rfl)
    simp only [adv] at h₁ h₂
    rw [← Nat.add_assoc] at h₂
    rw [← Nat.add_assoc, ← Nat.add_assoc]
    exact (h₁.append h₂).lower (by omega)
  | sep_more h h' h'' ih ih' ih'' =>
    intro n ts he
    obtain ⟨m, us, rfl, rfl, rfl⟩ := before_some he
    have h₁ := (ih _ _ rfl)
    have h₂ := (ih' _ _ rfl)
    have h₃ := (ih'' _ _ rfl)
    simp only [adv] at h₁ h₂ h₃
    simp only [← Nat.add_assoc] at h₃ ⊢
    exact (h₁.append h₂).append h₃
  | sep_trail h h' ih ih' => intro n ts he; cases he; exact ih _ _ rfl
  | line_body ha hc hd hi h ih =>
    intro n ts he
    obtain ⟨m, us, rfl, rfl, rfl⟩ := before_some he
    have h₁ := (ih _ _ rfl)
    simp only [adv] at h₁
    rw [← Nat.add_assoc]
    exact h₁.lower (by omega)
  | line_align ha hc hm hi h ih =>
    intro n ts he
    obtain ⟨m, us, rfl, rfl, rfl⟩ := before_some he
    have h₁ := (ih _ _ rfl)
    simp only [adv] at h₁
    simp only [← Nat.add_assoc] at h₁ ⊢
    exact h₁.lower (by omega)
  | _ =>
    intro n ts he
    first
      | (cases he; done)
      | (cases he; exact .nil (by omega))
      | (rename_i ih; exact ih _ _ he)

end Verif.Spec
