import Verif.Proofs.Compose
/-
The text of a node may be exchanged.
-/
namespace Verif.Props
open Spec

section
variable {E : Env}

/-- The data of each node has a text of its own, which may be exchanged for others of its kind. -/
def EditIn (E : Env) (Q : Nat → Str → List Tok → Prop) (off : Nat) (x : Str) (ts : List Tok) : Prop :=
  ∀ a s b nm, ts = a ++ s :: b → s.data = .startNode nm →
    ∃ name ix id q pre y post us b', Part E.refs (.node name (some nm) (some ix) id) ∧ E.refs[ix]? = some q ∧ x = pre ++ y ++ post ∧
      s.range = ⟨off + pre.length, 0⟩ ∧ b = us ++ ⟨⟨off + pre.length, y.length⟩, .endNode nm⟩ :: b' ∧
      Composes E (.rule q) (off + pre.length) y us ∧
      ∀ z vs, Composes E (.rule q) (off + pre.length) z vs → ∃ ts', Q off (pre ++ z ++ post) ts' ∧
        ts'.map (·.data) = a.map (·.data) ++ .startNode nm :: (vs.map (·.data) ++ .endNode nm :: b'.map (·.data))

theorem EditIn.mono {Q Q' : Nat → Str → List Tok → Prop} {off x ts} (h : EditIn E Q off x ts) (hQ : ∀ x ts, Q off x ts → Q' off x ts) :
    EditIn E Q' off x ts := by
  intro a s b nm e hs
  obtain ⟨name, ix, id, q, pre, y, post, us, b', h1, h2, h3, h4, h5, h6, h7⟩ := h a s b nm e hs
  refine ⟨name, ix, id, q, pre, y, post, us, b', h1, h2, h3, h4, h5, h6, fun z vs hz => ?_⟩
  obtain ⟨ts', h8, h9⟩ := h7 z vs hz
  exact ⟨ts', hQ _ _ h8, h9⟩

theorem EditIn.none {Q : Nat → Str → List Tok → Prop} {off x ts} (h : ∀ s ∈ ts, ∀ nm, s.data ≠ .startNode nm) : EditIn E Q off x ts := by
  rintro a s b nm rfl hs
  exact absurd hs (h s (by simp) nm)

theorem EditIn.append {Q1 Q2 : Nat → Str → List Tok → Prop} {off x ts y us} (h1 : EditIn E Q1 off x ts) (h2 : EditIn E Q2 (off + x.length) y us)
    (hq1 : Q1 off x ts) (hq2 : Q2 (off + x.length) y us)
    (hm : ∀ off', ∃ us', Q2 off' y us' ∧ us'.map (·.data) = us.map (·.data)) :
    EditIn E (fun off w vs => ∃ x ts y us, w = x ++ y ∧ vs = ts ++ us ∧ Q1 off x ts ∧ Q2 (off + x.length) y us) off (x ++ y) (ts ++ us) := by
  intro a s b nm e hs
  have hcase : (∃ c, a = ts ++ c ∧ us = c ++ s :: b) ∨ ∃ c, ts = a ++ s :: c ∧ b = c ++ us := by
    rcases List.append_eq_append_iff.1 e with ⟨c, h1, h2⟩ | ⟨c, h1, h2⟩
    · exact .inl ⟨c, h1, h2⟩
    · cases c with
      | nil => exact .inl ⟨[], by simpa using h1.symm, by simpa using h2.symm⟩
      | cons d c =>
        simp only [List.cons_append, List.cons.injEq] at h2
        obtain ⟨rfl, rfl⟩ := h2
        exact .inr ⟨c, h1, rfl⟩
  rcases hcase with ⟨c, rfl, e2⟩ | ⟨c, e1, rfl⟩
  · obtain ⟨name, ix, id, q, pre, w, post, vs, b', g1, g2, g3, g4, g5, g6, g7⟩ := h2 c s b nm e2 hs
    refine ⟨name, ix, id, q, x ++ pre, w, post, vs, b', g1, g2, by simp [g3], ?_, ?_, ?_, fun z zs hz => ?_⟩
    · rw [g4, List.length_append, Nat.add_assoc]
    · rw [g5, List.length_append, Nat.add_assoc]
    · rwa [List.length_append, ← Nat.add_assoc]
    · rw [List.length_append, ← Nat.add_assoc] at hz
      obtain ⟨ts', g8, g9⟩ := g7 z zs hz
      exact ⟨ts ++ ts', ⟨x, ts, _, ts', by simp, rfl, hq1, g8⟩, by simp [g9]⟩
  · obtain ⟨name, ix, id, q, pre, w, post, vs, b', g1, g2, g3, g4, g5, g6, g7⟩ := h1 a s c nm e1 hs
    refine ⟨name, ix, id, q, pre, w, post ++ y, vs, b' ++ us, g1, g2, by simp [g3], g4, by simp [g5], g6, fun z zs hz => ?_⟩
    obtain ⟨ts', g8, g9⟩ := g7 z zs hz
    obtain ⟨us', g10, g11⟩ := hm (off + (pre ++ z ++ post).length)
    exact ⟨ts' ++ us', ⟨_, ts', y, us', by simp, rfl, g8, g10⟩, by simp [g9, g11]⟩

/-- The data of each node has a text of its own, which may be exchanged for others of its kind. -/
theorem composes_edit {g off x ts} (h : Composes E g off x ts) : PlainlyGoal E g → EditIn E (Composes E g) off x ts := by
  have hnil : ∀ {Q : Nat → Str → List Tok → Prop} {off x}, EditIn E Q off x [] := EditIn.none (by simp)
  induction h with
  | token hr h =>
    intro _
    refine EditIn.none fun s hs nm => ?_
    have hn : ∀ {prop : Option Str} {o n : Nat} {f : Str → MetaData}, s ∈ named prop o n f → (∀ x nm, f x ≠ .startNode nm) → s.data ≠ .startNode nm := by
      intro prop o n f hs hf
      cases prop with
      | none => simp [named] at hs
      | some x =>
        simp only [named, List.mem_singleton] at hs
        subst hs
        exact hf x nm
    generalize ho : some _ = o at h
    cases h with
    | ws_ok => cases ho; simp at hs
    | tag_ok | notTag_ok | until_ok | untilWs_ok | text_ok | num_ok =>
      simp only [Option.some.injEq, Prod.mk.injEq] at ho
      rw [ho.2] at hs
      exact hn hs (by simp)
    | _ => first | exact hr.elim | cases ho
  | select hr h ih => exact fun hg => (ih (decided_part hg (.select hr))).mono fun _ _ h => .select hr h
  | sequence h ih => exact fun hg => (ih fun r hr => decided_part hg (.sequence hr)).mono fun _ _ h => .sequence h
  | seq_nil => exact fun _ => hnil
  | seq_cons h h' ih ih' =>
    intro hg
    refine EditIn.mono ((ih (hg _ (by simp))).append (ih' fun r hr => hg r (by simp [hr])) h h' (composes_elsewhere h')) ?_
    rintro _ _ ⟨x, ts, y, us, rfl, rfl, h1, h2⟩
    exact .seq_cons h1 h2
  | repeat_any h ih => exact fun hg => (ih (decided_part hg .repeat_)).mono fun _ _ h => .repeat_any h
  | repeat_some h h' ih ih' =>
    intro hg
    have hp := decided_part hg .repeat_
    refine EditIn.mono ((ih hp).append (ih' hp) h h' (composes_elsewhere h')) ?_
    rintro _ _ ⟨x, ts, y, us, rfl, rfl, h1, h2⟩
    exact .repeat_some h1 h2
  | rep_nil => exact fun _ => hnil
  | rep_cons h h' ih ih' =>
    intro hp
    refine EditIn.mono ((ih hp).append (ih' hp) h h' (composes_elsewhere h')) ?_
    rintro _ _ ⟨x, ts, y, us, rfl, rfl, h1, h2⟩
    exact .rep_cons h1 h2
  | sep_none => exact fun _ => hnil
  | sep_some h h' ih ih' =>
    intro hg
    have hp := decided_part hg .item
    refine EditIn.mono ((ih hp).append (ih' ⟨hp, decided_part hg .sep⟩) h h' (composes_elsewhere h')) ?_
    rintro _ _ ⟨x, ts, y, us, rfl, rfl, h1, h2⟩
    exact .sep_some h1 h2
  | tail_nil => exact fun _ => hnil
  | tail_trail h ih => exact fun hg => (ih hg.2).mono fun _ _ h => .tail_trail h
  | @tail_cons r b trail off z rs x ts y us h h' h'' ih ih' ih'' =>
    intro hg
    have h2 := (ih' hg.1).append (ih'' hg) h' h'' (composes_elsewhere h'')
    refine EditIn.mono ((ih hg.2).append h2 h ⟨x, ts, y, us, rfl, rfl, h', h''⟩ fun off' => ?_) ?_
    · obtain ⟨ts', g1, g2⟩ := composes_elsewhere h' off'
      obtain ⟨us', g3, g4⟩ := composes_elsewhere h'' (off' + x.length)
      exact ⟨ts' ++ us', ⟨x, ts', y, us', rfl, rfl, g1, g3⟩, by simp [g2, g4]⟩
    · rintro _ _ ⟨z, rs, _, _, rfl, rfl, h0, x, ts, y, us, rfl, rfl, h1, h2⟩
      exact .tail_cons h0 h1 h2
  | @node name prop ix id off q x ts hr h ih =>
    intro hg
    have ih := ih ⟨_, List.mem_of_getElem? hr, .refl⟩
    cases prop with
    | none => exact ih.mono fun _ _ h => .node (prop := none) hr h
    | some nm' =>
      intro a s b nm e hs
      cases a with
      | nil =>
        simp only [wrapped, List.cons_append, List.nil_append, List.cons.injEq] at e
        obtain ⟨rfl, rfl⟩ := e
        cases hs
        refine ⟨name, ix, id, q, [], x, [], ts, [], hg, hr, by simp, rfl, rfl, h, fun z vs hz => ?_⟩
        exact ⟨_, .node (name := name) (prop := some nm') (id := id) hr (by simpa using hz), by simp [wrapped]⟩
      | cons d a =>
        simp only [wrapped, List.cons_append, List.cons.injEq] at e
        obtain ⟨rfl, e⟩ := e
        obtain ⟨c, rfl, e1⟩ : ∃ c, b = c ++ [⟨⟨off, x.length⟩, .endNode nm'⟩] ∧ ts = a ++ s :: c := by
          rcases List.append_eq_append_iff.1 e with ⟨c, h1, h2⟩ | ⟨c, h1, h2⟩
          · cases c with
            | nil =>
              simp only [List.nil_append, List.cons.injEq] at h2
              rw [← h2.1] at hs
              cases hs
            | cons d c => simp at h2
          · cases c with
            | nil =>
              simp only [List.nil_append, List.cons.injEq] at h2
              rw [h2.1] at hs
              cases hs
            | cons d c =>
              simp only [List.cons_append, List.cons.injEq] at h2
              obtain ⟨rfl, rfl⟩ := h2
              exact ⟨c, rfl, h1⟩
        obtain ⟨name', ix', id', q', pre, w, post, vs, b', g1, g2, g3, g4, g5, g6, g7⟩ := ih a s c nm e1 hs
        refine ⟨name', ix', id', q', pre, w, post, vs, b' ++ [⟨⟨off, x.length⟩, .endNode nm'⟩], g1, g2, g3, g4, by simp [g5], g6, fun z zs hz => ?_⟩
        obtain ⟨ts', g8, g9⟩ := g7 z zs hz
        exact ⟨_, .node (name := name) (prop := some nm') (id := id) hr g8, by simp [wrapped, g9]⟩
  | optional_none => exact fun _ => hnil
  | optional_some h ih => exact fun hg => (ih (decided_part hg .optional)).mono fun _ _ h => .optional_some h

end

end Verif.Props
