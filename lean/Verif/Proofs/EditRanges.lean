import Verif.Spec.EditRanges
import Verif.Proofs.Edit
/-
What becomes of the ranges when the text of a node is exchanged.
-/
namespace Verif.Props
open Spec

theorem later_zero {t : Tok} : laterTok 0 t = t := rfl

theorem later_later {t : Tok} {a b : Nat} : laterTok b (laterTok a t) = laterTok (a + b) t := by simp [laterTok, Nat.add_assoc]

theorem map_later {us : List Tok} {a b : Nat} : (us.map (laterTok a)).map (laterTok b) = us.map (laterTok (a + b)) := by
  simp [later_later]

theorem moved_append {p n m : Nat} {ts us ts' us' : List Tok} (h : Moved p n m ts us) (h' : Moved p n m ts' us') :
    Moved p n m (ts ++ ts') (us ++ us') := by
  induction h with
  | nil => exact h'
  | after h _ ih => exact .after h ih
  | around h h0 _ ih => exact .around h h0 ih

/-- What stands after it. -/
theorem moved_later {p n m a : Nat} (h : p ≤ a) : ∀ {us : List Tok}, Moved p n m (us.map (laterTok (a + n))) (us.map (laterTok (a + m)))
  | [] => .nil
  | t :: us => by
    simp only [List.map_cons, laterTok, ← Nat.add_assoc]
    exact .after (by omega) (moved_later h)

section
variable {E : Env}

/-- The same wherever it stands, with the ranges. -/
theorem leaf_later {r x off i ts j tr} (hr : CallsNone r) (h : Run E (.rule r) ⟨x, off⟩ i (some (x.length, ts)) j tr) :
    ∃ us : List Tok, ts = us.map (laterTok off) ∧ ∀ off', Run E (.rule r) ⟨x, off'⟩ i (some (x.length, us.map (laterTok off'))) j tr := by
  generalize ho : some (x.length, ts) = o at h
  have hn : ∀ (prop : Option Str) (o n : Nat) (f : Str → MetaData), named prop o n f = (named prop 0 n f).map (laterTok o) := by
    intro prop o n f
    cases prop <;> simp [named, laterTok]
  cases h with
  | ws_ok h h0 =>
    simp only [Option.some.injEq, Prod.mk.injEq] at ho
    obtain ⟨rfl, rfl⟩ := ho
    exact ⟨[], rfl, fun off' => .ws_ok (p := ⟨x, off'⟩) h h0⟩
  | tag_ok h =>
    simp only [Option.some.injEq, Prod.mk.injEq] at ho
    obtain ⟨e, rfl⟩ := ho
    exact ⟨_, hn _ _ _ _, fun off' => by rw [e, ← hn]; exact .tag_ok (p := ⟨x, off'⟩) h⟩
  | notTag_ok h =>
    simp only [Option.some.injEq, Prod.mk.injEq] at ho
    obtain ⟨e, rfl⟩ := ho
    exact ⟨_, hn _ _ _ _, fun off' => by rw [e, ← hn]; exact .notTag_ok (p := ⟨x, off'⟩) h⟩
  | until_ok h h0 =>
    simp only [Option.some.injEq, Prod.mk.injEq] at ho
    obtain ⟨rfl, rfl⟩ := ho
    exact ⟨_, hn _ _ _ _, fun off' => by rw [← hn]; exact .until_ok (p := ⟨x, off'⟩) h h0⟩
  | untilWs_ok h h0 =>
    simp only [Option.some.injEq, Prod.mk.injEq] at ho
    obtain ⟨rfl, rfl⟩ := ho
    exact ⟨_, hn _ _ _ _, fun off' => by rw [← hn]; exact .untilWs_ok (p := ⟨x, off'⟩) h h0⟩
  | text_ok h h2 hv =>
    simp only [Option.some.injEq, Prod.mk.injEq] at ho
    obtain ⟨e, rfl⟩ := ho
    exact ⟨_, hn _ _ _ _, fun off' => by rw [e, ← hn]; exact .text_ok (p := ⟨x, off'⟩) h h2 hv⟩
  | num_ok h hv =>
    simp only [Option.some.injEq, Prod.mk.injEq] at ho
    obtain ⟨e, rfl⟩ := ho
    exact ⟨_, hn _ _ _ _, fun off' => by rw [e, ← hn]; exact .num_ok (p := ⟨x, off'⟩) h hv⟩
  | _ => first | exact hr.elim | cases ho

variable (E) in
/-- The same wherever it stands. -/
def Stands (g : Goal) (off : Nat) (x : Str) (ts : List Tok) : Prop :=
  ∃ us : List Tok, ts = us.map (laterTok off) ∧ ∀ off', Composes E g off' x (us.map (laterTok off'))

theorem stands_nil {g off} (h : ∀ off, Composes E g off [] []) : Stands E g off [] [] := ⟨[], rfl, fun off => h off⟩

theorem Stands.mono {g g' off x ts} (h : Stands E g off x ts) (hg : ∀ off x ts, Composes E g off x ts → Composes E g' off x ts) :
    Stands E g' off x ts := h.imp fun _ h => ⟨h.1, fun off => hg _ _ _ (h.2 off)⟩

theorem Stands.append {g g' g'' off x ts y us} (h : Stands E g off x ts) (h' : Stands E g' (off + x.length) y us)
    (hg : ∀ off ts us, Composes E g off x ts → Composes E g' (off + x.length) y us → Composes E g'' off (x ++ y) (ts ++ us)) :
    Stands E g'' off (x ++ y) (ts ++ us) := by
  obtain ⟨ts, rfl, h⟩ := h
  obtain ⟨us, rfl, h'⟩ := h'
  refine ⟨ts ++ us.map (laterTok x.length), by rw [List.map_append, map_later, Nat.add_comm off], fun off' => ?_⟩
  rw [List.map_append, map_later, Nat.add_comm x.length]
  exact hg _ _ _ (h off') (h' _)

theorem composes_stands {g off x ts} (h : Composes E g off x ts) : Stands E g off x ts := by
  induction h with
  | token hr h => exact (leaf_later hr h).imp fun _ h => ⟨h.1, fun off' => .token hr (h.2 off')⟩
  | select hr _ ih => exact ih.mono fun _ _ _ => .select hr
  | sequence _ ih => exact ih.mono fun _ _ _ => .sequence
  | seq_nil => exact stands_nil fun _ => .seq_nil
  | seq_cons _ _ ih ih' => exact ih.append ih' fun _ _ _ => .seq_cons
  | repeat_any _ ih => exact ih.mono fun _ _ _ => .repeat_any
  | repeat_some _ _ ih ih' => exact ih.append ih' fun _ _ _ => .repeat_some
  | rep_nil => exact stands_nil fun _ => .rep_nil
  | rep_cons _ _ ih ih' => exact ih.append ih' fun _ _ _ => .rep_cons
  | sep_none => exact stands_nil fun _ => .sep_none
  | sep_some _ _ ih ih' => exact ih.append ih' fun _ _ _ => .sep_some
  | tail_nil => exact stands_nil fun _ => .tail_nil
  | tail_trail _ ih => exact ih.mono fun _ _ _ => .tail_trail
  | @tail_cons r b trail off z rs x ts y us _ _ _ ih ih' ih'' =>
    obtain ⟨rs, rfl, h⟩ := ih
    obtain ⟨ts, rfl, h'⟩ := ih'
    obtain ⟨us, rfl, h''⟩ := ih''
    refine ⟨rs ++ (ts.map (laterTok z.length) ++ us.map (laterTok (z.length + x.length))), ?_, fun off' => ?_⟩
    · simp only [List.map_append, map_later]
      rw [Nat.add_comm z.length off, show z.length + x.length + off = off + z.length + x.length by omega]
    · simp only [List.map_append, map_later]
      rw [Nat.add_comm z.length off', show z.length + x.length + off' = off' + z.length + x.length by omega]
      exact .tail_cons (h _) (h' _) (h'' _)
  | @node name prop ix id off q x ts hr _ ih =>
    obtain ⟨ts, rfl, h⟩ := ih
    have hw : ∀ o, wrapped prop o x.length (ts.map (laterTok o)) = (wrapped prop 0 x.length ts).map (laterTok o) := by
      intro o
      cases prop <;> simp [wrapped, laterTok]
    exact ⟨_, hw _, fun off' => by rw [← hw]; exact .node hr (h _)⟩
  | optional_none => exact stands_nil fun _ => .optional_none
  | optional_some _ ih => exact ih.mono fun _ _ _ => .optional_some

/-- The data of each node has a text of its own, which may be exchanged for others of its kind; with the ranges. -/
def EditAt (E : Env) (Q : Nat → Str → List Tok → Prop) (off : Nat) (x : Str) (ts : List Tok) : Prop :=
  ∀ a s b nm, ts = a ++ s :: b → s.data = .startNode nm →
    ∃ name ix id q pre y post us b', Part E.refs (.node name (some nm) (some ix) id) ∧ E.refs[ix]? = some q ∧ x = pre ++ y ++ post ∧
      s.range = ⟨off + pre.length, 0⟩ ∧ b = us ++ ⟨⟨off + pre.length, y.length⟩, .endNode nm⟩ :: b' ∧
      Composes E (.rule q) (off + pre.length) y us ∧
      ∀ z vs, Composes E (.rule q) (off + pre.length) z vs → ∃ b'', Moved (off + pre.length) y.length z.length b' b'' ∧
        Q off (pre ++ z ++ post) (a ++ s :: (vs ++ ⟨⟨off + pre.length, z.length⟩, .endNode nm⟩ :: b''))

theorem EditAt.mono {Q Q' : Nat → Str → List Tok → Prop} {off x ts} (h : EditAt E Q off x ts) (hQ : ∀ x ts, Q off x ts → Q' off x ts) :
    EditAt E Q' off x ts := by
  intro a s b nm e hs
  obtain ⟨name, ix, id, q, pre, y, post, us, b', h1, h2, h3, h4, h5, h6, h7⟩ := h a s b nm e hs
  refine ⟨name, ix, id, q, pre, y, post, us, b', h1, h2, h3, h4, h5, h6, fun z vs hz => ?_⟩
  obtain ⟨ts', h8, h9⟩ := h7 z vs hz
  exact ⟨ts', h8, hQ _ _ h9⟩

theorem EditAt.none {Q : Nat → Str → List Tok → Prop} {off x ts} (h : ∀ s ∈ ts, ∀ nm, s.data ≠ .startNode nm) : EditAt E Q off x ts := by
  rintro a s b nm rfl hs
  exact absurd hs (h s (by simp) nm)

theorem EditAt.append {Q1 Q2 : Nat → Str → List Tok → Prop} {off x ts y us} (h1 : EditAt E Q1 off x ts) (h2 : EditAt E Q2 (off + x.length) y us)
    (hq1 : Q1 off x ts) (hm : ∃ us' : List Tok, us = us'.map (laterTok (off + x.length)) ∧ ∀ off', Q2 off' y (us'.map (laterTok off'))) :
    EditAt E (fun off w vs => ∃ x ts y us, w = x ++ y ∧ vs = ts ++ us ∧ Q1 off x ts ∧ Q2 (off + x.length) y us) off (x ++ y) (ts ++ us) := by
  intro a s b nm e hs
  have hcase : (∃ c, a = ts ++ c ∧ us = c ++ s :: b) ∨ ∃ c, ts = a ++ s :: c ∧ b = c ++ us := by
    rcases List.append_eq_append_iff.1 e with ⟨c, h1, h2⟩ | ⟨c, h1, h2⟩
    · exact .inl ⟨c, h1, h2⟩
    · cases c with
      | nil => exact .inl ⟨[], by simpa using h1.symm, by simpa using h2.symm⟩
      | cons d c =>
        simp only [List.cons_append, List.cons.injEq] at h2
        obtain ⟨rfl, rfl⟩ := h2
        exact .inr ⟨c, h1, rfl⟩
  rcases hcase with ⟨c, rfl, e2⟩ | ⟨c, e1, rfl⟩
  · obtain ⟨name, ix, id, q, pre, w, post, vs, b', g1, g2, g3, g4, g5, g6, g7⟩ := h2 c s b nm e2 hs
    refine ⟨name, ix, id, q, x ++ pre, w, post, vs, b', g1, g2, by simp [g3], ?_, ?_, ?_, fun z zs hz => ?_⟩
    · rw [g4, List.length_append, Nat.add_assoc]
    · rw [g5, List.length_append, Nat.add_assoc]
    · rwa [List.length_append, ← Nat.add_assoc]
    · rw [List.length_append, ← Nat.add_assoc] at hz ⊢
      obtain ⟨b'', g8, g9⟩ := g7 z zs hz
      exact ⟨b'', g8, x, ts, _, _, by simp, by simp, hq1, g9⟩
  · obtain ⟨name, ix, id, q, pre, w, post, vs, b', g1, g2, g3, g4, g5, g6, g7⟩ := h1 a s c nm e1 hs
    refine ⟨name, ix, id, q, pre, w, post ++ y, vs, b' ++ us, g1, g2, by simp [g3], g4, by simp [g5], g6, fun z zs hz => ?_⟩
    obtain ⟨b'', g8, g9⟩ := g7 z zs hz
    obtain ⟨us', rfl, g10⟩ := hm
    refine ⟨b'' ++ us'.map (laterTok (off + (pre ++ z ++ post).length)), moved_append g8 ?_, _, _, y, _, by simp, ?_, g9, g10 _⟩
    · have := moved_later (p := off + pre.length) (n := w.length) (m := z.length) (a := off + pre.length + post.length) (by omega) (us := us')
      rw [g3]
      simp only [List.length_append]
      rw [show off + (pre.length + w.length + post.length) = off + pre.length + post.length + w.length by omega,
        show off + (pre.length + z.length + post.length) = off + pre.length + post.length + z.length by omega]
      exact this
    · simp

/-- The data of each node has a text of its own, which may be exchanged for others of its kind; with the ranges. -/
theorem composes_editAt {g off x ts} (h : Composes E g off x ts) : PlainlyGoal E g → EditAt E (Composes E g) off x ts := by
  have hnil : ∀ {Q : Nat → Str → List Tok → Prop} {off x}, EditAt E Q off x [] := EditAt.none (by simp)
  induction h with
  | token hr h =>
    intro _
    refine EditAt.none fun s hs nm => ?_
    have hn : ∀ {prop : Option Str} {o n : Nat} {f : Str → MetaData}, s ∈ named prop o n f → (∀ x nm, f x ≠ .startNode nm) → s.data ≠ .startNode nm := by
      intro prop o n f hs hf
      cases prop with
      | none => simp [named] at hs
      | some x =>
        simp only [named, List.mem_singleton] at hs
        subst hs
        exact hf x nm
    generalize ho : some _ = o at h
    cases h with
    | ws_ok => cases ho; simp at hs
    | tag_ok | notTag_ok | until_ok | untilWs_ok | text_ok | num_ok =>
      simp only [Option.some.injEq, Prod.mk.injEq] at ho
      rw [ho.2] at hs
      exact hn hs (by simp)
    | _ => first | exact hr.elim | cases ho
  | select hr h ih => exact fun hg => (ih (decided_part hg (.select hr))).mono fun _ _ h => .select hr h
  | sequence h ih => exact fun hg => (ih fun r hr => decided_part hg (.sequence hr)).mono fun _ _ h => .sequence h
  | seq_nil => exact fun _ => hnil
  | seq_cons h h' ih ih' =>
    intro hg
    refine EditAt.mono ((ih (hg _ (by simp))).append (ih' fun r hr => hg r (by simp [hr])) h (composes_stands h')) ?_
    rintro _ _ ⟨x, ts, y, us, rfl, rfl, h1, h2⟩
    exact .seq_cons h1 h2
  | repeat_any h ih => exact fun hg => (ih (decided_part hg .repeat_)).mono fun _ _ h => .repeat_any h
  | repeat_some h h' ih ih' =>
    intro hg
    have hp := decided_part hg .repeat_
    refine EditAt.mono ((ih hp).append (ih' hp) h (composes_stands h')) ?_
    rintro _ _ ⟨x, ts, y, us, rfl, rfl, h1, h2⟩
    exact .repeat_some h1 h2
  | rep_nil => exact fun _ => hnil
  | rep_cons h h' ih ih' =>
    intro hp
    refine EditAt.mono ((ih hp).append (ih' hp) h (composes_stands h')) ?_
    rintro _ _ ⟨x, ts, y, us, rfl, rfl, h1, h2⟩
    exact .rep_cons h1 h2
  | sep_none => exact fun _ => hnil
  | sep_some h h' ih ih' =>
    intro hg
    have hp := decided_part hg .item
    refine EditAt.mono ((ih hp).append (ih' ⟨hp, decided_part hg .sep⟩) h (composes_stands h')) ?_
    rintro _ _ ⟨x, ts, y, us, rfl, rfl, h1, h2⟩
    exact .sep_some h1 h2
  | tail_nil => exact fun _ => hnil
  | tail_trail h ih => exact fun hg => (ih hg.2).mono fun _ _ h => .tail_trail h
  | @tail_cons r b trail off z rs x ts y us h h' h'' ih ih' ih'' =>
    intro hg
    have h2 := (ih' hg.1).append (ih'' hg) h' (composes_stands h'')
    refine EditAt.mono ((ih hg.2).append h2 h ?_) ?_
    · obtain ⟨ts', rfl, g1⟩ := composes_stands h'
      obtain ⟨us', rfl, g3⟩ := composes_stands h''
      refine ⟨ts' ++ us'.map (laterTok x.length), by rw [List.map_append, map_later, Nat.add_comm x.length], fun off' =>
        ⟨x, _, y, _, rfl, by rw [List.map_append, map_later, Nat.add_comm x.length], g1 off', g3 _⟩⟩
    · rintro _ _ ⟨z, rs, _, _, rfl, rfl, h0, x, ts, y, us, rfl, rfl, h1, h2⟩
      exact .tail_cons h0 h1 h2
  | @node name prop ix id off q x ts hr h ih =>
    intro hg
    have ih := ih ⟨_, List.mem_of_getElem? hr, .refl⟩
    cases prop with
    | none => exact ih.mono fun _ _ h => .node (prop := none) hr h
    | some nm' =>
      intro a s b nm e hs
      cases a with
      | nil =>
        simp only [wrapped, List.cons_append, List.nil_append, List.cons.injEq] at e
        obtain ⟨rfl, rfl⟩ := e
        cases hs
        refine ⟨name, ix, id, q, [], x, [], ts, [], hg, hr, by simp, rfl, rfl, h, fun z vs hz => ⟨[], .nil, ?_⟩⟩
        have := Composes.node (name := name) (prop := some nm') (id := id) hr hz
        simpa [wrapped] using this
      | cons d a =>
        simp only [wrapped, List.cons_append, List.cons.injEq] at e
        obtain ⟨rfl, e⟩ := e
        obtain ⟨c, rfl, e1⟩ : ∃ c, b = c ++ [⟨⟨off, x.length⟩, .endNode nm'⟩] ∧ ts = a ++ s :: c := by
          rcases List.append_eq_append_iff.1 e with ⟨c, h1, h2⟩ | ⟨c, h1, h2⟩
          · cases c with
            | nil =>
              simp only [List.nil_append, List.cons.injEq] at h2
              rw [← h2.1] at hs
              cases hs
            | cons d c => simp at h2
          · cases c with
            | nil =>
              simp only [List.nil_append, List.cons.injEq] at h2
              rw [h2.1] at hs
              cases hs
            | cons d c =>
              simp only [List.cons_append, List.cons.injEq] at h2
              obtain ⟨rfl, rfl⟩ := h2
              exact ⟨c, rfl, h1⟩
        obtain ⟨name', ix', id', q', pre, w, post, vs, b', g1, g2, g3, g4, g5, g6, g7⟩ := ih a s c nm e1 hs
        refine ⟨name', ix', id', q', pre, w, post, vs, b' ++ [⟨⟨off, x.length⟩, .endNode nm'⟩], g1, g2, g3, g4, by simp [g5], g6, fun z zs hz => ?_⟩
        obtain ⟨b'', g8, g9⟩ := g7 z zs hz
        refine ⟨b'' ++ [⟨⟨off, (pre ++ z ++ post).length⟩, .endNode nm'⟩], moved_append g8 ?_, ?_⟩
        · rw [g3]
          simp only [List.length_append]
          rw [show pre.length + w.length + post.length = pre.length + post.length + w.length by omega,
            show pre.length + z.length + post.length = pre.length + post.length + z.length by omega]
          exact .around (by omega) (by omega) .nil
        · have := Composes.node (name := name) (prop := some nm') (id := id) hr g9
          simpa [wrapped] using this
  | optional_none => exact fun _ => hnil
  | optional_some h ih => exact fun hg => (ih (decided_part hg .optional)).mono fun _ _ h => .optional_some h

end

end Verif.Props
