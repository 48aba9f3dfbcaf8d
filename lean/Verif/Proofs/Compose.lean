import Verif.Spec.Compose
import Verif.Proofs.Viable
/-
Where what has been read can be continued, texts are put together from texts of their own.
-/
namespace Verif.Props
open Spec

section
variable {E : Env} {M : Nat → Mark} {N A : Nat → Char → Prop} {K : Char → Prop} {I : Nat}

/-- Rules that call no others read the same before what may follow. -/
theorem leaf_same (hL : E.L.Lawful) (hX : E.L.Exact) {r p i n ts j tr} (hr : CallsNone r) (ha : SetApart E.L K M A r)
    (h : Run E (.rule r) p i (some (n, ts)) j tr) {t : Str} (ht : ¬ Heads t (afterOf E.L K M A r)) :
    n ≤ p.src.length ∧ Run E (.rule r) ⟨p.src.take n ++ t, p.off⟩ 0 (some (n, ts)) 0 [] := by
  generalize ho : some (n, ts) = o at h
  cases h with
  | ws_ok h h0 => cases ho; exact ⟨h.1, .ws_ok (longest_take h ht) h0⟩
  | tag_ok h =>
    cases ho
    refine ⟨h.length_le, .tag_ok (p := ⟨_, p.off⟩) ?_⟩
    rw [List.prefix_iff_eq_take.1 h, List.length_take]
    have := h.length_le
    rw [Nat.min_eq_left this]
    exact List.prefix_append _ _
  | notTag_ok h => cases ha
  | until_ok h h0 =>
    cases ho
    have h1 := Run.until_ok (E := E) (id := ‹_›) (prop := ‹_›) (p := ⟨p.src.take n ++ t, p.off⟩) (i := 0) (longest_take h ht) h0
    refine ⟨h.1, ?_⟩
    simpa [List.take_append, h.1] using h1
  | untilWs_ok h h0 =>
    cases ho
    have h1 := Run.untilWs_ok (E := E) (id := ‹_›) (prop := ‹_›) (p := ⟨p.src.take n ++ t, p.off⟩) (i := 0) (longest_take h ht) h0
    refine ⟨h.1, ?_⟩
    simpa [List.take_append, h.1] using h1
  | text_ok h h2 hv =>
    cases ho
    have := hX.str_local h t
    exact ⟨(hL.str_some h).2.1, .text_ok (p := ⟨_, p.off⟩) this.1 h2 (this.2.trans hv)⟩
  | num_ok h hv =>
    cases ho
    have := ha _ _ h t (by
      match t, ht with
      | [], _ => exact .inl rfl
      | c :: t, ht =>
        refine .inr ⟨_, _, rfl, ?_⟩
        exact Classical.byContradiction fun hk => ht ⟨_, _, rfl, hk⟩)
    exact ⟨(hL.num_some h).2, .num_ok (p := ⟨_, p.off⟩) this.1 (this.2.trans hv)⟩
  | _ => first | exact hr.elim | cases ho

/-- The same elsewhere. -/
theorem leaf_elsewhere {r x off i ts j tr} (hr : CallsNone r) (h : Run E (.rule r) ⟨x, off⟩ i (some (x.length, ts)) j tr) (off' : Nat) :
    ∃ us, Run E (.rule r) ⟨x, off'⟩ i (some (x.length, us)) j tr ∧ us.map (·.data) = ts.map (·.data) := by
  generalize ho : some (x.length, ts) = o at h
  have hn : ∀ (prop : Option Str) (n : Nat) (f : Str → MetaData), (named prop off' n f).map (·.data) = (named prop off n f).map (·.data) := by
    intro prop n f
    cases prop <;> rfl
  cases h with
  | ws_ok h h0 =>
    simp only [Option.some.injEq, Prod.mk.injEq] at ho
    obtain ⟨rfl, rfl⟩ := ho
    exact ⟨_, .ws_ok (p := ⟨x, off'⟩) h h0, rfl⟩
  | tag_ok h =>
    simp only [Option.some.injEq, Prod.mk.injEq] at ho
    obtain ⟨e, rfl⟩ := ho
    rw [e]
    exact ⟨_, .tag_ok (p := ⟨x, off'⟩) h, hn _ _ _⟩
  | notTag_ok h =>
    simp only [Option.some.injEq, Prod.mk.injEq] at ho
    obtain ⟨e, rfl⟩ := ho
    rw [e]
    exact ⟨_, .notTag_ok (p := ⟨x, off'⟩) h, hn _ _ _⟩
  | until_ok h h0 =>
    simp only [Option.some.injEq, Prod.mk.injEq] at ho
    obtain ⟨rfl, rfl⟩ := ho
    exact ⟨_, .until_ok (p := ⟨x, off'⟩) h h0, hn _ _ _⟩
  | untilWs_ok h h0 =>
    simp only [Option.some.injEq, Prod.mk.injEq] at ho
    obtain ⟨rfl, rfl⟩ := ho
    exact ⟨_, .untilWs_ok (p := ⟨x, off'⟩) h h0, hn _ _ _⟩
  | text_ok h h2 hv =>
    simp only [Option.some.injEq, Prod.mk.injEq] at ho
    obtain ⟨e, rfl⟩ := ho
    rw [e]
    exact ⟨_, .text_ok (p := ⟨x, off'⟩) h h2 hv, hn _ _ _⟩
  | num_ok h hv =>
    simp only [Option.some.injEq, Prod.mk.injEq] at ho
    obtain ⟨e, rfl⟩ := ho
    rw [e]
    exact ⟨_, .num_ok (p := ⟨x, off'⟩) h hv, hn _ _ _⟩
  | _ => first | exact hr.elim | cases ho

theorem wrapped_data {prop : Option Str} {off off' n n' : Nat} {ts us : List Tok} (h : us.map (·.data) = ts.map (·.data)) :
    (wrapped prop off' n' us).map (·.data) = (wrapped prop off n ts).map (·.data) := by
  cases prop <;> simp [wrapped, h]

/-- The same elsewhere. -/
theorem composes_elsewhere {g off x ts} (h : Composes E g off x ts) : ∀ off', ∃ us, Composes E g off' x us ∧ us.map (·.data) = ts.map (·.data) := by
  have two : ∀ {ts us ts' us' : List Tok}, ts'.map (·.data) = ts.map (·.data) → us'.map (·.data) = us.map (·.data) →
      (ts' ++ us').map (·.data) = (ts ++ us).map (·.data) := fun h h' => by rw [List.map_append, List.map_append, h, h']
  induction h with
  | token hr h =>
    intro off'
    obtain ⟨us, h1, h2⟩ := leaf_elsewhere hr h off'
    exact ⟨us, .token hr h1, h2⟩
  | select hr _ ih => exact fun off' => (ih off').imp fun us h => ⟨.select hr h.1, h.2⟩
  | sequence _ ih => exact fun off' => (ih off').imp fun us h => ⟨.sequence h.1, h.2⟩
  | seq_nil => exact fun off' => ⟨[], .seq_nil, rfl⟩
  | seq_cons _ _ ih ih' =>
    intro off'
    obtain ⟨ts', h1, h2⟩ := ih off'
    obtain ⟨us', h3, h4⟩ := ih' _
    exact ⟨_, .seq_cons h1 h3, two h2 h4⟩
  | repeat_any _ ih => exact fun off' => (ih off').imp fun us h => ⟨.repeat_any h.1, h.2⟩
  | repeat_some _ _ ih ih' =>
    intro off'
    obtain ⟨ts', h1, h2⟩ := ih off'
    obtain ⟨us', h3, h4⟩ := ih' _
    exact ⟨_, .repeat_some h1 h3, two h2 h4⟩
  | rep_nil => exact fun off' => ⟨[], .rep_nil, rfl⟩
  | rep_cons _ _ ih ih' =>
    intro off'
    obtain ⟨ts', h1, h2⟩ := ih off'
    obtain ⟨us', h3, h4⟩ := ih' _
    exact ⟨_, .rep_cons h1 h3, two h2 h4⟩
  | sep_none => exact fun off' => ⟨[], .sep_none, rfl⟩
  | sep_some _ _ ih ih' =>
    intro off'
    obtain ⟨ts', h1, h2⟩ := ih off'
    obtain ⟨us', h3, h4⟩ := ih' _
    exact ⟨_, .sep_some h1 h3, two h2 h4⟩
  | tail_nil => exact fun off' => ⟨[], .tail_nil, rfl⟩
  | tail_trail _ ih => exact fun off' => (ih off').imp fun us h => ⟨.tail_trail h.1, h.2⟩
  | tail_cons _ _ _ ih ih' ih'' =>
    intro off'
    obtain ⟨rs', h1, h2⟩ := ih off'
    obtain ⟨ts', h3, h4⟩ := ih' _
    obtain ⟨us', h5, h6⟩ := ih'' _
    exact ⟨_, .tail_cons h1 h3 h5, two h2 (two h4 h6)⟩
  | node hr _ ih =>
    intro off'
    obtain ⟨us, h1, h2⟩ := ih off'
    exact ⟨_, .node hr h1, wrapped_data h2⟩
  | optional_none => exact fun off' => ⟨[], .optional_none, rfl⟩
  | optional_some _ ih => exact fun off' => (ih off').imp fun us h => ⟨.optional_some h.1, h.2⟩

/-- What is generated is put together. -/
theorem generates_composes (hL : E.L.Lawful) (hX : E.L.Exact) (hU : LL1 E.L M N E.refs)
    (hC : Continues E.L K M A E.refs) {g p n ts}
    (h : Generates E g p n ts) : GoalOk E M N g → n ≤ p.src.length ∧ Composes E g p.off (p.src.take n) ts := by
  induction h with
  | token hr h =>
    intro hg
    obtain ⟨h1, h2⟩ := leaf_same hL hX hr (hC.apart _ hg) h (t := []) not_heads_nil
    rw [List.append_nil] at h2
    refine ⟨h1, .token hr (i := 0) (j := 0) (tr := []) ?_⟩
    rw [List.length_take, Nat.min_eq_left h1]
    exact h2
  | absent hr h => exact fun hg => (hC.apart _ hg).elim
  | select hr h ih => exact fun hg => (ih (decided_part hg (.select hr))).imp id fun h => .select hr h
  | sequence h ih => exact fun hg => (ih (ok_sequence hU hg)).imp id fun h => .sequence h
  | seq_nil => exact fun _ => ⟨Nat.zero_le _, .seq_nil⟩
  | @seq_cons r rs p n ts m us h h' ih ih' =>
    intro hg
    obtain ⟨hg, hg', -⟩ := ok_cons hg
    obtain ⟨h1, h2⟩ := ih hg
    obtain ⟨h3, h4⟩ := ih' hg'
    simp only [adv, List.length_drop] at h3 h4
    refine ⟨by omega, ?_⟩
    rw [List.take_add]
    exact .seq_cons h2 (by rwa [List.length_take, Nat.min_eq_left h1])
  | repeat_any h ih => exact fun hg => (ih (ok_repeat hU hg)).imp id fun h => .repeat_any h
  | @repeat_some r id p n ts m us h h' ih ih' =>
    intro hg
    have hk := ok_repeat hU hg
    obtain ⟨h1, h2⟩ := ih hk.1
    obtain ⟨h3, h4⟩ := ih' hk
    simp only [adv, List.length_drop] at h3 h4
    refine ⟨by omega, ?_⟩
    rw [List.take_add]
    exact .repeat_some h2 (by rwa [List.length_take, Nat.min_eq_left h1])
  | rep_nil => exact fun _ => ⟨Nat.zero_le _, .rep_nil⟩
  | @rep_cons r p n ts m us h h' ih ih' =>
    intro hk
    obtain ⟨h1, h2⟩ := ih hk.1
    obtain ⟨h3, h4⟩ := ih' hk
    simp only [adv, List.length_drop] at h3 h4
    refine ⟨by omega, ?_⟩
    rw [List.take_add]
    exact .rep_cons h2 (by rwa [List.length_take, Nat.min_eq_left h1])
  | sep_none => exact fun _ => ⟨Nat.zero_le _, .sep_none⟩
  | @sep_some r b opt trail id p n ts m us h h' ih ih' =>
    intro hg
    have hk := ok_sep hU hg
    obtain ⟨h1, h2⟩ := ih hk.1.1
    obtain ⟨h3, h4⟩ := ih' hk
    simp only [adv, List.length_drop] at h3 h4
    refine ⟨by omega, ?_⟩
    rw [List.take_add]
    exact .sep_some h2 (by rwa [List.length_take, Nat.min_eq_left h1])
  | tail_nil => exact fun _ => ⟨Nat.zero_le _, .tail_nil⟩
  | tail_trail h ih => exact fun hk => (ih hk.1.2).imp id fun h => .tail_trail h
  | @tail_cons r b trail p l rs n ts m us h h' h'' ih ih' ih'' =>
    intro hk
    obtain ⟨h1, h2⟩ := ih hk.1.2
    obtain ⟨h3, h4⟩ := ih' hk.1.1
    obtain ⟨h5, h6⟩ := ih'' hk
    simp only [adv, List.length_drop] at h3 h4 h5 h6
    refine ⟨by omega, ?_⟩
    rw [Nat.add_assoc, List.take_add, List.take_add, List.drop_drop, List.append_assoc]
    refine .tail_cons h2 ?_ ?_
    · rwa [List.length_take, Nat.min_eq_left h1]
    · rwa [List.length_take, List.length_take, Nat.min_eq_left h1, List.length_drop, Nat.min_eq_left h3, Nat.add_assoc]
  | @node name prop ix id p r n ts hr h ih =>
    intro hg
    obtain ⟨h1, h2⟩ := ih ⟨_, List.mem_of_getElem? hr, .refl⟩
    have := Composes.node (name := name) (prop := prop) (id := id) hr h2
    rw [List.length_take, Nat.min_eq_left h1] at this
    exact ⟨h1, this⟩
  | optional_none => exact fun _ => ⟨Nat.zero_le _, .optional_none⟩
  | optional_some h ih => exact fun hg => (ih (decided_part hg .optional)).imp id fun h => .optional_some h

/-- What follows what has been read. -/
theorem heads_follows {y t : Str} {P Q : Char → Prop} (hf : 0 < y.length → Heads (y ++ t) Q)
    (ha : NoShared P Q) (ht : y.length = 0 → ¬ Heads t P) : ¬ Heads (y ++ t) P := by
  intro hh
  by_cases h0 : y.length = 0
  · have : y = [] := List.eq_nil_of_length_eq_zero h0
    subst this
    exact ht h0 hh
  · exact hh.apart (hf (by omega)) ha

/-- What is put together is generated, before what may follow. -/
theorem composes_generates (hL : E.L.Lawful) (hX : E.L.Exact) (hU : LL1 E.L M N E.refs) (hI : ∀ i, (M i).idle ≤ I)
    (hC : Continues E.L K M A E.refs) {g off x ts}
    (h : Composes E g off x ts) : GoalOk E M N g → SetApartGoal E M A K g → ∀ t, ¬ Heads t (goalAfter E M A K g) →
    Generates E g ⟨x ++ t, off⟩ x.length ts := by
  have hpart : ∀ {r}, GoalOk E M N (.rule r) → SetApart E.L K M A r := fun h => hC.apart _ h
  have hadv : ∀ {x y t : Str} {off : Nat}, adv ⟨x ++ y ++ t, off⟩ x.length = ⟨y ++ t, off + x.length⟩ := by
    intro x y t off
    simp [adv]
  induction h with
  | @token r off x i ts j tr hr h =>
    intro hg ha t ht
    have := (leaf_same hL hX hr (hpart hg) h ht).2
    simp only [List.take_length] at this
    exact .token hr this
  | select hr h ih =>
    intro hg ha t ht
    have hq := decided_part hg (.select hr)
    exact .select hr (ih hq hq t (fun hh => ht (hh.mono fun c hc => afterSelect_mem hr hc)))
  | sequence h ih => exact fun hg ha t ht => .sequence (ih (ok_sequence hU hg) (hpart hg) t ht)
  | seq_nil => exact fun _ _ t _ => .seq_nil
  | @seq_cons r rs off x ts y us h h' ih ih' =>
    intro hg ha t ht
    obtain ⟨hg, hg', -⟩ := ok_cons hg
    have h2 := ih' hg' ha.2 t (fun hh => ht (hh.mono fun c hc => .inl hc))
    have h1 := generates_first hL hU hI h2 hg'
    have h3 := ih hg hg (y ++ t) (heads_follows h1.1 ha.1 fun h0 hh => ht (hh.mono fun c hc => .inr ⟨h1.2 h0, hc⟩))
    rw [← List.append_assoc] at h3
    rw [← hadv] at h2
    rw [List.length_append]
    exact .seq_cons h3 h2
  | repeat_any h ih => exact fun hg ha t ht => .repeat_any (ih (ok_repeat hU hg) (hpart hg) t ht)
  | @repeat_some r id off x ts y us h h' ih ih' =>
    intro hg ha t ht
    have hk := ok_repeat hU hg
    have ha := hpart hg
    have h2 := ih' hk ha t ht
    have h1 := generates_first hL hU hI h2 hk
    have h3 := ih hk.1 hk.1 (y ++ t) (heads_follows h1.1 ha fun _ hh => ht hh)
    rw [← List.append_assoc] at h3
    rw [← hadv] at h2
    rw [List.length_append]
    exact .repeat_some h3 h2
  | rep_nil => exact fun _ _ t _ => .rep_nil
  | @rep_cons r off x ts y us h h' ih ih' =>
    intro hk ha t ht
    have h2 := ih' hk ha t ht
    have h1 := generates_first hL hU hI h2 hk
    have h3 := ih hk.1 hk.1 (y ++ t) (heads_follows h1.1 ha fun _ hh => ht hh)
    rw [← List.append_assoc] at h3
    rw [← hadv] at h2
    rw [List.length_append]
    exact .rep_cons h3 h2
  | sep_none => exact fun _ _ t _ => .sep_none
  | @sep_some r b opt trail id off x ts y us h h' ih ih' =>
    intro hg ha t ht
    have hk := ok_sep hU hg
    have ha := hpart hg
    have h2 := ih' hk ha t ht
    have h1 := generates_first hL hU hI h2 hk
    have h3 := ih hk.1.1 hk.1.1 (y ++ t) (heads_follows h1.1 ha.1 fun _ hh => ht (hh.mono fun c hc => .inl hc))
    rw [← List.append_assoc] at h3
    rw [← hadv] at h2
    rw [List.length_append]
    exact .sep_some h3 h2
  | tail_nil => exact fun _ _ t _ => .tail_nil
  | tail_trail h ih => exact fun hk ha t ht => .tail_trail (ih hk.1.2 hk.1.2 t (fun hh => ht (hh.mono fun c hc => .inr ⟨rfl, hc⟩)))
  | @tail_cons r b trail off z rs x ts y us h h' h'' ih ih' ih'' =>
    intro hk ha t ht
    have h2 := ih'' hk ha t ht
    have h1 := generates_first hL hU hI h2 hk
    have h3 := ih' hk.1.1 hk.1.1 (y ++ t) (heads_follows h1.1 ha.1 fun _ hh => ht (hh.mono fun c hc => .inl hc))
    have h0 := generates_first hL hU hI h3 hk.1.1
    have h4 := ih hk.1.2 hk.1.2 (x ++ (y ++ t)) (heads_follows h0.1 ha.2 fun hz => absurd (pos_of h0.2 hk.2.1) (by omega))
    rw [List.length_append, List.length_append, ← Nat.add_assoc, ← List.append_assoc rs]
    refine .tail_cons (by simpa using h4) ?_ ?_
    · simpa [adv] using h3
    · simpa [adv, Nat.add_assoc, ← List.drop_drop] using h2
  | node hr h ih =>
    intro hg ha t ht
    have hq : Part E.refs _ := ⟨_, List.mem_of_getElem? hr, .refl⟩
    exact .node hr (ih hq hq t (fun hh => ht (hh.mono (hC.after _ _ hr))))
  | optional_none => exact fun _ _ t _ => .optional_none
  | optional_some h ih =>
    intro hg ha t ht
    have hq := decided_part hg .optional
    exact .optional_some (ih hq hq t ht)

end

end Verif.Props
