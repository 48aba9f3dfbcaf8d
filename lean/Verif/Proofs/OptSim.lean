import Verif.Proofs.Unique
import Verif.Proofs.Det
import Verif.Spec.WellFormed
/-
The optimizer preserves meaning.
-/
namespace Verif
open Spec

/-- The text does not start with the byte. -/
def NotFirst (b : UInt8) (src : List Char) : Prop := ∀ c cs, src = c :: cs → firstByte c ≠ b

/-- The failures all end exactly here, and there is one. -/
def AllAt (off : Nat) (tr : List RErr) : Prop := ∀ e ∈ tr, e.depth = off

/-- The rule fails, right here, wherever the text does not start with the byte. -/
def Refusing (E : Env) (b : UInt8) (r : Rule) : Prop :=
  ∀ p i, NotFirst b p.src → ∃ tr, Run E (.rule r) p i none i tr ∧ AllAt p.off tr ∧ tr ≠ []

theorem allAt_here {p : Pos} {e} : AllAt p.off (here p e) ∧ here p e ≠ [] := by
  simp [AllAt, here, RErr.depth, Range.next]

/-- The references of two environments are related. -/
def SimRefs (refs : List Rule) (n : Nat) (Q : Rule → Prop) (E E' : Env) : Prop :=
  SimL refs n Q E.refs E'.refs ∧ E.L = E'.L ∧ E.align = E'.align ∧ E.tab = E'.tab

theorem firstByte_of_prefix {ch : Char} {t src : List Char} (h : ch :: t <+: src) :
    ∃ cs, src = ch :: cs := by
  obtain ⟨s, rfl⟩ := h
  exact ⟨t ++ s, rfl⟩

/-- `unique_byte` is right, also about the optimized rule. -/
theorem unique_refuses {E' : Env} (hL : E'.L.Lawful) {Q : Rule → Prop} {refs : List Rule}
    {m : Nat} (hrefs : SimL refs m Q refs E'.refs) :
    ∀ n r r' b, uniqueByte refs n r = .ok (some b) → Sim refs m Q r r' → Refusing E' b r' := by
  intro n
  induction n with
  | zero => intro r r' b h; simp [uniqueByte] at h
  | succ n ih =>
    intro r r' b h hs p i hp
    unfold uniqueByte at h
    split at h
    all_goals try (simp at h; done)
    · -- not (not r)
      cases hs with
      | not hs =>
        cases hs with
        | not hs =>
          obtain ⟨tr, h1, h2, h3⟩ := ih _ _ _ h hs p i hp
          exact ⟨_, .not_fail (.not_ok h1), by simp [AllAt, RErr.depth, Range.next], by simp⟩
    · -- text
      simp only [Comp.ok.injEq, Option.some.injEq] at h
      subst h
      cases hs
      refine ⟨_, .text_none ?_, allAt_here⟩
      cases hstr : E'.L.str p.src with
      | none => rfl
      | some k =>
        have := (hL.str_some hstr).2.2
        cases hsrc : p.src with
        | nil => rw [hsrc] at this; simp at this
        | cons c cs =>
          rw [hsrc] at this
          simp at this
          subst this
          exact absurd (by decide) (hp _ _ hsrc)
    · -- select
      cases hs with
      | select hs =>
        cases hs with
        | cons hs hn =>
          cases hn
          obtain ⟨tr, h1, h2, h3⟩ := ih _ _ _ h hs p i hp
          exact ⟨_, .select (.sel_next h1 .sel_nil), by simpa using h2, by simpa using h3⟩
      | fast ht hne hs =>
        cases hs with
        | cons hs hn =>
          cases hn
          obtain ⟨tr, h1, h2, h3⟩ := ih _ _ _ h hs p i hp
          have hspec := (uniqueTable_spec ht).1
          cases hsrc : p.src with
          | nil => exact ⟨_, .fast_end hsrc, allAt_here⟩
          | cons c cs =>
            obtain ⟨b', bs, hb⟩ := utf8_ne_nil c
            by_cases h255 : ‹Table› b' = 255
            · exact ⟨_, .fast_miss hsrc hb h255, allAt_here⟩
            · obtain ⟨hlt, _⟩ := hspec.only b' h255
              simp at hlt
              exact ⟨_, .fast_hit hsrc hb h255 (by rw [hlt]; rfl) h1, h2, h3⟩
      | tail ht h0 hu hQ hs => simp at hu; omega
      | guarded hg ht h0 hu hs =>
        have := congrArg List.length hg
        rw [guardFrom_length] at this
        simp at this
        omega
    · -- separateBy
      split at h
      · simp at h
      · rename_i hopt
        cases hs with
        | separateBy hs hb =>
          obtain ⟨tr, h1, h2, h3⟩ := ih _ _ _ h hs p i hp
          simp at hopt
          subst hopt
          exact ⟨_, .sep_fail h1, h2, h3⟩
    · -- sequence
      cases hs with
      | sequence hs =>
        cases hs with
        | cons hs hn =>
          obtain ⟨tr, h1, h2, h3⟩ := ih _ _ _ h hs p i hp
          exact ⟨_, .sequence (.seq_fail h1), h2, h3⟩
    · -- repeat
      split at h
      · simp at h
      · rename_i hopt
        cases hs with
        | repeat_ hs =>
          obtain ⟨tr, h1, h2, h3⟩ := ih _ _ _ h hs p i hp
          simp at hopt
          subst hopt
          exact ⟨_, .repeat_fail h1, h2, h3⟩
    · -- node
      split at h
      · simp at h
      · rename_i q hq
        cases hs
        obtain ⟨q', hq', hs⟩ := hrefs.get _ _ hq
        obtain ⟨tr, h1, h2, h3⟩ := ih _ _ _ h hs p i hp
        exact ⟨_, .node_fail hq' h1, h2, h3⟩
    · -- tag
      split at h
      · simp at h
      · rename_i hnot
        simp at hnot
        subst hnot
        split at h
        · rename_i ch t
          simp only [Comp.ok.injEq, Option.some.injEq] at h
          subst h
          cases hs
          refine ⟨_, .tag_fail ?_, allAt_here⟩
          intro hpre
          obtain ⟨cs, hsrc⟩ := firstByte_of_prefix hpre
          exact hp _ _ hsrc rfl
        · simp at h

/-! ### How far the failures reach -/

/-- The deepest end of a failure. -/
def deepest : List RErr → Nat
  | [] => 0
  | e :: es => max e.depth (deepest es)

theorem deepest_append : ∀ (a b : List RErr), deepest (a ++ b) = max (deepest a) (deepest b)
  | [], b => by simp [deepest]
  | e :: es, b => by simp [deepest, deepest_append es b, Nat.max_assoc]

theorem le_deepest {e : RErr} : ∀ {tr : List RErr}, e ∈ tr → e.depth ≤ deepest tr
  | a :: as, h => by
    rcases List.mem_cons.1 h with rfl | h
    · simp [deepest]; omega
    · have := le_deepest h; simp [deepest]; omega

theorem deepest_le {d : Nat} : ∀ {tr : List RErr}, (∀ e ∈ tr, e.depth ≤ d) → deepest tr ≤ d
  | [], _ => by simp [deepest]
  | a :: as, h => by
    have := h a (by simp)
    have := deepest_le (tr := as) fun e he => h e (by simp [he])
    simp [deepest]; omega

theorem deepest_allAt {off : Nat} {tr : List RErr} (h : AllAt off tr) (hne : tr ≠ []) :
    deepest tr = off := by
  apply Nat.le_antisymm (deepest_le fun e he => Nat.le_of_eq (h e he))
  cases tr with
  | nil => exact absurd rfl hne
  | cons e es => have := h e (by simp); simp [deepest]; omega

theorem deepest_here {p : Pos} {e} : deepest (here p e) = p.off :=
  deepest_allAt allAt_here.1 allAt_here.2

/-- Goals that leave a failure behind when they fail. -/
def Leaves : Goal → Prop
  | .rule _ | .seq _ | .sepTail _ _ _ | .lines _ _ _ _ _ => True
  | _ => False

theorem run_fail_ne_nil {E : Env} {g p i o j tr} (h : Run E g p i o j tr) :
    o = none → Leaves g → tr ≠ [] := by
  induction h with
  | select h _ =>
    intro ho hg
    subst ho
    obtain ⟨e, he⟩ := run_none_trace (Run.select (id := 0) h)
    intro hn; subst hn; simp [best] at he
  | rep_stop | rep_more => intro _ hg; exact absurd hg (by simp [Leaves])
  | seq_cons h h' ih ih' =>
    intro ho hg
    rename_i o _ _
    cases o with
    | none => have := ih' rfl trivial; simp [this]
    | some x => simp [before] at ho
  | repeat_opt h ih =>
    intro ho _
    subst ho
    obtain ⟨e, he⟩ := run_none_trace (Run.repeat_opt (id := 0) h)
    intro hn; subst hn; simp [best] at he
  | repeat_ok h h' ih ih' =>
    intro ho _
    obtain ⟨e, he⟩ := run_none_trace (ho ▸ Run.repeat_ok (id := 0) h h')
    intro hn; rw [hn] at he; simp [best] at he
  | sep_first h h' ih ih' =>
    intro ho hg
    rename_i o _ _
    cases o with
    | none => have := ih' rfl trivial; simp [this]
    | some x => simp [before] at ho
  | sep_noTrail h h' ih ih' => intro _ _; have := ih' rfl trivial; simp [this]
  | sep_more h h' h'' ih ih' ih'' =>
    intro ho hg
    rename_i o _ _
    cases o with
    | none => have := ih'' rfl trivial; simp [this]
    | some x => simp [before] at ho
  | lines_more hn h h' ih ih' =>
    intro ho hg
    rename_i o _ _
    cases o with
    | none => have := ih' rfl trivial; simp [this]
    | some x => simp [before] at ho
  | _ => simp_all [Leaves, here]

theorem fail_deep {E : Env} (hL : E.L.Lawful) {g p i j tr} (h : Run E g p i none j tr)
    (hg : Leaves g) : p.off ≤ deepest tr := by
  have hne := run_fail_ne_nil h rfl hg
  have hb := (run_bounded hL h).2
  cases tr with
  | nil => exact absurd rfl hne
  | cons e es =>
    have h1 := hb e (by simp)
    have h2 := le_deepest (e := e) (tr := e :: es) (by simp)
    simp only [Within, RErr.depth, Range.next] at h1 h2
    omega

/-- At the end of the text every failure is right there. -/
theorem eof_allAt {E : Env} (hL : E.L.Lawful) {g p i o j tr} (h : Run E g p i o j tr)
    (hp : p.src = []) : AllAt p.off tr := by
  have hb := (run_bounded hL h).2
  intro e he
  have := hb e he
  simp only [Within, Pos.stop, hp, List.length_nil, Range.next] at this
  simp only [RErr.depth, Range.next]
  omega

/-- At the end of the text the indentation stays. -/
theorem eof_indent {E : Env} {g p i o j tr} (h : Run E g p i o j tr) : p.src = [] → j = i := by
  induction h with
  | line_align ha h hm hi h' ih =>
    intro hp
    simp [hp, width]
  | line_body => intro _; rfl
  | _ => intro hp; simp_all

/-- The failures of two runs reach equally far, as far as it matters: no further than what has been
read does not matter. -/
def SameReach (p : Pos) (o : Outcome) (tr tr' : List RErr) : Prop :=
  match o with
  | none => deepest tr = deepest tr'
  | some (n, _) => max (p.off + n) (deepest tr) = max (p.off + n) (deepest tr')

theorem sameReach_refl {p o tr} : SameReach p o tr tr := by
  unfold SameReach; split <;> rfl

theorem sameReach_some {p : Pos} {n ts tr tr'} : SameReach p (some (n, ts)) tr tr' ↔
    max (p.off + n) (deepest tr) = max (p.off + n) (deepest tr') := Iff.rfl

theorem sameReach_none {p : Pos} {tr tr'} : SameReach p none tr tr' ↔
    deepest tr = deepest tr' := Iff.rfl

/-- Failing first, then going on at the same place. -/
theorem sameReach_after_fail {p o tr tr' us us'} (h : SameReach p none tr tr')
    (h' : SameReach p o us us') : SameReach p o (tr ++ us) (tr' ++ us') := by
  cases o with
  | none => simp only [sameReach_none, deepest_append] at *; omega
  | some x => obtain ⟨n, ts⟩ := x; simp only [sameReach_none, sameReach_some, deepest_append] at *; omega

theorem sameReach_before {p : Pos} {n ts tr tr' o us us'} (h : SameReach p (some (n, ts)) tr tr')
    (h' : SameReach (adv p n) o us us') (hd : o = none → (adv p n).off ≤ deepest us) :
    SameReach p (before n ts o) (tr ++ us) (tr' ++ us') := by
  cases o with
  | none =>
    have := hd rfl
    simp only [before, sameReach_none, sameReach_some, deepest_append, adv_off] at *
    omega
  | some x =>
    obtain ⟨m, ts⟩ := x
    simp only [before, sameReach_some, deepest_append, adv_off] at *
    omega

theorem sameReach_shift {p : Pos} {k o tr tr'} (h : SameReach (adv p k) o tr tr') :
    SameReach p (before k [] o) tr tr' := by
  cases o with
  | none => exact h
  | some x => obtain ⟨m, ts⟩ := x; simp only [before, sameReach_some, adv_off] at *; omega

theorem sameReach_zero {p : Pos} {tr tr'} (h : SameReach p none tr tr') {ts} :
    SameReach p (some (0, ts)) tr tr' := by
  simp only [sameReach_none, sameReach_some] at *; omega

/-! ### A table look-up does what the select does -/

theorem sel_skip {E : Env} {p : Pos} : ∀ {A : List Rule},
    (∀ a ∈ A, ∃ b, Refusing E b a ∧ NotFirst b p.src) → ∀ {B i o j tr}, Run E (.sel (A ++ B)) p i o j tr →
    ∃ trA trB, tr = trA ++ trB ∧ Run E (.sel B) p i o j trB ∧ AllAt p.off trA ∧ (A ≠ [] → trA ≠ [])
  | [], _, B, i, o, j, tr, h => ⟨[], tr, rfl, h, by simp [AllAt], by simp⟩
  | a :: A, hA, B, i, o, j, tr, h => by
    obtain ⟨b, hr, hb⟩ := hA a (by simp)
    obtain ⟨tr0, h1, h2, h3⟩ := hr p i hb
    cases h with
    | sel_here h => have := (Run.det h1 h).1; simp at this
    | sel_next h h' =>
      obtain ⟨_, rfl, rfl⟩ := Run.det h1 h
      obtain ⟨trA, trB, rfl, h4, h5, _⟩ := sel_skip (fun a ha => hA a (by simp [ha])) h'
      refine ⟨tr0 ++ trA, trB, by simp, h4, ?_, by simp [h3]⟩
      intro e he
      rcases List.mem_append.1 he with he | he
      · exact h2 e he
      · exact h5 e he

theorem sel_add {E : Env} {p : Pos} : ∀ {A : List Rule},
    (∀ a ∈ A, ∃ b, Refusing E b a ∧ NotFirst b p.src) → ∀ {B i o j tr}, Run E (.sel B) p i o j tr →
    ∃ tr, Run E (.sel (A ++ B)) p i o j tr
  | [], _, B, i, o, j, tr, h => ⟨tr, h⟩
  | a :: A, hA, B, i, o, j, tr, h => by
    obtain ⟨b, hr, hb⟩ := hA a (by simp)
    obtain ⟨tr0, h1, h2, h3⟩ := hr p i hb
    obtain ⟨tr', h4⟩ := sel_add (A := A) (fun a ha => hA a (by simp [ha])) h
    exact ⟨_, .sel_next h1 h4⟩

/-- What the table says about the alternatives, in an environment. -/
structure TableFits (E : Env) (t : Table) (A : List Rule) : Prop where
  entry : ∀ k a, A[k]? = some a → ∃ b, Refusing E b a ∧ t b = UInt8.ofNat k
  only : ∀ b, t b ≠ 255 → (t b).toNat < A.length
  small : A.length ≤ 255

theorem tableFits_of_spec {E' : Env} (hL : E'.L.Lawful) {n : Nat} {Q : Rule → Prop} {refs : List Rule}
    (hrefs : SimL refs n Q refs E'.refs) {args args' t u} (h : TableSpec refs n args t u)
    (hs : SimL refs n Q args args') : TableFits E' t (args'.take u) := by
  have hlen : (args'.take u).length = u := by
    rw [List.length_take, ← hs.length]; have := h.len; omega
  refine ⟨?_, ?_, by rw [hlen]; exact h.small⟩
  · intro k a hk
    have hlt : k < u := by rw [← hlen]; exact (List.getElem?_eq_some_iff.1 hk).1
    obtain ⟨r, b, h1, h2, h3⟩ := h.entry k hlt
    obtain ⟨r', h4, h5⟩ := hs.get _ _ h1
    rw [List.getElem?_take_of_lt hlt, h4] at hk
    cases hk
    exact ⟨b, unique_refuses hL hrefs n r _ b h2 h5, h3⟩
  · intro b hb
    rw [hlen]
    exact (h.only b hb).1

theorem ofNat_inj {i j : Nat} (hi : i < 256) (hj : j < 256) (h : UInt8.ofNat i = UInt8.ofNat j) :
    i = j := by
  have := congrArg UInt8.toNat h
  rw [UInt8.toNat_ofNat', UInt8.toNat_ofNat'] at this
  omega

/-- No entry for the first byte: all alternatives of the table fail. -/
theorem fits_miss {E : Env} {t A} (h : TableFits E t A) {p : Pos} {c cs} (hp : p.src = c :: cs)
    (ht : t (firstByte c) = 255) : ∀ a ∈ A, ∃ b, Refusing E b a ∧ NotFirst b p.src := by
  intro a ha
  obtain ⟨k, hk⟩ := List.mem_iff_getElem?.1 ha
  obtain ⟨b, h1, h2⟩ := h.entry k a hk
  refine ⟨b, h1, ?_⟩
  intro c' cs' he
  rw [hp] at he
  cases he
  rintro rfl
  rw [ht] at h2
  have hlt := (List.getElem?_eq_some_iff.1 hk).1
  have := h.small
  have := ofNat_inj (i := 255) (by omega) (by omega) h2
  omega

/-- An entry: all the others fail. -/
theorem fits_hit {E : Env} {t A} (h : TableFits E t A) {p : Pos} {c cs} (hp : p.src = c :: cs) :
    ∀ k a, A[k]? = some a → k ≠ (t (firstByte c)).toNat →
      ∃ b, Refusing E b a ∧ NotFirst b p.src := by
  intro k a hk hne
  obtain ⟨b, h1, h2⟩ := h.entry k a hk
  refine ⟨b, h1, ?_⟩
  intro c' cs' he
  rw [hp] at he
  cases he
  rintro rfl
  have hlt := (List.getElem?_eq_some_iff.1 hk).1
  have := h.small
  apply hne
  rw [h2, UInt8.toNat_ofNat']
  omega

theorem fits_eof {E : Env} {t A} (h : TableFits E t A) {p : Pos} (hp : p.src = []) :
    ∀ a ∈ A, ∃ b, Refusing E b a ∧ NotFirst b p.src := by
  intro a ha
  obtain ⟨k, hk⟩ := List.mem_iff_getElem?.1 ha
  obtain ⟨b, h1, h2⟩ := h.entry k a hk
  exact ⟨b, h1, by intro c cs he; rw [hp] at he; cases he⟩

theorem split_at {α : Type} {A : List α} {k : Nat} {a : α} (h : A[k]? = some a) :
    A = A.take k ++ a :: A.drop (k + 1) := by
  have hlt := (List.getElem?_eq_some_iff.1 h).1
  have ha := (List.getElem?_eq_some_iff.1 h).2
  rw [← ha, List.getElem_cons_drop, List.take_append_drop]

theorem mem_take_ne {α : Type} {A : List α} {k : Nat} {x : α} (h : x ∈ A.take k) :
    ∃ m, A[m]? = some x ∧ m ≠ k := by
  obtain ⟨m, hm⟩ := List.mem_iff_getElem?.1 h
  rw [List.getElem?_take] at hm
  split at hm
  · exact ⟨m, hm, by omega⟩
  · simp at hm

theorem mem_drop_ne {α : Type} {A : List α} {k : Nat} {x : α} (h : x ∈ A.drop (k + 1)) :
    ∃ m, A[m]? = some x ∧ m ≠ k := by
  obtain ⟨m, hm⟩ := List.mem_iff_getElem?.1 h
  rw [List.getElem?_drop] at hm
  exact ⟨_, hm, by omega⟩

/-- A select over `A ++ B`, where the table fits `A` and the first byte has an entry. -/
theorem sel_hit {E : Env} {t A B} (h : TableFits E t A) {p : Pos} {c cs} (hp : p.src = c :: cs)
    (ht : t (firstByte c) ≠ 255) {i o j tr} (hr : Run E (.sel (A ++ B)) p i o j tr) :
    ∃ a, A[(t (firstByte c)).toNat]? = some a ∧
      ((∃ x tr0 tr1, o = some x ∧ Run E (.rule a) p i (some x) j tr1 ∧ tr = tr0 ++ tr1 ∧
          AllAt p.off tr0) ∨
       (∃ l tr0 tr1 tr2 tr3, Run E (.rule a) p i none l tr1 ∧ Run E (.sel B) p l o j tr3 ∧
          tr = tr0 ++ (tr1 ++ (tr2 ++ tr3)) ∧ AllAt p.off tr0 ∧ AllAt p.off tr2)) := by
  have hk := List.getElem?_eq_getElem (h.only _ ht)
  refine ⟨_, hk, ?_⟩
  generalize A[(t (firstByte c)).toNat]'(h.only _ ht) = a at hk
  have hA := split_at hk
  rw [hA, List.append_assoc] at hr
  obtain ⟨tr0, trB, rfl, h1, h2, _⟩ := sel_skip (A := A.take (t (firstByte c)).toNat) (by
    intro x hx
    obtain ⟨m, hm, hne⟩ := mem_take_ne hx
    exact fits_hit h hp m x hm hne) hr
  rw [List.cons_append] at h1
  cases h1 with
  | sel_here h1 => exact .inl ⟨_, _, _, rfl, h1, rfl, h2⟩
  | sel_next h1 h3 =>
    obtain ⟨tr2, tr3, rfl, h4, h5, _⟩ := sel_skip (A := A.drop ((t (firstByte c)).toNat + 1)) (by
      intro x hx
      obtain ⟨m, hm, hne⟩ := mem_drop_ne hx
      exact fits_hit h hp m x hm hne) h3
    exact .inr ⟨_, _, _, _, _, h1, h4, rfl, h2, h5⟩

/-- The other way round. -/
theorem sel_of_hit {E : Env} {t A B} (h : TableFits E t A) {p : Pos} {c cs} (hp : p.src = c :: cs)
    {a} (ha : A[(t (firstByte c)).toNat]? = some a) {i o j tr}
    (hr : Run E (.rule a) p i o j tr) :
    (∀ x, o = some x → ∃ tr, Run E (.sel (A ++ B)) p i o j tr) ∧
    (o = none → ∀ {o' l tr'}, Run E (.sel B) p j o' l tr' →
      ∃ tr, Run E (.sel (A ++ B)) p i o' l tr) := by
  have hA := split_at ha
  rw [hA, List.append_assoc]
  have hpre : ∀ x ∈ A.take (t (firstByte c)).toNat, ∃ b, Refusing E b x ∧ NotFirst b p.src := by
    intro x hx
    obtain ⟨m, hm, hne⟩ := mem_take_ne hx
    exact fits_hit h hp m x hm hne
  have hpost : ∀ x ∈ A.drop ((t (firstByte c)).toNat + 1), ∃ b, Refusing E b x ∧ NotFirst b p.src := by
    intro x hx
    obtain ⟨m, hm, hne⟩ := mem_drop_ne hx
    exact fits_hit h hp m x hm hne
  refine ⟨?_, ?_⟩
  · rintro x rfl
    exact sel_add hpre (.sel_here hr)
  · rintro rfl o' l tr' hB
    obtain ⟨tr2, h2⟩ := sel_add hpost hB
    exact sel_add hpre (.sel_next hr h2)

theorem getLast?_append_one {α : Type} {A : List α} {x : α} : (A ++ [x]).getLast? = some x := by
  simp

/-- The look-up with a tail, from the select. -/
theorem fast_of_sel_tail {E : Env} (hL : E.L.Lawful) {t A B id} (h : TableFits E t A) (hB : B ≠ [])
    {p : Pos} {i o j tr} (hr : Run E (.sel (A ++ B)) p i o j tr) (heof : p.src = [] → o = none)
    (hA : A ≠ []) :
    ∃ tr', Run E (.rule (.fastSelect t (A ++ [.select B id]) true id)) p i o j tr' ∧
      SameReach p o tr tr' := by
  obtain ⟨b0, B', rfl⟩ := List.exists_cons_of_ne_nil hB
  cases hsrc : p.src with
  | nil =>
    have ho := heof hsrc
    subst ho
    have hj := eof_indent hr hsrc
    subst hj
    refine ⟨_, .fast_end hsrc, ?_⟩
    obtain ⟨trA, trB, rfl, h1, h2, h3⟩ := sel_skip (fits_eof h hsrc) hr
    have := eof_allAt hL hr hsrc
    rw [sameReach_none, deepest_here, deepest_allAt this (by simp [h3 hA])]
  | cons c cs =>
    obtain ⟨b, bs, hb⟩ := utf8_ne_nil c
    have hfb := firstByte_eq hb
    by_cases ht : t b = 255
    · obtain ⟨trA, trB, rfl, h1, h2, h3⟩ := sel_skip (fits_miss h hsrc (by rw [hfb]; exact ht)) hr
      refine ⟨_, .fastTail_miss hsrc hb ht getLast?_append_one (.select h1), ?_⟩
      have hd := deepest_allAt h2 (h3 hA)
      cases o with
      | none =>
        have := fail_deep hL (Run.select (id := id) h1) trivial
        rw [sameReach_none, deepest_append]; omega
      | some x => obtain ⟨n, ts⟩ := x; rw [sameReach_some, deepest_append]; omega
    · obtain ⟨a, ha, hcase⟩ := sel_hit h hsrc (by rw [hfb]; exact ht) hr
      rw [hfb] at ha
      have ha' : (A ++ [Rule.select (b0 :: B') id])[(t b).toNat]? = some a := by
        rw [List.getElem?_append_left (List.getElem?_eq_some_iff.1 ha).1]; exact ha
      rcases hcase with ⟨x, tr0, tr1, rfl, h1, rfl, h2⟩ | ⟨l, tr0, tr1, tr2, tr3, h1, h2, rfl, h3, h4⟩
      · refine ⟨_, .fastTail_hit hsrc hb ht ha' h1, ?_⟩
        have := deepest_le (tr := tr0) (d := p.off) fun e he => Nat.le_of_eq (h2 e he)
        obtain ⟨n, ts⟩ := x
        rw [sameReach_some, deepest_append]; omega
      · refine ⟨_, .fastTail_next hsrc hb ht ha' h1 getLast?_append_one (.select h2), ?_⟩
        have hd0 := deepest_le (tr := tr0) (d := p.off) fun e he => Nat.le_of_eq (h3 e he)
        have hd2 := deepest_le (tr := tr2) (d := p.off) fun e he => Nat.le_of_eq (h4 e he)
        have hd1 := fail_deep hL h1 trivial
        cases o with
        | none => rw [sameReach_none]; simp only [deepest_append]; omega
        | some x => obtain ⟨n, ts⟩ := x; rw [sameReach_some]; simp only [deepest_append]; omega

/-- The look-up without a tail, from the select. -/
theorem fast_of_sel {E : Env} (hL : E.L.Lawful) {t A id} (h : TableFits E t A)
    {p : Pos} {i o j tr} (hr : Run E (.sel A) p i o j tr) (hA : A ≠ []) :
    ∃ tr', Run E (.rule (.fastSelect t A false id)) p i o j tr' ∧ SameReach p o tr tr' := by
  have hr' : Run E (.sel (A ++ [])) p i o j tr := by simpa using hr
  cases hsrc : p.src with
  | nil =>
    obtain ⟨trA, trB, rfl, h1, h2, h3⟩ := sel_skip (fits_eof h hsrc) hr'
    cases h1
    refine ⟨_, .fast_end hsrc, ?_⟩
    rw [sameReach_none, deepest_here, List.append_nil, deepest_allAt h2 (h3 hA)]
  | cons c cs =>
    obtain ⟨b, bs, hb⟩ := utf8_ne_nil c
    have hfb := firstByte_eq hb
    by_cases ht : t b = 255
    · obtain ⟨trA, trB, rfl, h1, h2, h3⟩ := sel_skip (fits_miss h hsrc (by rw [hfb]; exact ht)) hr'
      cases h1
      refine ⟨_, .fast_miss hsrc hb ht, ?_⟩
      rw [sameReach_none, deepest_here, List.append_nil, deepest_allAt h2 (h3 hA)]
    · obtain ⟨a, ha, hcase⟩ := sel_hit h hsrc (by rw [hfb]; exact ht) hr'
      rw [hfb] at ha
      rcases hcase with ⟨x, tr0, tr1, rfl, h1, rfl, h2⟩ | ⟨l, tr0, tr1, tr2, tr3, h1, h2, rfl, h3, h4⟩
      · refine ⟨_, .fast_hit hsrc hb ht ha h1, ?_⟩
        have := deepest_le (tr := tr0) (d := p.off) fun e he => Nat.le_of_eq (h2 e he)
        obtain ⟨n, ts⟩ := x
        rw [sameReach_some, deepest_append]; omega
      · cases h2
        refine ⟨_, .fast_hit hsrc hb ht ha h1, ?_⟩
        have hd0 := deepest_le (tr := tr0) (d := p.off) fun e he => Nat.le_of_eq (h3 e he)
        have hd2 := deepest_le (tr := tr2) (d := p.off) fun e he => Nat.le_of_eq (h4 e he)
        have hd1 := fail_deep hL h1 trivial
        rw [sameReach_none]; simp only [deepest_append, deepest]; omega

end Verif
