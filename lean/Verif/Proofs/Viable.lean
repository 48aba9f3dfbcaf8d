import Verif.Spec.Viable
import Verif.Proofs.Generates
/-
What has been read before an error can be continued.
-/
namespace Verif.Props
open Spec

section
variable {E : Env} {M : Nat → Mark} {N A : Nat → Char → Prop} {K : Char → Prop} {I : Nat}

theorem not_heads_nil {P : Char → Prop} : ¬ Heads [] P := by
  rintro ⟨c, t, h, -⟩
  cases h

theorem heads_of_take {s t : Str} {m : Nat} {P : Char → Prop} (h : Heads (s.take m ++ t) P) (hm : 0 < m) (hl : m ≤ s.length) :
    Heads s P := by
  obtain ⟨c, u, h, hc⟩ := h
  match s, m, hm, hl, h with
  | [], m, hm, hl, _ => simp at hl; omega
  | d :: s, m + 1, _, _, h =>
    simp only [List.take_succ_cons, List.cons_append, List.cons.injEq] at h
    obtain ⟨rfl, -⟩ := h
    exact ⟨_, _, rfl, hc⟩

theorem adv_take {s x : Str} {n off : Nat} (h : n ≤ s.length) : adv ⟨s.take n ++ x, off⟩ n = ⟨x, off + n⟩ := by
  simp only [adv, Pos.mk.injEq, and_true]
  rw [List.drop_append_of_le_length (by simp; omega), List.drop_take_self]
  rfl

theorem longest_take {P : Char → Prop} {s t : Str} {n : Nat} (h : Longest P s n) (ht : ¬ Heads t P) : Longest P (s.take n ++ t) n := by
  obtain ⟨h1, h2, -⟩ := h
  have hl : (s.take n).length = n := by simp; omega
  refine ⟨by simp; omega, ?_, ?_⟩
  · rw [List.take_append_of_le_length (by omega), List.take_take, Nat.min_self]
    exact h2
  · rw [List.drop_append_of_le_length (by omega), List.drop_take_self]
    intro c hc hp
    match t, hc with
    | d :: t, hc =>
      cases hc
      exact ht ⟨_, _, rfl, hp⟩

/-- Rules that call no others read the same before what may follow. -/
theorem leaf_moves (hL : E.L.Lawful) (hX : E.L.Exact) {r p i n ts j tr} (hr : CallsNone r) (ha : SetApart E.L K M A r)
    (h : Run E (.rule r) p i (some (n, ts)) j tr) {t : Str} (ht : ¬ Heads t (afterOf E.L K M A r)) (off : Nat) :
    n ≤ p.src.length ∧ ∃ us, Run E (.rule r) ⟨p.src.take n ++ t, off⟩ 0 (some (n, us)) 0 [] := by
  generalize ho : some (n, ts) = o at h
  cases h with
  | ws_ok h h0 => cases ho; exact ⟨h.1, _, .ws_ok (longest_take h ht) h0⟩
  | tag_ok h =>
    cases ho
    refine ⟨h.length_le, _, .tag_ok ?_⟩
    rw [List.prefix_iff_eq_take.1 h, List.length_take]
    have := h.length_le
    rw [Nat.min_eq_left this]
    exact List.prefix_append _ _
  | notTag_ok h => cases ha
  | until_ok h h0 => cases ho; exact ⟨h.1, _, .until_ok (longest_take h ht) h0⟩
  | untilWs_ok h h0 => cases ho; exact ⟨h.1, _, .untilWs_ok (longest_take h ht) h0⟩
  | text_ok h h2 hv =>
    cases ho
    have := hX.str_local h t
    exact ⟨(hL.str_some h).2.1, _, .text_ok this.1 h2 (this.2.trans hv)⟩
  | num_ok h hv =>
    cases ho
    have := ha _ _ h t (by
      match t, ht with
      | [], _ => exact .inl rfl
      | c :: t, ht =>
        refine .inr ⟨_, _, rfl, ?_⟩
        exact Classical.byContradiction fun hk => ht ⟨_, _, rfl, hk⟩)
    exact ⟨(hL.num_some h).2, _, .num_ok this.1 (this.2.trans hv)⟩
  | _ => first | exact hr.elim | cases ho

variable (E K M A) in
/-- The conditions on what is tried. -/
def SetApartGoal : Goal → Prop
  | .rule r => Part E.refs r
  | .sel rs => ∀ r ∈ rs, Part E.refs r
  | .seq rs => SetApartSequence E.L K M A rs
  | .rep r => NoShared (afterOf E.L K M A r) (markOf E.L M r).first
  | .sepTail r b _ => NoShared (afterOf E.L K M A r) (markOf E.L M b).first ∧
      NoShared (afterOf E.L K M A b) (markOf E.L M r).first
  | _ => False

variable (E K M A) in
def goalAfter : Goal → Char → Prop
  | .rule r => afterOf E.L K M A r
  | .seq rs => afterSequence E.L K M A rs
  | .rep r => afterOf E.L K M A r
  | .sepTail r b trail => fun c => afterOf E.L K M A r c ∨ (trail ∧ afterOf E.L K M A b c)
  | _ => fun _ => True

theorem afterSelect_mem {L : Lexer} {r : Rule} {c : Char} : ∀ {rs : List Rule}, r ∈ rs → afterOf L K M A r c → afterSelect L K M A rs c
  | q :: rs, h, hc => by
    rcases List.mem_cons.1 h with rfl | h
    · exact .inl hc
    · exact .inr (afterSelect_mem h hc)


theorem take_add_append {s t : Str} {n m : Nat} : s.take (n + m) ++ t = s.take n ++ ((s.drop n).take m ++ t) := by
  rw [List.take_add, List.append_assoc]

/-- What follows a part, and what may not. -/
theorem part_follows {s t : Str} {n m : Nat} {P Q : Char → Prop} (hm : m ≤ (s.drop n).length) (hf : 0 < m → Heads (s.drop n) Q)
    (ha : NoShared P Q) (ht : m = 0 → ¬ Heads t P) : ¬ Heads ((s.drop n).take m ++ t) P := by
  intro hh
  by_cases h0 : m = 0
  · subst h0
    exact ht rfl (by simpa using hh)
  · exact (heads_of_take hh (by omega) hm).apart (hf (by omega)) ha

/-- What is generated is also generated before other texts, if they begin with what may follow. -/
theorem generates_moves (hL : E.L.Lawful) (hX : E.L.Exact) (hU : LL1 E.L M N E.refs) (hI : ∀ i, (M i).idle ≤ I)
    (hC : Continues E.L K M A E.refs) {g p n ts}
    (h : Generates E g p n ts) : GoalOk E M N g → SetApartGoal E M A K g → ∀ t, ¬ Heads t (goalAfter E M A K g) → ∀ off,
    n ≤ p.src.length ∧ ∃ us, Generates E g ⟨p.src.take n ++ t, off⟩ n us := by
  have hpart : ∀ {r}, GoalOk E M N (.rule r) → SetApart E.L K M A r := fun h => hC.apart _ h
  induction h with
  | token hr h =>
    intro hg ha t ht off
    obtain ⟨h1, us, h2⟩ := leaf_moves hL hX hr (hpart hg) h ht off
    exact ⟨h1, us, .token hr h2⟩
  | absent hr h => exact fun hg => (hpart hg).elim
  | select hr h ih =>
    intro hg ha t ht off
    have hq := decided_part hg (.select hr)
    obtain ⟨h1, us, h2⟩ := ih hq hq t (fun hh => ht (hh.mono fun c hc => afterSelect_mem hr hc)) off
    exact ⟨h1, us, .select hr h2⟩
  | sequence h ih =>
    intro hg ha t ht off
    obtain ⟨h1, us, h2⟩ := ih (ok_sequence hU hg) (hpart hg) t ht off
    exact ⟨h1, us, .sequence h2⟩
  | seq_nil => exact fun _ _ t _ off => ⟨Nat.zero_le _, _, .seq_nil⟩
  | @seq_cons r rs p n ts m us h h' ih ih' =>
    intro hg ha t ht off
    obtain ⟨hg, hg', -⟩ := ok_cons hg
    have h1 := generates_first hL hU hI h' hg'
    obtain ⟨hm, us', h2⟩ := ih' hg' ha.2 t (fun hh => ht (hh.mono fun c hc => .inl hc)) (off + n)
    obtain ⟨hn, ts', h3⟩ := ih hg hg ((p.src.drop n).take m ++ t)
      (part_follows hm h1.1 ha.1 fun h0 hh => ht (hh.mono fun c hc => .inr ⟨h1.2 h0, hc⟩)) off
    rw [← adv_take hn] at h2
    simp only [adv, List.length_drop] at hm
    refine ⟨by omega, ts' ++ us', ?_⟩
    rw [take_add_append]
    exact .seq_cons h3 h2
  | repeat_any h ih =>
    intro hg ha t ht off
    obtain ⟨h1, us, h2⟩ := ih (ok_repeat hU hg) (hpart hg) t ht off
    exact ⟨h1, us, .repeat_any h2⟩
  | @repeat_some r id p n ts m us h h' ih ih' =>
    intro hg ha t ht off
    have hk := ok_repeat hU hg
    have ha := hpart hg
    have h1 := generates_first hL hU hI h' hk
    obtain ⟨hm, us', h2⟩ := ih' hk ha t ht (off + n)
    obtain ⟨hn, ts', h3⟩ := ih hk.1 hk.1 ((p.src.drop n).take m ++ t) (part_follows hm h1.1 ha fun _ hh => ht hh) off
    rw [← adv_take hn] at h2
    simp only [adv, List.length_drop] at hm
    refine ⟨by omega, ts' ++ us', ?_⟩
    rw [take_add_append]
    exact .repeat_some h3 h2
  | rep_nil => exact fun _ _ t _ off => ⟨Nat.zero_le _, _, .rep_nil⟩
  | @rep_cons r p n ts m us h h' ih ih' =>
    intro hk ha t ht off
    have h1 := generates_first hL hU hI h' hk
    obtain ⟨hm, us', h2⟩ := ih' hk ha t ht (off + n)
    obtain ⟨hn, ts', h3⟩ := ih hk.1 hk.1 ((p.src.drop n).take m ++ t) (part_follows hm h1.1 ha fun _ hh => ht hh) off
    rw [← adv_take hn] at h2
    simp only [adv, List.length_drop] at hm
    refine ⟨by omega, ts' ++ us', ?_⟩
    rw [take_add_append]
    exact .rep_cons h3 h2
  | sep_none => exact fun _ _ t _ off => ⟨Nat.zero_le _, _, .sep_none⟩
  | @sep_some r b opt trail id p n ts m us h h' ih ih' =>
    intro hg ha t ht off
    have hk := ok_sep hU hg
    have ha := hpart hg
    have h1 := generates_first hL hU hI h' hk
    obtain ⟨hm, us', h2⟩ := ih' hk ha t ht (off + n)
    obtain ⟨hn, ts', h3⟩ := ih hk.1.1 hk.1.1 ((p.src.drop n).take m ++ t)
      (part_follows hm h1.1 ha.1 fun _ hh => ht (hh.mono fun c hc => .inl hc)) off
    rw [← adv_take hn] at h2
    simp only [adv, List.length_drop] at hm
    refine ⟨by omega, ts' ++ us', ?_⟩
    rw [take_add_append]
    exact .sep_some h3 h2
  | tail_nil => exact fun _ _ t _ off => ⟨Nat.zero_le _, _, .tail_nil⟩
  | tail_trail h ih =>
    intro hk ha t ht off
    obtain ⟨h1, us, h2⟩ := ih hk.1.2 hk.1.2 t (fun hh => ht (hh.mono fun c hc => .inr ⟨rfl, hc⟩)) off
    exact ⟨h1, us, .tail_trail h2⟩
  | @tail_cons r b trail p l rs n ts m us h h' h'' ih ih' ih'' =>
    intro hk ha t ht off
    have h1 := generates_first hL hU hI h'' hk
    have h0 := generates_first hL hU hI h' hk.1.1
    obtain ⟨hm, us', h2⟩ := ih'' hk ha t ht (off + (l + n))
    simp only [adv, ← List.drop_drop] at hm h1
    obtain ⟨hn, ts', h3⟩ := ih' hk.1.1 hk.1.1 (((p.src.drop l).drop n).take m ++ t)
      (part_follows hm h1.1 ha.1 fun _ hh => ht (hh.mono fun c hc => .inl hc)) (off + l)
    obtain ⟨hl, rs', h4⟩ := ih hk.1.2 hk.1.2 ((p.src.drop l).take n ++ (((p.src.drop l).drop n).take m ++ t))
      (part_follows hn h0.1 ha.2 fun hz => absurd (pos_of h0.2 hk.2.1) (by omega)) off
    simp only [adv, List.length_drop] at hm hn
    have e1 : p.src.take (l + n + m) ++ t =
        p.src.take (l + n) ++ (((p.src.drop l).drop n).take m ++ t) := by
      rw [take_add_append, List.drop_drop]
    have e2 : p.src.take (l + n + m) ++ t =
        p.src.take l ++ ((p.src.drop l).take n ++ (((p.src.drop l).drop n).take m ++ t)) := by
      rw [e1, take_add_append]
    refine ⟨by omega, rs' ++ ts' ++ us', .tail_cons (e2 ▸ h4) ?_ ?_⟩
    · rw [e2, adv_take hl]
      exact h3
    · rw [e1, adv_take (by omega)]
      simpa only [adv, ← List.drop_drop] using h2
  | node hr h ih =>
    intro hg ha t ht off
    have hq : Part E.refs _ := ⟨_, List.mem_of_getElem? hr, .refl⟩
    obtain ⟨h1, us, h2⟩ := ih hq hq t (fun hh => ht (hh.mono (hC.after _ _ hr))) off
    exact ⟨h1, _, .node hr h2⟩
  | optional_none => exact fun _ _ t _ off => ⟨Nat.zero_le _, _, .optional_none⟩
  | optional_some h ih =>
    intro hg ha t ht off
    have hq := decided_part hg .optional
    obtain ⟨h1, us, h2⟩ := ih hq hq t ht off
    exact ⟨h1, us, .optional_some h2⟩


/-- One text after the other. -/
theorem yields_follows {s t : Str} {P Q : Char → Prop} (hf : 0 < t.length → Heads t Q) (ha : NoShared P Q) : ¬ Heads t P := by
  intro hh
  obtain ⟨c, u, h, hc⟩ := hh
  exact Heads.apart ⟨c, u, h, hc⟩ (hf (by simp [h])) ha

variable (hL : E.L.Lawful) (hX : E.L.Exact) (hU : LL1 E.L M N E.refs) (hI : ∀ i, (M i).idle ≤ I) (hC : Continues E.L K M A E.refs)
include hL hX hU hI hC

theorem yields_of_generates {r p n ts} (hr : Part E.refs r) (h : Generates E (.rule r) p n ts) : Yields E (.rule r) (p.src.take n) := by
  obtain ⟨h1, us, h2⟩ := generates_moves hL hX hU hI hC h hr hr [] not_heads_nil 0
  rw [List.append_nil] at h2
  exact ⟨us, by simpa [Nat.min_eq_left h1] using h2⟩

/-- Two texts beside each other. -/
theorem yields_two {r : Rule} {g : Goal} {x y : Str} {us : List Tok} (hr : Part E.refs r) (hg : GoalOk E M N g)
    (hga : SetApartGoal E M A K g) (hx : Yields E (.rule r) x) (hy : Generates E g ⟨y, 0⟩ y.length us)
    (ha : NoShared (afterOf E.L K M A r) (goalFirst E M g)) (off : Nat) :
    ∃ ts us, Generates E (.rule r) ⟨x ++ y, off⟩ x.length ts ∧ Generates E g (adv ⟨x ++ y, off⟩ x.length) y.length us := by
  obtain ⟨ts, hx⟩ := hx
  have h0 := generates_first hL hU hI hy hg
  obtain ⟨-, ts', h1⟩ := generates_moves hL hX hU hI hC hx hr hr y (yields_follows (s := x) h0.1 ha) off
  obtain ⟨-, us', h2⟩ := generates_moves hL hX hU hI hC hy hg hga [] not_heads_nil (off + x.length)
  simp only [List.take_length, List.append_nil] at h1 h2
  refine ⟨ts', us', h1, ?_⟩
  simpa [adv] using h2

theorem yields_cons {r rs x y} (hg : GoalOk E M N (.seq (r :: rs))) (ha : SetApartSequence E.L K M A (r :: rs))
    (hx : Yields E (.rule r) x) (hy : Yields E (.seq rs) y) : Yields E (.seq (r :: rs)) (x ++ y) := by
  obtain ⟨h1, h2, -⟩ := ok_cons hg
  obtain ⟨us, hy⟩ := hy
  obtain ⟨ts, us, h3, h4⟩ := yields_two hL hX hU hI hC h1 h2 ha.2 hx hy ha.1 0
  exact ⟨ts ++ us, by rw [List.length_append]; exact .seq_cons h3 h4⟩

theorem yields_rep {r x y} (hg : GoalOk E M N (.rep r)) (ha : SetApartGoal E M A K (.rep r))
    (hx : Yields E (.rule r) x) (hy : Yields E (.rep r) y) (id : DebugId) :
    Yields E (.rep r) (x ++ y) ∧ Yields E (.rule (.repeat_ r false id)) (x ++ y) := by
  obtain ⟨us, hy⟩ := hy
  obtain ⟨ts, us, h3, h4⟩ := yields_two hL hX hU hI hC hg.1 hg ha hx hy ha 0
  exact ⟨⟨ts ++ us, by rw [List.length_append]; exact .rep_cons h3 h4⟩, ⟨ts ++ us, by rw [List.length_append]; exact .repeat_some h3 h4⟩⟩

theorem yields_sep {r b opt trail id x y} (hg : GoalOk E M N (.sepTail r b trail)) (ha : SetApartGoal E M A K (.sepTail r b trail))
    (hx : Yields E (.rule r) x) (hy : Yields E (.sepTail r b trail) y) : Yields E (.rule (.separateBy r b opt trail id)) (x ++ y) := by
  obtain ⟨us, hy⟩ := hy
  obtain ⟨ts, us, h3, h4⟩ := yields_two hL hX hU hI hC hg.1.1 hg ha hx hy ha.1 0
  exact ⟨ts ++ us, by rw [List.length_append]; exact .sep_some h3 h4⟩

theorem yields_tail {r b trail z x y} (hg : GoalOk E M N (.sepTail r b trail)) (ha : SetApartGoal E M A K (.sepTail r b trail))
    (hz : Yields E (.rule b) z) (hx : Yields E (.rule r) x) (hy : Yields E (.sepTail r b trail) y) :
    Yields E (.sepTail r b trail) (z ++ (x ++ y)) := by
  obtain ⟨us, hy⟩ := hy
  obtain ⟨ts₀, hx₀⟩ := hx
  have hpos := generates_first hL hU hI hx₀ hg.1.1
  have hx : 0 < x.length := pos_of hpos.2 hg.2.1
  obtain ⟨ts, us, h3, h4⟩ := yields_two hL hX hU hI hC hg.1.1 hg ha ⟨ts₀, hx₀⟩ hy ha.1 z.length
  obtain ⟨rs, hz⟩ := hz
  obtain ⟨-, rs', h5⟩ := generates_moves hL hX hU hI hC hz hg.1.2 hg.1.2 (x ++ y) (by
    refine yields_follows (s := z) (fun _ => ?_) ha.2
    obtain ⟨c, t, h, hc⟩ := hpos.1 hx
    exact ⟨c, t ++ y, by dsimp only at h; rw [h]; rfl, hc⟩) 0
  simp only [List.take_length] at h5
  have e : (z ++ (x ++ y)).length = z.length + x.length + y.length := by simp; omega
  refine ⟨rs' ++ ts ++ us, e ▸ .tail_cons h5 ?_ ?_⟩
  · simpa [adv] using h3
  · simpa [adv, ← List.drop_drop] using h4


omit hL hX hU hI hC in
theorem rep_nothing {r} : Yields E (.rep r) [] := ⟨[], .rep_nil⟩

omit hL hX hU hI hC in
theorem tail_nothing {r b trail} : Yields E (.sepTail r b trail) [] := ⟨[], .tail_nil⟩

omit hL hX hU hI hC in
/-- A part has been read, and then some. -/
theorem prefix_further {s y : Str} {q off n : Nat} (h : (s.drop n).take (q - (off + n)) <+: y) :
    s.take (q - off) <+: s.take n ++ y := by
  by_cases hq : q - off ≤ n
  · refine List.IsPrefix.trans ?_ (List.prefix_append _ _)
    exact List.take_prefix_take_left hq
  · have : q - off = n + (q - (off + n)) := by omega
    rw [this, List.take_add]
    exact (List.prefix_append_right_inj _).2 h

variable (hP : ∀ x, Part E.refs x → ∃ y, Yields E (.rule x) y)
include hP

theorem yields_seq : ∀ {rs : List Rule}, GoalOk E M N (.seq rs) → SetApartSequence E.L K M A rs → ∃ y, Yields E (.seq rs) y
  | [], _, _ => ⟨[], [], .seq_nil⟩
  | r :: rs, hg, ha => by
    obtain ⟨x, hx⟩ := hP r (hg.1 r (by simp))
    obtain ⟨y, hy⟩ := yields_seq (ok_cons hg).2.1 ha.2
    exact ⟨_, yields_cons hL hX hU hI hC hg ha hx hy⟩

variable (E M N) in
/-- The conditions, also for alternatives. -/
def ViableGoal : Goal → Prop
  | .sel rs => ∀ r ∈ rs, Part E.refs r
  | g => GoalOk E M N g

/-- What has been read before an error can be continued. -/
theorem run_viable (hpl : ∀ x, Part E.refs x → Plainly x) {g p i o j tr} (h : Run E g p i o j tr) : ViableGoal E M N g →
    SetApartGoal E M A K g → ∀ e ∈ tr, ¬ InString e.err → ∃ y, Yields E g y ∧ p.src.take (e.range.offset - p.off) <+: y := by
  have hpart : ∀ {r}, Part E.refs r → SetApart E.L K M A r := fun h => hC.apart _ h
  have hread : ∀ {r p i n ts j tr}, Part E.refs r → Run E (.rule r) p i (some (n, ts)) j tr → Yields E (.rule r) (p.src.take n) :=
    fun hr h => yields_of_generates hL hX hU hI hC hr (runs_generates hpl h hr _ _ rfl)
  have hhere : ∀ {r : Rule} {p : Pos} {q : Nat}, Part E.refs r → q = p.off → ∃ y, Yields E (.rule r) y ∧ p.src.take (q - p.off) <+: y := by
    intro r p q hr hq
    obtain ⟨y, hy⟩ := hP r hr
    exact ⟨y, hy, by simp [hq]⟩
  induction h with
  | ws_fail h | tag_fail h | until_fail h | untilWs_fail h | text_none h | text_empty h | num_none h | num_bad h hv | select_empty
  | node_unresolved =>
    intro hg ha e he _
    simp only [here, List.mem_singleton] at he
    subst he
    exact hhere hg rfl
  | text_bad h h2 ht =>
    intro hg ha e he hn
    simp only [List.mem_singleton] at he
    subst he
    exact absurd trivial hn
  | notTag_fail h => exact fun hg _ => absurd (hpart hg) (by simp [SetApart])
  | select h ih =>
    intro hg ha e he hn
    have hq : ∀ r ∈ _, Part E.refs r := fun r hr => decided_part hg (.select hr)
    obtain ⟨y, ⟨r, hr, ts, h1⟩, h2⟩ := ih hq hq e he hn
    exact ⟨y, ⟨ts, .select hr h1⟩, h2⟩
  | sel_here h ih =>
    intro hg ha e he hn
    have hq := hg _ (List.mem_cons_self ..)
    obtain ⟨y, h1, h2⟩ := ih hq hq e he hn
    exact ⟨y, ⟨_, List.mem_cons_self .., h1⟩, h2⟩
  | sel_next h h' ih ih' =>
    intro hg ha e he hn
    rcases List.mem_append.1 he with he | he
    · have hq := hg _ (List.mem_cons_self ..)
      obtain ⟨y, h1, h2⟩ := ih hq hq e he hn
      exact ⟨y, ⟨_, List.mem_cons_self .., h1⟩, h2⟩
    · have hq := fun r hr => hg r (List.mem_cons_of_mem _ hr)
      obtain ⟨y, ⟨r, hr, h1⟩, h2⟩ := ih' hq hq e he hn
      exact ⟨y, ⟨r, List.mem_cons_of_mem _ hr, h1⟩, h2⟩
  | sequence h ih =>
    intro hg ha e he hn
    obtain ⟨y, ⟨ts, h1⟩, h2⟩ := ih (ok_sequence hU hg) (hpart hg) e he hn
    exact ⟨y, ⟨ts, .sequence h1⟩, h2⟩
  | seq_fail h ih =>
    intro hg ha e he hn
    obtain ⟨h1, h2, -⟩ := ok_cons hg
    obtain ⟨y, h3, h4⟩ := ih h1 h1 e he hn
    obtain ⟨z, h5⟩ := yields_seq hL hX hU hI hC hP h2 ha.2
    exact ⟨y ++ z, yields_cons hL hX hU hI hC hg ha h3 h5, h4.trans (List.prefix_append _ _)⟩
  | seq_cons h h' ih ih' =>
    intro hg ha e he hn
    obtain ⟨h1, h2, -⟩ := ok_cons hg
    rcases List.mem_append.1 he with he | he
    · obtain ⟨y, h3, h4⟩ := ih h1 h1 e he hn
      obtain ⟨z, h5⟩ := yields_seq hL hX hU hI hC hP h2 ha.2
      exact ⟨y ++ z, yields_cons hL hX hU hI hC hg ha h3 h5, h4.trans (List.prefix_append _ _)⟩
    · obtain ⟨y, h3, h4⟩ := ih' h2 ha.2 e he hn
      exact ⟨_, yields_cons hL hX hU hI hC hg ha (hread h1 h) h3, prefix_further h4⟩
  | repeat_opt h ih =>
    intro hg ha e he hn
    obtain ⟨y, ⟨ts, h1⟩, h2⟩ := ih (ok_repeat hU hg) (hpart hg) e he hn
    exact ⟨y, ⟨ts, .repeat_any h1⟩, h2⟩
  | repeat_fail h ih =>
    intro hg ha e he hn
    have hk := ok_repeat hU hg
    obtain ⟨y, h1, h2⟩ := ih hk.1 hk.1 e he hn
    exact ⟨_, (yields_rep hL hX hU hI hC hk (hpart hg) h1 rep_nothing _).2, h2.trans (List.prefix_append _ _)⟩
  | repeat_ok h h' ih ih' =>
    intro hg ha e he hn
    have hk := ok_repeat hU hg
    rcases List.mem_append.1 he with he | he
    · obtain ⟨y, h1, h2⟩ := ih hk.1 hk.1 e he hn
      exact ⟨_, (yields_rep hL hX hU hI hC hk (hpart hg) h1 rep_nothing _).2, h2.trans (List.prefix_append _ _)⟩
    · obtain ⟨y, h3, h4⟩ := ih' hk (hpart hg) e he hn
      exact ⟨_, (yields_rep hL hX hU hI hC hk (hpart hg) (hread hk.1 h) h3 _).2, prefix_further h4⟩
  | rep_stop h ih =>
    intro hk ha e he hn
    obtain ⟨y, h1, h2⟩ := ih hk.1 hk.1 e he hn
    exact ⟨_, (yields_rep hL hX hU hI hC hk ha h1 rep_nothing 0).1, h2.trans (List.prefix_append _ _)⟩
  | rep_more h h' ih ih' =>
    intro hk ha e he hn
    rcases List.mem_append.1 he with he | he
    · obtain ⟨y, h1, h2⟩ := ih hk.1 hk.1 e he hn
      exact ⟨_, (yields_rep hL hX hU hI hC hk ha h1 rep_nothing 0).1, h2.trans (List.prefix_append _ _)⟩
    · obtain ⟨y, h3, h4⟩ := ih' hk ha e he hn
      exact ⟨_, (yields_rep hL hX hU hI hC hk ha (hread hk.1 h) h3 0).1, prefix_further h4⟩
  | sep_none h ih | sep_fail h ih =>
    intro hg ha e he hn
    have hk := ok_sep hU hg
    obtain ⟨y, h1, h2⟩ := ih hk.1.1 hk.1.1 e he hn
    exact ⟨_, yields_sep hL hX hU hI hC hk (hpart hg) h1 tail_nothing, h2.trans (List.prefix_append _ _)⟩
  | sep_first h h' ih ih' =>
    intro hg ha e he hn
    have hk := ok_sep hU hg
    rcases List.mem_append.1 he with he | he
    · obtain ⟨y, h1, h2⟩ := ih hk.1.1 hk.1.1 e he hn
      exact ⟨_, yields_sep hL hX hU hI hC hk (hpart hg) h1 tail_nothing, h2.trans (List.prefix_append _ _)⟩
    · obtain ⟨y, h3, h4⟩ := ih' hk (hpart hg) e he hn
      exact ⟨_, yields_sep hL hX hU hI hC hk (hpart hg) (hread hk.1.1 h) h3, prefix_further h4⟩
  | sep_stop h ih =>
    intro hk ha e he hn
    obtain ⟨y, h1, h2⟩ := ih hk.1.2 hk.1.2 e he hn
    obtain ⟨x, hx⟩ := hP _ hk.1.1
    exact ⟨_, yields_tail hL hX hU hI hC hk ha h1 hx tail_nothing, h2.trans (List.prefix_append _ _)⟩
  | sep_trail h h' ih ih' | sep_noTrail h h' ih ih' =>
    intro hk ha e he hn
    rcases List.mem_append.1 he with he | he
    · obtain ⟨y, h1, h2⟩ := ih hk.1.2 hk.1.2 e he hn
      obtain ⟨x, hx⟩ := hP _ hk.1.1
      exact ⟨_, yields_tail hL hX hU hI hC hk ha h1 hx tail_nothing, h2.trans (List.prefix_append _ _)⟩
    · obtain ⟨y, h3, h4⟩ := ih' hk.1.1 hk.1.1 e he hn
      exact ⟨_, yields_tail hL hX hU hI hC hk ha (hread hk.1.2 h) h3 tail_nothing,
        prefix_further (h4.trans (List.prefix_append _ _))⟩
  | @sep_more r b trail p i m us j tr n ts k tr' o l tr'' h h' h'' ih ih' ih'' =>
    intro hk ha e he hn
    rcases List.mem_append.1 he with he | he
    · obtain ⟨y, h1, h2⟩ := ih hk.1.2 hk.1.2 e he hn
      obtain ⟨x, hx⟩ := hP _ hk.1.1
      exact ⟨_, yields_tail hL hX hU hI hC hk ha h1 hx tail_nothing, h2.trans (List.prefix_append _ _)⟩
    rcases List.mem_append.1 he with he | he
    · obtain ⟨y, h3, h4⟩ := ih' hk.1.1 hk.1.1 e he hn
      exact ⟨_, yields_tail hL hX hU hI hC hk ha (hread hk.1.2 h) h3 tail_nothing,
        prefix_further (h4.trans (List.prefix_append _ _))⟩
    · obtain ⟨y, h3, h4⟩ := ih'' hk ha e he hn
      refine ⟨_, yields_tail hL hX hU hI hC hk ha (hread hk.1.2 h) (hread hk.1.1 h') h3, ?_⟩
      refine prefix_further (prefix_further (n := n) ?_)
      simpa only [adv, List.drop_drop, Nat.add_assoc] using h4
  | node_fail hr h ih | node_ok hr h ih =>
    intro hg ha e he hn
    have hq : Part E.refs _ := ⟨_, List.mem_of_getElem? hr, .refl⟩
    obtain ⟨y, ⟨ts, h1⟩, h2⟩ := ih hq hq e he hn
    exact ⟨y, ⟨_, .node hr h1⟩, h2⟩
  | optional_none h ih | optional_some h ih =>
    intro hg ha e he hn
    have hq := decided_part hg .optional
    obtain ⟨y, ⟨ts, h1⟩, h2⟩ := ih hq hq e he hn
    exact ⟨y, ⟨ts, .optional_some h1⟩, h2⟩
  | not_ok h | not_fail h => exact fun hg _ => (hpart hg).elim
  | lines h => exact fun hg _ => (hpl _ hg).elim
  | fast_end | fast_miss | fast_hit | fastTail_miss | fastTail_hit | fastTail_next => exact fun hg _ => (hpl _ hg).elim
  | lines_done | lines_fail | lines_stop | lines_more | line_plain | line_shallow | line_deep | line_body | line_align =>
    exact fun hg _ => hg.elim
  | ws_ok | tag_ok | notTag_ok | until_ok | untilWs_ok | text_ok | num_ok | sel_nil | seq_nil =>
    intro _ _ e he
    cases he

end

end Verif.Props
