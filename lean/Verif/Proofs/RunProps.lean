import Verif.Spec.Run
import Verif.Spec.Data
import Verif.Spec.Lexer
import Verif.Proofs.Basics
/-
Inductions on the meaning of rules: bounds, order, nesting.
-/
namespace Verif
open Spec

/-! ### Nesting -/

theorem wellNested_append {a b : List MetaData} (ha : WellNested a) (hb : WellNested b) :
    WellNested (a ++ b) := by
  induction ha with
  | nil => simpa
  | value h _ ih => exact .value h ih
  | @node name _ _ hb' _ _ ih =>
    have := WellNested.node (name := name) hb' ih
    simpa using this

theorem wellNested_named {prop off len f} (h : ∀ n, ¬ IsNode (f n)) :
    WellNested ((named prop off len f).map Tok.data) := by
  cases prop with
  | none => exact .nil
  | some n => exact .value (h n) .nil

theorem wellNested_wrapped {prop off len ts} (h : WellNested (ts.map Tok.data)) :
    WellNested ((wrapped prop off len ts).map Tok.data) := by
  cases prop with
  | none => exact h
  | some n =>
    have := WellNested.node (name := n) h .nil
    simpa [wrapped] using this

theorem before_some {n ts o m us} (h : before n ts o = some (m, us)) :
    ∃ m' us', o = some (m', us') ∧ m = n + m' ∧ us = ts ++ us' := by
  cases o with
  | none => simp [before] at h
  | some x => obtain ⟨a, b⟩ := x; simp [before] at h; exact ⟨a, b, rfl, h.1.symm, h.2.symm⟩

theorem before_eq_none {n ts o} : before n ts o = none ↔ o = none := by
  cases o <;> simp [before]

theorem run_wellNested {E : Env} {g p i o j tr} (h : Run E g p i o j tr) :
    ∀ n ts, o = some (n, ts) → WellNested (ts.map Tok.data) := by
  induction h with
  | tag_ok | notTag_ok | until_ok | untilWs_ok | text_ok | num_ok =>
    intro n ts he
    cases he
    exact wellNested_named (by simp [IsNode])
  | node_ok hr h ih =>
    intro n ts he
    cases he
    exact wellNested_wrapped (ih _ _ rfl)
  | seq_cons h h' ih ih' | repeat_ok h h' ih ih' | rep_more h h' ih ih' | sep_first h h' ih ih'
  | lines_more hn h h' ih ih' =>
    intro n ts he
    obtain ⟨m, us, rfl, rfl, rfl⟩ := before_some he
    rw [List.map_append]
    exact wellNested_append (ih _ _ rfl) (ih' _ _ rfl)
  | sep_more h h' h'' ih ih' ih'' =>
    intro n ts he
    obtain ⟨m, us, rfl, rfl, rfl⟩ := before_some he
    rw [List.map_append, List.map_append]
    exact wellNested_append (wellNested_append (ih _ _ rfl) (ih' _ _ rfl)) (ih'' _ _ rfl)
  | sep_trail h h' ih ih' => intro n ts he; cases he; exact ih _ _ rfl
  | line_body ha hc hd hi h ih | line_align ha hc hm hi h ih =>
    intro n ts he
    obtain ⟨m, us, rfl, rfl, rfl⟩ := before_some he
    simpa using ih _ _ rfl
  | _ =>
    intro n ts he
    first
      | (cases he; done)
      | (cases he; exact .nil)
      | (rename_i ih; exact ih _ _ he)

/-! ### Ranges -/

/-- Tokens in order between two offsets. -/
def TokIn (lo hi : Nat) (ts : List Tok) : Prop :=
  (∀ t ∈ ts, Within lo hi t.range) ∧ InOrder ts

/-- Errors between two offsets. -/
def ErrIn (lo hi : Nat) (tr : List RErr) : Prop := ∀ e ∈ tr, Within lo hi e.range

theorem tokIn_nil {lo hi} : TokIn lo hi [] := by simp [TokIn, InOrder]

theorem tokIn_append {a b c : Nat} {ts us : List Tok} (h : TokIn a b ts) (h' : TokIn b c us) 
    (hab : a ≤ b) (hbc : b ≤ c) : TokIn a c (ts ++ us) := by
  obtain ⟨h1, h2⟩ := h
  obtain ⟨h3, h4⟩ := h'
  refine ⟨fun t ht => ?_, ?_⟩
  · rcases List.mem_append.1 ht with ht | ht
    · have := h1 t ht; unfold Within at *; omega
    · have := h3 t ht; unfold Within at *; omega
  · refine List.pairwise_append.2 ⟨h2, h4, fun x hx y hy => ?_⟩
    have hx := h1 x hx
    have hy := h3 y hy
    unfold Within Range.next at *
    exact ⟨by simp only [Range.next]; omega, fun _ => by simp only [Range.next]; omega⟩

theorem tokIn_mono {a b a' b' : Nat} {ts : List Tok} (h : TokIn a b ts) (ha : a' ≤ a) (hb : b ≤ b') :
    TokIn a' b' ts := by
  refine ⟨fun t ht => ?_, h.2⟩
  have := h.1 t ht
  unfold Within at *; omega

theorem tokIn_named {prop off len f} : TokIn off (off + len) (named prop off len f) := by
  cases prop with
  | none => exact tokIn_nil
  | some n => simp [TokIn, named, Within, Range.next, InOrder]

theorem tokIn_wrapped {prop off len ts} (h : TokIn off (off + len) ts) :
    TokIn off (off + len) (wrapped prop off len ts) := by
  cases prop with
  | none => exact h
  | some n =>
    obtain ⟨h1, h2⟩ := h
    refine ⟨fun t ht => ?_, ?_⟩
    · simp only [wrapped, List.cons_append, List.mem_cons, List.mem_append, List.not_mem_nil,
        or_false] at ht
      rcases ht with rfl | ht | rfl
      · simp [Within, Range.next]
      · exact h1 t ht
      · simp [Within, Range.next]
    · simp only [wrapped, List.cons_append, InOrder]
      refine List.pairwise_cons.2 ⟨fun y hy => ?_, ?_⟩
      · simp only [List.mem_append, List.mem_singleton] at hy
        rcases hy with hy | rfl
        · have := h1 y hy
          simp only [Within, Range.next, Precedes] at *
          omega
        · simp only [Precedes, Range.next]; omega
      · refine List.pairwise_append.2 ⟨h2, by simp, fun x hx y hy => ?_⟩
        simp only [List.mem_singleton] at hy
        subst hy
        have := h1 x hx
        refine ⟨by simpa [Within, Range.next] using this.2, fun hn => absurd ⟨n, rfl⟩ hn⟩

theorem errIn_append {lo hi a b} (ha : ErrIn lo hi a) (hb : ErrIn lo hi b) : ErrIn lo hi (a ++ b) := by
  intro e he
  rcases List.mem_append.1 he with he | he
  · exact ha e he
  · exact hb e he

theorem errIn_mono {a b a' b' : Nat} {tr} (h : ErrIn a b tr) (ha : a' ≤ a) (hb : b ≤ b') :
    ErrIn a' b' tr := by
  intro e he
  have := h e he
  unfold Within at *; omega

theorem errIn_here {p : Pos} {e hi} (h : p.off ≤ hi) : ErrIn p.off hi (here p e) := by
  simp [ErrIn, here, Within, Range.next, h]

/-- The end of the text seen from a position. -/
def Pos.stop (p : Pos) : Nat := p.off + p.src.length

theorem stop_adv {p : Pos} {n : Nat} (h : n ≤ p.src.length) : (adv p n).stop = p.stop := by
  simp [Pos.stop]; omega

/-- Bounds on an outcome and on the failures. -/
def Bounded (p : Pos) (o : Outcome) (tr : List RErr) : Prop :=
  (∀ n ts, o = some (n, ts) → n ≤ p.src.length ∧ TokIn p.off (p.off + n) ts) ∧
    ErrIn p.off p.stop tr

theorem bounded_before {p : Pos} {n ts o tr tr'} (h : Bounded p (some (n, ts)) tr)
    (h' : Bounded (adv p n) o tr') : Bounded p (before n ts o) (tr ++ tr') := by
  obtain ⟨h1, h2⟩ := h
  obtain ⟨h3, h4⟩ := h'
  obtain ⟨hn, ht⟩ := h1 n ts rfl
  refine ⟨fun m us he => ?_, errIn_append h2 (errIn_mono h4 (by simp) ?_)⟩
  · obtain ⟨m, us', rfl, rfl, rfl⟩ := before_some he
    obtain ⟨hm, hu⟩ := h3 _ _ rfl
    simp at hm hu
    refine ⟨by omega, tokIn_append ht (by simpa [Nat.add_assoc] using hu) (by omega) (by omega)⟩
  · rw [stop_adv hn]; exact Nat.le_refl _

theorem bounded_shift {p : Pos} {n o tr} (hn : n ≤ p.src.length) (h' : Bounded (adv p n) o tr) :
    Bounded p (before n [] o) tr := by
  have := bounded_before (p := p) (n := n) (ts := []) (tr := [])
    ⟨fun _ _ he => by cases he; exact ⟨hn, tokIn_nil⟩, by simp [ErrIn]⟩ h'
  simpa using this

theorem bounded_none {p : Pos} {tr} (h : ErrIn p.off p.stop tr) : Bounded p none tr :=
  ⟨by simp, h⟩

theorem bounded_zero {p : Pos} {tr} (h : ErrIn p.off p.stop tr) : Bounded p (some (0, [])) tr :=
  ⟨fun _ _ he => by cases he; exact ⟨by omega, tokIn_nil⟩, h⟩

theorem bounded_here {p : Pos} {e} : Bounded p none (here p e) :=
  bounded_none (errIn_here (by simp [Pos.stop]))

theorem bounded_named {p : Pos} {prop n f} (h : n ≤ p.src.length) :
    Bounded p (some (n, named prop p.off n f)) [] :=
  ⟨fun _ _ he => by cases he; exact ⟨h, tokIn_named⟩, by simp [ErrIn]⟩

theorem run_bounded {E : Env} (hL : E.L.Lawful) {g p i o j tr} (h : Run E g p i o j tr) :
    Bounded p o tr := by
  induction h with
  | ws_ok h h0 => exact ⟨fun _ _ he => by cases he; exact ⟨h.1, tokIn_nil⟩, by simp [ErrIn]⟩
  | tag_ok h => exact bounded_named h.length_le
  | notTag_ok h => exact bounded_named (by omega)
  | notTag_fail h =>
    refine bounded_none ?_
    have := h.length_le
    simp [ErrIn, Within, Range.next, Pos.stop]; omega
  | until_ok h h0 => exact bounded_named h.1
  | untilWs_ok h h0 => exact bounded_named h.1
  | text_ok h => exact bounded_named (hL.str_some h).2.1
  | text_empty h =>
    have := (hL.str_some h).2.1
    exact bounded_none (by simp [ErrIn, Within, Range.next, Pos.stop]; omega)
  | text_bad h h2 ht =>
    have := (hL.str_some h).2.1
    have := hL.str_err h ht
    exact bounded_none (by simp [ErrIn, Within, Range.next, Pos.stop]; omega)
  | num_ok h hv => exact bounded_named (hL.num_some h).2
  | num_bad h hv =>
    have := (hL.num_some h).2
    exact bounded_none (by simp [ErrIn, Within, Range.next, Pos.stop]; omega)
  | sel_nil => exact bounded_none (by simp [ErrIn])
  | seq_nil => exact bounded_zero (by simp [ErrIn])
  | sel_next _ _ ih ih' => exact ⟨ih'.1, errIn_append ih.2 ih'.2⟩
  | fastTail_next _ _ _ _ _ _ _ ih ih' => exact ⟨ih'.1, errIn_append ih.2 ih'.2⟩
  | seq_fail _ ih | repeat_fail _ ih | sep_fail _ ih => exact bounded_none ih.2
  | seq_cons _ _ ih ih' | repeat_ok _ _ ih ih' | rep_more _ _ ih ih' | sep_first _ _ ih ih' =>
    exact bounded_before ih ih'
  | rep_stop _ ih | sep_none _ ih | sep_stop _ ih | optional_none _ ih => exact bounded_zero ih.2
  | not_ok _ ih => exact bounded_zero (by simp [ErrIn])
  | not_fail _ ih =>
    have := (ih.1 _ _ rfl).1
    exact bounded_none (by simp [ErrIn, Within, Range.next, Pos.stop]; omega)
  | sep_trail _ _ ih ih' =>
    have hm := (ih.1 _ _ rfl).1
    refine ⟨ih.1, errIn_append ih.2 (errIn_mono ih'.2 (by simp) ?_)⟩
    rw [stop_adv hm]; exact Nat.le_refl _
  | sep_noTrail _ _ ih ih' =>
    have hm := (ih.1 _ _ rfl).1
    refine bounded_none (errIn_append ih.2 (errIn_mono ih'.2 (by simp) ?_))
    rw [stop_adv hm]; exact Nat.le_refl _
  | sep_more _ _ _ ih ih' ih'' =>
    rename_i r b trail p i m us j tr n ts k tr' o l tr'' _ _ _
    have h1 := bounded_before ih ih'
    simp only [before] at h1
    have := bounded_before h1 ih''
    simpa using this
  | lines_done h =>
    obtain ⟨rfl, _⟩ := hL.line_done h
    exact ⟨fun _ _ he => by cases he; exact ⟨by omega, tokIn_nil⟩, by simp [ErrIn]⟩
  | lines_fail h =>
    rename_i p _ k
    obtain ⟨_, hk, _⟩ := hL.line_fail h
    refine bounded_none ?_
    simp [ErrIn, here, Within, Range.next, Pos.stop]; omega
  | lines_stop h _ ih =>
    obtain ⟨hk, _⟩ := hL.line_call h
    refine ⟨fun _ _ he => by cases he; exact ⟨hk, tokIn_nil⟩, errIn_mono ih.2 (by simp) ?_⟩
    rw [stop_adv hk]; exact Nat.le_refl _
  | lines_more h _ _ ih ih' =>
    obtain ⟨hk, _⟩ := hL.line_call h
    have h1 := bounded_shift hk ih
    simp only [before, List.nil_append] at h1
    exact bounded_before h1 ih'
  | line_shallow | line_deep => exact bounded_none (by simp [ErrIn])
  | line_body ha hc hd hi h ih => exact bounded_shift hc.1 ih
  | line_align ha hc hm hi h ih =>
    refine bounded_shift ?_ ih
    have := hm.1; have := hc.1
    simp at *; omega
  | node_fail _ _ ih => exact ih
  | node_ok _ _ ih =>
    refine ⟨fun _ _ he => ?_, ih.2⟩
    cases he
    have := ih.1 _ _ rfl
    exact ⟨this.1, tokIn_wrapped this.2⟩
  | _ => first | exact bounded_here | (rename_i ih; exact ih)

/-! ### Position independence -/

theorem shift_named {d prop off len f} :
    shiftToks d (named prop off len f) = named prop (off + d) len f := by
  cases prop <;> simp [shiftToks, named, shiftRange]

theorem shift_wrapped {d prop off len ts} :
    shiftToks d (wrapped prop off len ts) = wrapped prop (off + d) len (shiftToks d ts) := by
  cases prop <;> simp [shiftToks, wrapped, shiftRange]

theorem shift_before {d n ts o} :
    shiftOut d (before n ts o) = before n (shiftToks d ts) (shiftOut d o) := by
  cases o <;> simp [shiftOut, before, shiftToks]

theorem shift_adv {d p n} : shiftPos d (adv p n) = adv (shiftPos d p) n := by
  simp [shiftPos, adv]; omega

theorem shift_append {d a b} : shiftErrs d (a ++ b) = shiftErrs d a ++ shiftErrs d b := by
  simp [shiftErrs]

theorem shift_here {d p e} : shiftErrs d (here p e) = here (shiftPos d p) e := by
  simp [shiftErrs, shiftErr, here, shiftRange, shiftPos]

theorem best_shift (d : Nat) (tr : List RErr) :
    best (shiftErrs d tr) = (best tr).map (shiftErr d) := by
  induction tr with
  | nil => rfl
  | cons e es ih =>
    simp only [shiftErrs, List.map_cons, best] at ih ⊢
    rw [ih]
    cases best es with
    | none => rfl
    | some x =>
      have hd : ∀ y : RErr, (shiftErr d y).depth = y.depth + d := by
        intro y; simp only [shiftErr, shiftRange, RErr.depth, Range.next]; omega
      simp only [Option.map_some, errUpdate, hd]
      by_cases h : e.depth ≤ x.depth
      · rw [if_pos h, if_pos (by omega)]; rfl
      · rw [if_neg h, if_neg (by omega)]; rfl

theorem run_shift {E : Env} {g p i o j tr} (d : Nat) (h : Run E g p i o j tr) :
    Run E g (shiftPos d p) i (shiftOut d o) j (shiftErrs d tr) := by
  induction h with
  | ws_ok h h0 => exact .ws_ok h h0
  | ws_fail h => rw [shift_here]; exact .ws_fail h
  | tag_ok h => simp only [shiftOut, shift_named]; exact .tag_ok h
  | tag_fail h => rw [shift_here]; exact .tag_fail h
  | notTag_ok h => simp only [shiftOut, shift_named]; exact .notTag_ok h
  | notTag_fail h => exact .notTag_fail h
  | until_ok h h0 => simp only [shiftOut, shift_named]; exact .until_ok h h0
  | until_fail h => rw [shift_here]; exact .until_fail h
  | untilWs_ok h h0 => simp only [shiftOut, shift_named]; exact .untilWs_ok h h0
  | untilWs_fail h => rw [shift_here]; exact .untilWs_fail h
  | text_ok h h2 ht => simp only [shiftOut, shift_named]; exact .text_ok h h2 ht
  | text_none h => rw [shift_here]; exact .text_none h
  | text_empty h => exact .text_empty h
  | text_bad h h2 ht =>
    rename_i empty prop id p i n r e
    have := Run.text_bad (E := E) (prop := prop) (id := id) (i := i) (p := shiftPos d p)
      (by exact h) h2 ht
    simpa [shiftErrs, shiftErr, shiftRange, shiftPos, shiftOut, Nat.add_assoc, Nat.add_comm,
      Nat.add_left_comm] using this
  | num_ok h hv => simp only [shiftOut, shift_named]; exact .num_ok h hv
  | num_none h => rw [shift_here]; exact .num_none h
  | num_bad h hv => exact .num_bad h hv
  | select_empty => rw [shift_here]; exact .select_empty
  | select _ ih => exact .select ih
  | sel_nil => exact .sel_nil
  | sel_here _ ih => exact .sel_here ih
  | sel_next _ _ ih ih' => rw [shift_append]; exact .sel_next ih ih'
  | fast_end h => rw [shift_here]; exact .fast_end h
  | fast_miss h hb ht => rw [shift_here]; exact .fast_miss h hb ht
  | fast_hit h hb ht hr _ ih => exact .fast_hit h hb ht hr ih
  | fastTail_miss h hb ht hr _ ih => exact .fastTail_miss h hb ht hr ih
  | fastTail_hit h hb ht hr _ ih => exact .fastTail_hit h hb ht hr ih
  | fastTail_next h hb ht hr _ hr' _ ih ih' =>
    rw [shift_append]; exact .fastTail_next h hb ht hr ih hr' ih'
  | sequence _ ih => exact .sequence ih
  | seq_nil => exact .seq_nil
  | seq_fail _ ih => exact .seq_fail ih
  | seq_cons _ _ ih ih' =>
    rw [shift_before, shift_append]; exact .seq_cons ih (shift_adv ▸ ih')
  | repeat_opt _ ih => exact .repeat_opt ih
  | repeat_fail _ ih => exact .repeat_fail ih
  | repeat_ok _ _ ih ih' =>
    rw [shift_before, shift_append]; exact .repeat_ok ih (shift_adv ▸ ih')
  | rep_stop _ ih => exact .rep_stop ih
  | rep_more _ _ ih ih' =>
    rw [shift_before, shift_append]; exact .rep_more ih (shift_adv ▸ ih')
  | sep_none _ ih => exact .sep_none ih
  | sep_fail _ ih => exact .sep_fail ih
  | sep_first _ _ ih ih' =>
    rw [shift_before, shift_append]; exact .sep_first ih (shift_adv ▸ ih')
  | sep_stop _ ih => exact .sep_stop ih
  | sep_trail _ _ ih ih' => rw [shift_append]; exact .sep_trail ih (shift_adv ▸ ih')
  | sep_noTrail _ _ ih ih' => rw [shift_append]; exact .sep_noTrail ih (shift_adv ▸ ih')
  | sep_more _ _ _ ih ih' ih'' =>
    rw [shift_before, shift_append, shift_append]
    have := Run.sep_more ih (shift_adv ▸ ih') (shift_adv ▸ ih'')
    simpa [shiftToks] using this
  | lines _ ih => exact .lines ih
  | lines_done h => exact .lines_done h
  | lines_fail h => rw [shift_here, shift_adv]; exact .lines_fail h
  | lines_stop h _ ih => exact .lines_stop h (shift_adv ▸ ih)
  | lines_more h _ _ ih ih' =>
    rw [shift_before, shift_append]
    exact .lines_more h (shift_adv ▸ ih) (shift_adv ▸ ih')
  | line_plain _ ih => exact .line_plain ih
  | line_shallow h => exact .line_shallow h
  | line_deep ha h hd => exact .line_deep ha h hd
  | line_body ha h hd hi _ ih => rw [shift_before]; exact .line_body ha h hd hi (shift_adv ▸ ih)
  | line_align ha h hm hi _ ih =>
    rw [shift_before]; exact .line_align ha h hm hi (shift_adv ▸ ih)
  | node_unresolved => rw [shift_here]; exact .node_unresolved
  | node_fail hr _ ih => exact .node_fail hr ih
  | node_ok hr _ ih => simp only [shiftOut, shift_wrapped]; exact .node_ok hr ih
  | optional_none _ ih => exact .optional_none ih
  | optional_some _ ih => exact .optional_some ih
  | not_ok _ ih => exact .not_ok ih
  | not_fail _ ih => exact .not_fail ih

end Verif
