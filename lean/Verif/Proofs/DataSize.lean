import Verif.Proofs.FuelBound
import Verif.Proofs.CallCount
/-
How much data a text gives.
-/
namespace Verif
open Spec

/-- The numbers in the bound: `z h` is for what reads nothing and calls itself at most `h` deep, `K` for each character,
`D` for each level; `S` is what is left over for each rule that reads. -/
structure SizeBound (M W : Nat) where
  z : Nat → Nat
  K : Nat
  S : Nat
  D : Nat
  z_one : ∀ h, 1 ≤ z h
  z_node : ∀ h, z h + 2 ≤ z (h + 1)
  z_width : ∀ h, W * z h ≤ z (h + 1)
  z_top : ∀ h ≤ M, z h ≤ z M
  hS : D * M + z M ≤ S
  hK : S + z M + 1 ≤ K
  hD : W * z M + 3 * z M + 2 ≤ D

variable {E : Env} {M W : Nat} (B : SizeBound M W)

/-- At most this many tokens. -/
def SizeBound.Fits (h n t : Nat) : Prop := (n = 0 → t ≤ B.z h) ∧ (n ≠ 0 → t + B.S ≤ B.K * n + B.D * h)

/-- If the rules so far have read nothing, what comes next is called from the sequence. -/
def FreshFrom (E : Env) (h : Nat) (rs : List Rule) : Prop :=
  ∀ pre c post, rs = pre ++ c :: post → (∀ x ∈ pre, CanBeEmpty E x) → Ht (Calls E) h c

/-- What holds for the data of a goal. -/
def Sized (E : Env) (B : SizeBound M W) : Goal → Nat → Nat → Prop
  | .rule r, n, t => Part E.refs r → ∀ h ≤ M, Ht (Calls E) h r → B.Fits h n t
  | .sel rs, n, t => (∀ r ∈ rs, Part E.refs r) → ∀ h ≤ M, (∀ r ∈ rs, Ht (Calls E) h r) → B.Fits h n t
  | .seq rs, n, t => (∀ r ∈ rs, Part E.refs r) →
    t ≤ B.K * n + rs.length * B.z M ∧
    ∀ h ≤ M, FreshFrom E h rs → (n = 0 → t ≤ rs.length * B.z h) ∧
      (n ≠ 0 → t + B.S ≤ B.K * n + B.D * h + rs.length * B.z M)
  | .rep r, n, t => Part E.refs r → ¬ CanBeEmpty E r →
    t ≤ B.K * n ∧ ∀ h ≤ M, Ht (Calls E) h r → B.Fits h n t
  | .sepTail r b _, n, t => Part E.refs r → Part E.refs b → ¬ (CanBeEmpty E r ∧ CanBeEmpty E b) →
    t ≤ B.K * n + B.z M ∧
    ∀ h ≤ M, Ht (Calls E) h b → ¬ CanBeEmpty E b → (n = 0 → t = 0) ∧
      (n ≠ 0 → t + B.S ≤ B.K * n + B.D * h + 2 * B.z M)
  | .lines r _ _ first item, n, t => Part E.refs r →
    (first = false → t ≤ B.K * n + B.z M) ∧
    (first = false → item = [] → (n = 0 → t = 0) ∧ (n ≠ 0 → t + B.S ≤ B.K * n)) ∧
    (first = true → ∀ h ≤ M, Ht (Calls E) h r → (n = 0 → t ≤ B.z h) ∧
      (n ≠ 0 → t + B.S ≤ B.K * n + B.D * h + B.z M))
  | .line r _ _, n, t => Part E.refs r → ∀ h ≤ M, Ht (Calls E) h r → B.Fits h n t

theorem ht_pred {α : Type} {R : α → α → Prop} {h : Nat} {c r : α} (hh : Ht R h r) (hc : R c r) :
    ∃ k, h = k + 1 ∧ Ht R k c := by
  cases h with
  | zero => exact absurd hc (hh c)
  | succ k => exact ⟨k, rfl, hh c hc⟩

theorem SizeBound.Fits.up {h n t : Nat} (hf : B.Fits h n t) : B.Fits (h + 1) n t := by
  have := B.z_node h
  refine ⟨fun hn => ?_, fun hn => ?_⟩
  · have := hf.1 hn; omega
  · have := hf.2 hn; rw [Nat.mul_add]; omega

/-- One token, or none, when nothing is called. -/
theorem SizeBound.fits_one {h n t : Nat} (ht : t ≤ 1) : B.Fits h n t := by
  have h1 := B.z_one h
  have h2 := B.hK
  refine ⟨fun _ => by omega, fun hn => ?_⟩
  have h3 : B.K * 1 ≤ B.K * n := Nat.mul_le_mul_left _ (by omega)
  omega

/-- What a rule reads, wherever it stands. -/
theorem SizeBound.Fits.any {h n t : Nat} (hh : h ≤ M) (hf : B.Fits h n t) :
    t ≤ B.K * n + B.z M ∧ (n = 0 → t ≤ B.z M) ∧ (n ≠ 0 → t + B.z M ≤ B.K * n) := by
  have h1 := B.z_top h hh
  have h2 := B.hS
  have h3 : B.D * h ≤ B.D * M := Nat.mul_le_mul_left _ hh
  have h4 : n = 0 → t ≤ B.z M := fun hn => Nat.le_trans (hf.1 hn) h1
  have h5 : n ≠ 0 → t + B.z M ≤ B.K * n := fun hn => by have := hf.2 hn; omega
  refine ⟨?_, h4, h5⟩
  by_cases hn : n = 0
  · have := h4 hn; omega
  · have := h5 hn; omega

theorem named_length {prop off len f} : (named prop off len f).length ≤ 1 := by
  cases prop <;> simp [named]

theorem wrapped_length {prop off len ts} : (wrapped prop off len ts).length ≤ ts.length + 2 := by
  cases prop <;> simp [wrapped]

theorem freshFrom_cons {h : Nat} {r : Rule} {rs : List Rule} (hf : FreshFrom E h (r :: rs)) :
    Ht (Calls E) h r ∧ (CanBeEmpty E r → FreshFrom E h rs) := by
  refine ⟨hf [] r rs rfl (by simp), fun hr pre c post e hp => ?_⟩
  refine hf (r :: pre) c post (by rw [e]; rfl) ?_
  intro x hx
  rcases List.mem_cons.1 hx with rfl | hx
  · exact hr
  · exact hp x hx

theorem part_child {refs : List Rule} {c r : Rule} (h : Part refs r) (hc : Child c r) : Part refs c := by
  obtain ⟨q, hq, ho⟩ := h
  exact ⟨q, hq, Occurs.trans (.step .refl hc) ho⟩

theorem part_ref {refs : List Rule} {ix : Nat} {c : Rule} (h : refs[ix]? = some c) : Part refs c :=
  ⟨c, List.mem_of_getElem? h, .refl⟩

theorem run_sized (hL : E.L.Lawful) (hM : ∀ r, Part E.refs r → Ht (Calls E) M r)
    (hW : ∀ r, Part E.refs r → width r ≤ W) (hl : ∀ r, Part E.refs r → LoopOk E r) {g p i o j tr}
    (hr : Run E g p i o j tr) : ∀ n ts, o = some (n, ts) → Sized E B g n ts.length := by
  have hK := B.hK
  have hS := B.hS
  have hD := B.hD
  have hz1 := B.z_one M
  have mul0 : B.K * 0 = 0 := Nat.mul_zero _
  have one : ∀ {n : Nat}, n ≠ 0 → B.K ≤ B.K * n := fun hn => Nat.le_mul_of_pos_right _ (by omega)
  have top : ∀ {h : Nat}, h ≤ M → B.D * h ≤ B.D * M := fun hh => Nat.mul_le_mul_left _ hh
  induction hr with
  | ws_ok | tag_ok | notTag_ok | until_ok | untilWs_ok | text_ok | num_ok =>
    rintro n ts ⟨⟩ - h - -
    exact B.fits_one (by first | exact named_length | simp)
  | ws_fail | tag_fail | notTag_fail | until_fail | untilWs_fail | text_none | text_empty | text_bad | num_none | num_bad
  | select_empty | sel_nil | fast_end | fast_miss | seq_fail | repeat_fail | sep_fail | sep_noTrail | lines_fail
  | line_shallow | line_deep | node_unresolved | node_fail | not_fail => rintro n ts ⟨⟩
  | @select r rs id p i o j tr h ih =>
    intro n ts e hp h hh ht
    obtain ⟨k, rfl, -⟩ := ht_pred ht (.select (List.mem_cons_self (a := r) (l := rs)))
    exact (ih n ts e (fun x hx => part_child hp (.select hx)) k (by omega) fun x hx => ht x (.select hx)).up
  | sel_here h ih =>
    intro n ts e hp k hk ht
    exact ih n ts e (hp _ (by simp)) k hk (ht _ (by simp))
  | sel_next h h' ih ih' =>
    intro n ts e hp k hk ht
    exact ih' n ts e (fun x hx => hp x (by simp [hx])) k hk fun x hx => ht x (by simp [hx])
  | fast_hit h hb ht hr h' ih =>
    intro n ts e hp k hk hh
    have hc := List.mem_of_getElem? hr
    obtain ⟨k, rfl, hh'⟩ := ht_pred hh (.fast hc)
    exact (ih n ts e (part_child hp (.fast hc)) k (by omega) hh').up
  | fastTail_miss h hb ht hr h' ih =>
    intro n ts e hp k hk hh
    have hc := List.mem_of_getLast? hr
    obtain ⟨k, rfl, hh'⟩ := ht_pred hh (.fast hc)
    exact (ih n ts e (part_child hp (.fast hc)) k (by omega) hh').up
  | fastTail_hit h hb ht hr h' ih =>
    intro n ts e hp k hk hh
    have hc := List.mem_of_getElem? hr
    obtain ⟨k, rfl, hh'⟩ := ht_pred hh (.fast hc)
    exact (ih n ts e (part_child hp (.fast hc)) k (by omega) hh').up
  | fastTail_next h hb ht hr h' hr' h'' ih ih' =>
    intro n ts e hp k hk hh
    have hc := List.mem_of_getLast? hr'
    obtain ⟨k, rfl, hh'⟩ := ht_pred hh (.fast hc)
    exact (ih' n ts e (part_child hp (.fast hc)) k (by omega) hh').up
  | @sequence rs id p i o j tr h ih =>
    intro n ts e hp k hk hh
    have hps : ∀ r ∈ rs, Part E.refs r := fun r hr => part_child hp (.sequence hr)
    cases rs with
    | nil =>
      cases h
      cases e
      exact B.fits_one (by simp)
    | cons r rs =>
      obtain ⟨k, rfl, -⟩ := ht_pred hh (Calls.sequence (pre := []) (c := r) (post := rs) (by simp))
      have hfr : FreshFrom E k (r :: rs) := fun pre c post e hpre => hh c (e ▸ Calls.sequence hpre)
      obtain ⟨h1, h2⟩ := (ih n ts e hps).2 k (by omega) hfr
      have hw : (r :: rs).length ≤ W := hW _ hp
      have hw1 := Nat.mul_le_mul_right (B.z k) hw
      have hw2 := Nat.mul_le_mul_right (B.z M) hw
      have hw3 := B.z_width k
      refine ⟨fun hn => ?_, fun hn => ?_⟩
      · have := h1 hn; omega
      · have := h2 hn
        rw [Nat.mul_add]
        omega
  | seq_nil =>
    rintro n ts ⟨⟩ -
    exact ⟨by simp, fun h _ _ => ⟨by simp, by simp⟩⟩
  | @seq_cons r rs p i n1 ts1 j tr o k tr' h h' ih ih' =>
    intro n ts e hp
    obtain ⟨n2, ts2, rfl, rfl, rfl⟩ := before_some e
    have hpr := hp r (by simp)
    have a1 := (ih _ _ rfl hpr M (Nat.le_refl _) (hM _ hpr)).any B (Nat.le_refl _)
    obtain ⟨b1, b2⟩ := ih' _ _ rfl fun x hx => hp x (by simp [hx])
    simp only [List.length_append, List.length_cons, Nat.add_mul, Nat.mul_add, Nat.one_mul]
    refine ⟨by omega, fun h2 hh hf => ?_⟩
    obtain ⟨f1, f2⟩ := freshFrom_cons hf
    have a2 := ih _ _ rfl hpr h2 hh f1
    have hzt := B.z_top h2 hh
    by_cases hn1 : n1 = 0
    · subst hn1
      obtain ⟨c1, c2⟩ := b2 h2 hh (f2 ⟨_, _, _, _, _, h⟩)
      have a3 := a2.1 rfl
      refine ⟨fun hn => ?_, fun hn => ?_⟩
      · have := c1 (by omega); omega
      · have := c2 (by omega); omega
    · have a3 := a2.2 hn1
      exact ⟨fun hn => by omega, fun _ => by omega⟩
  | @repeat_opt r id p i o j tr h ih =>
    intro n ts e hp k hk hh
    obtain ⟨k, rfl, hh'⟩ := ht_pred hh .repeat_
    exact ((ih n ts e (part_child hp .repeat_) (hl _ hp)).2 k (by omega) hh').up
  | @repeat_ok r id p i n1 ts1 j tr o k tr' h h' ih ih' =>
    intro n ts e hp k hk hh
    obtain ⟨n2, ts2, rfl, rfl, rfl⟩ := before_some e
    obtain ⟨k, rfl, hh'⟩ := ht_pred hh .repeat_
    have hpr := part_child hp .repeat_
    have hne := hl _ hp
    have hn1 : n1 ≠ 0 := fun h0 => hne ⟨_, _, _, _, _, h0 ▸ h⟩
    have a1 := (ih _ _ rfl hpr k (by omega) hh').2 hn1
    have a2 := (ih' _ _ rfl hpr hne).1
    refine ⟨fun hn => by omega, fun _ => ?_⟩
    simp only [List.length_append, Nat.mul_add]
    omega
  | rep_stop h ih =>
    rintro n ts ⟨⟩ - -
    exact ⟨by simp, fun h _ _ => B.fits_one (by simp)⟩
  | @rep_more r p i n1 ts1 j tr o k tr' h h' ih ih' =>
    intro n ts e hpr hne
    obtain ⟨n2, ts2, rfl, rfl, rfl⟩ := before_some e
    have hn1 : n1 ≠ 0 := fun h0 => hne ⟨_, _, _, _, _, h0 ▸ h⟩
    have a0 := ((ih _ _ rfl hpr M (Nat.le_refl _) (hM _ hpr)).any B (Nat.le_refl _)).2.2 hn1
    have a2 := (ih' _ _ rfl hpr hne).1
    simp only [List.length_append, Nat.mul_add]
    refine ⟨by omega, fun k hk hh => ?_⟩
    have a1 := (ih _ _ rfl hpr k hk hh).2 hn1
    refine ⟨fun hn => by omega, fun _ => ?_⟩
    simp only [Nat.mul_add]
    omega
  | sep_none h ih =>
    rintro n ts ⟨⟩ - k - -
    exact B.fits_one (by simp)
  | @sep_first r b opt trail id p i n1 ts1 j tr o k tr' h h' ih ih' =>
    intro n ts e hp k hk hh
    obtain ⟨n2, ts2, rfl, rfl, rfl⟩ := before_some e
    have hpr := part_child hp .item
    have hpb := part_child hp .sep
    have hne : ¬ (CanBeEmpty E r ∧ CanBeEmpty E b) := hl _ hp
    obtain ⟨b1, b2⟩ := ih' _ _ rfl hpr hpb hne
    have hsep : CanBeEmpty E r → Calls E b (.separateBy r b opt trail id) := fun hc => .sep hc
    obtain ⟨k', rfl, hhr⟩ := ht_pred hh .item
    have a1 := ih _ _ rfl hpr k' (by omega) hhr
    have hzn := B.z_node k'
    have hzt := B.z_top k' (by omega)
    by_cases hn1 : n1 = 0
    · subst hn1
      have hre : CanBeEmpty E r := ⟨_, _, _, _, _, h⟩
      obtain ⟨c1, c2⟩ := b2 k' (by omega) (hh b (hsep hre)) fun hb => hne ⟨hre, hb⟩
      have a2 := a1.1 rfl
      refine ⟨fun hn => ?_, fun hn => ?_⟩
      · have := c1 (by omega)
        rw [List.length_append]
        omega
      · have := c2 (by omega)
        simp only [List.length_append, Nat.mul_add]
        omega
    · have a2 := a1.2 hn1
      refine ⟨fun hn => by omega, fun _ => ?_⟩
      simp only [List.length_append, Nat.mul_add]
      omega
  | sep_stop h ih =>
    rintro n ts ⟨⟩ - - -
    exact ⟨by simp, fun h _ _ _ => ⟨by simp, by simp⟩⟩
  | @sep_trail r b p i m us j tr k tr' h h' ih ih' =>
    rintro n ts ⟨⟩ hpr hpb hne
    have a1 := (ih _ _ rfl hpb M (Nat.le_refl _) (hM _ hpb)).any B (Nat.le_refl _)
    refine ⟨a1.1, fun k hk hh hb => ?_⟩
    have hm : m ≠ 0 := fun h0 => hb ⟨_, _, _, _, _, h0 ▸ h⟩
    have a2 := (ih _ _ rfl hpb k hk hh).2 hm
    exact ⟨fun h0 => absurd h0 hm, fun _ => by omega⟩
  | @sep_more r b trail p i m us j tr n1 ts1 k tr' o l tr'' h h' h'' ih ih' ih'' =>
    intro n ts e hpr hpb hne
    obtain ⟨n2, ts2, rfl, rfl, rfl⟩ := before_some e
    have a1 := (ih _ _ rfl hpb M (Nat.le_refl _) (hM _ hpb)).any B (Nat.le_refl _)
    have a2 := (ih' _ _ rfl hpr M (Nat.le_refl _) (hM _ hpr)).any B (Nat.le_refl _)
    have a3 := (ih'' _ _ rfl hpr hpb hne).1
    have hmn : m ≠ 0 ∨ n1 ≠ 0 := by
      by_cases hm : m = 0
      · right
        intro hn
        exact hne ⟨⟨_, _, _, _, _, hn ▸ h'⟩, ⟨_, _, _, _, _, hm ▸ h⟩⟩
      · exact .inl hm
    simp only [List.length_append, Nat.mul_add]
    refine ⟨?_, fun k hk hh hb => ?_⟩
    · rcases hmn with hm | hn
      · have := a1.2.2 hm
        have := a2.1
        omega
      · have := a2.2.2 hn
        have := a1.1
        omega
    · have hm : m ≠ 0 := fun h0 => hb ⟨_, _, _, _, _, h0 ▸ h⟩
      have a4 := (ih _ _ rfl hpb k hk hh).2 hm
      exact ⟨fun h0 => by omega, fun _ => by have := a2.1; omega⟩
  | @lines r ind id p i o j tr h ih =>
    intro n ts e hp k hk hh
    obtain ⟨k, rfl, hh'⟩ := ht_pred hh .lines
    obtain ⟨a1, a2⟩ := (ih n ts e (part_child hp .lines)).2.2 rfl k (by omega) hh'
    have hzn := B.z_node k
    refine ⟨fun hn => ?_, fun hn => ?_⟩
    · have := a1 hn; omega
    · have := a2 hn
      rw [Nat.mul_add]
      omega
  | lines_done h =>
    rintro n ts ⟨⟩ -
    refine ⟨fun _ => by simp, fun _ _ => ⟨fun _ => rfl, fun hn => ?_⟩, fun _ k _ _ => ⟨fun _ => by simp, fun hn => ?_⟩⟩
    · have := one hn; simp; omega
    · have := one hn; simp; omega
  | lines_stop h h' ih =>
    rintro n ts ⟨⟩ -
    refine ⟨fun _ => by simp, fun _ _ => ⟨fun _ => rfl, fun hn => ?_⟩, fun _ k _ _ => ⟨fun _ => by simp, fun hn => ?_⟩⟩
    · have := one hn; simp; omega
    · have := one hn; simp; omega
  | @lines_more r ind id first item p i k n1 ts1 j tr o l tr' h h' h'' ih ih' =>
    intro n ts e hpr
    obtain ⟨n2, ts2, rfl, rfl, rfl⟩ := before_some e
    have a1 := (ih _ _ rfl hpr M (Nat.le_refl _) (hM _ hpr)).any B (Nat.le_refl _)
    obtain ⟨b1, b2, -⟩ := ih' _ _ rfl hpr
    have b1 := b1 rfl
    have b3 : n1 = 0 → (n2 = 0 → ts2.length = 0) ∧ (n2 ≠ 0 → ts2.length + B.S ≤ B.K * n2) :=
      fun h0 => b2 rfl (by rw [h0, List.take_zero])
    have hsum : ts1.length + ts2.length ≤ B.K * n1 + B.K * n2 + B.z M := by
      by_cases hn1 : n1 = 0
      · have c1 := a1.2.1 hn1
        by_cases hn2 : n2 = 0
        · have := (b3 hn1).1 hn2; omega
        · have := (b3 hn1).2 hn2; omega
      · have := a1.2.2 hn1; omega
    have hpos : k ≠ 0 → ts1.length + ts2.length + B.S ≤ B.K * k + B.K * n1 + B.K * n2 := fun hk => by
      have := one hk; omega
    simp only [List.length_append, Nat.mul_add]
    refine ⟨fun _ => by omega, fun hf hi => ?_, fun hf d hd hh => ?_⟩
    · have hk : k ≠ 0 := by
        rintro rfl
        have := (hL.line_call h).2.2.2.2 hf
        simp [hi] at this
      have := hpos hk
      exact ⟨fun h0 => by omega, fun _ => by omega⟩
    · by_cases hk : k = 0
      · subst hk
        have c1 := ih _ _ rfl hpr d hd hh
        have hzt := B.z_top d hd
        by_cases hn1 : n1 = 0
        · have c2 := c1.1 hn1
          by_cases hn2 : n2 = 0
          · have := (b3 hn1).1 hn2
            exact ⟨fun _ => by omega, fun h0 => by omega⟩
          · have := (b3 hn1).2 hn2
            exact ⟨fun h0 => by omega, fun _ => by omega⟩
        · have := c1.2 hn1
          exact ⟨fun h0 => by omega, fun _ => by omega⟩
      · have := hpos hk
        exact ⟨fun h0 => by omega, fun _ => by omega⟩
  | line_plain h ih =>
    intro n ts e hp k hk hh
    exact ih n ts e hp k hk hh
  | @line_body r first p i k' o j tr ha h hd hi h' ih =>
    intro n ts e hp k hk hh
    obtain ⟨n2, ts2, rfl, rfl, rfl⟩ := before_some e
    have a := ih _ _ rfl hp k hk hh
    have hzt := B.z_top k hk
    refine ⟨fun hn => by have := a.1 (by omega); simpa using this, fun hn => ?_⟩
    simp only [List.nil_append, Nat.mul_add]
    by_cases hn2 : n2 = 0
    · have := a.1 hn2
      have := one (n := k') (by omega)
      omega
    · have := a.2 hn2
      omega
  | @line_align r p i k' m' o j tr ha h hm hi h' ih =>
    intro n ts e hp k hk hh
    obtain ⟨n2, ts2, rfl, rfl, rfl⟩ := before_some e
    have a := ih _ _ rfl hp k hk hh
    have hzt := B.z_top k hk
    generalize k' + m' = q
    refine ⟨fun hn => by have := a.1 (by omega); simpa using this, fun hn => ?_⟩
    simp only [List.nil_append, Nat.mul_add]
    by_cases hn2 : n2 = 0
    · have := a.1 hn2
      have := one (n := q) (by omega)
      omega
    · have := a.2 hn2
      omega
  | @node_ok name prop ix id p i r n1 ts1 j tr hr h ih =>
    rintro n ts ⟨⟩ hp k hk hh
    obtain ⟨k, rfl, hh'⟩ := ht_pred hh (.node hr)
    have a := ih _ _ rfl (part_ref hr) k (by omega) hh'
    have hw := wrapped_length (prop := prop) (off := p.off) (len := n1) (ts := ts1)
    have hzn := B.z_node k
    refine ⟨fun hn => ?_, fun hn => ?_⟩
    · have := a.1 hn; omega
    · have := a.2 hn
      rw [Nat.mul_add]
      omega
  | optional_none h ih =>
    rintro n ts ⟨⟩ - k - -
    exact B.fits_one (by simp)
  | optional_some h ih =>
    intro n ts e hp k hk hh
    obtain ⟨k, rfl, hh'⟩ := ht_pred hh .optional
    exact (ih n ts e (part_child hp .optional) k (by omega) hh').up
  | not_ok h ih =>
    rintro n ts ⟨⟩ - k - -
    exact B.fits_one (by simp)

end Verif
