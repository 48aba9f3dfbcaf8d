import Verif.Proofs.DataSize
import Verif.Proofs.Writes
/-
How much stands recorded at any time.
-/
namespace Verif
open Spec

variable {E : Env} {M W : Nat} (B : SizeBound M W)

/-- The bound with `k` characters left, for what calls itself at most `h` deep before it reads. -/
def SizeBound.top (k h : Nat) : Nat := B.K * k + B.D * ((M + 1) * k + h + 1)

theorem SizeBound.top_up (k h : Nat) : B.top k h + B.D ≤ B.top k (h + 1) := by
  simp only [SizeBound.top, Nat.mul_add]
  omega

theorem SizeBound.top_mono {k k' h h' : Nat} (hk : k ≤ k') (hh : h ≤ h') : B.top k h ≤ B.top k' h' := by
  have h1 := Nat.mul_le_mul_left B.K hk
  have h2 := Nat.mul_le_mul_left (M + 1) hk
  have h3 : B.D * ((M + 1) * k + h + 1) ≤ B.D * ((M + 1) * k' + h' + 1) := Nat.mul_le_mul_left _ (by omega)
  simp only [SizeBound.top]
  omega

theorem SizeBound.top_step {k n : Nat} (h : Nat) (hn : n ≠ 0) (hk : n ≤ k) :
    B.K * n + B.top (k - n) M + B.D ≤ B.top k h := by
  have h1 : B.K * n + B.K * (k - n) = B.K * k := by rw [← Nat.mul_add, Nat.add_sub_cancel' hk]
  have h2 : (M + 1) * (k - n) + M + 1 ≤ (M + 1) * k := by
    have : (M + 1) * (k - n + 1) ≤ (M + 1) * k := Nat.mul_le_mul_left _ (by omega)
    rw [Nat.mul_add] at this
    omega
  have h3 : B.D * ((M + 1) * (k - n) + M + 1 + 1) ≤ B.D * ((M + 1) * k + h + 1) := Nat.mul_le_mul_left _ (by omega)
  rw [Nat.mul_add B.D _ 1] at h3
  simp only [SizeBound.top]
  omega

theorem SizeBound.top_big {k n h : Nat} (hn : n ≤ k) : B.K * n + B.D ≤ B.top k h := by
  have h1 := Nat.mul_le_mul_left B.K hn
  have h2 : B.D * 1 ≤ B.D * ((M + 1) * k + h + 1) := Nat.mul_le_mul_left _ (by omega)
  simp only [SizeBound.top]
  omega

/-- What holds for the length `t` of what stands recorded on the way, with `k` characters left. -/
def Held (E : Env) (B : SizeBound M W) : Goal → Nat → Nat → Prop
  | .rule r, k, t => Part E.refs r → ∀ h ≤ M, Ht (Calls E) h r → t ≤ B.top k h
  | .sel rs, k, t => (∀ r ∈ rs, Part E.refs r) → ∀ h ≤ M, (∀ r ∈ rs, Ht (Calls E) h r) → t ≤ B.top k h
  | .seq rs, k, t => (∀ r ∈ rs, Part E.refs r) → ∀ h ≤ M, FreshFrom E h rs → t ≤ B.top k h + rs.length * B.z M
  | .rep r, k, t => Part E.refs r → ¬ CanBeEmpty E r → ∀ h ≤ M, Ht (Calls E) h r → t ≤ B.top k h
  | .sepTail r b _, k, t => Part E.refs r → Part E.refs b → ¬ (CanBeEmpty E r ∧ CanBeEmpty E b) →
    t ≤ B.top k M + B.z M ∧ ∀ h ≤ M, Ht (Calls E) h b → ¬ CanBeEmpty E b → t ≤ B.top k h + B.z M
  | .lines r _ _ first item, k, t => Part E.refs r →
    t ≤ B.top k M + B.z M ∧ (first = false → item = [] → t ≤ B.top k 0) ∧
      (∀ h ≤ M, Ht (Calls E) h r → t ≤ B.top k h + B.z M)
  | .line r _ _, k, t => Part E.refs r → ∀ h ≤ M, Ht (Calls E) h r → t ≤ B.top k h

theorem adv_len (p : Pos) (n : Nat) : (adv p n).src.length = p.src.length - n := by
  simp only [adv_src, List.length_drop]

theorem mem_behind {ts v : List Tok} {a : List (List Tok)} (h : v ∈ behind ts a) : ∃ u ∈ a, v = ts ++ u := by
  obtain ⟨u, hu, rfl⟩ := List.mem_map.1 h
  exact ⟨u, hu, rfl⟩

theorem recs_held (hL : E.L.Lawful) (hM : ∀ r, Part E.refs r → Ht (Calls E) M r)
    (hW : ∀ r, Part E.refs r → width r ≤ W) (hl : ∀ r, Part E.refs r → LoopOk E r) {g p i a}
    (hr : Recs E g p i a) : ∀ v ∈ a, Held E B g p.src.length v.length := by
  have hK := B.hK
  have hS := B.hS
  have hD := B.hD
  have hz1 := B.z_one M
  -- what a rule that reads gives
  have gave : ∀ {r p i n ts j tr}, Part E.refs r → Run E (.rule r) p i (some (n, ts)) j tr →
      n ≤ p.src.length ∧ ts.length ≤ B.K * n + B.z M ∧ (n ≠ 0 → ts.length + B.z M ≤ B.K * n) := by
    intro r p i n ts j tr hp h
    have := (run_sized B hL hM hW hl h _ _ rfl hp M (Nat.le_refl _) (hM _ hp)).any B (Nat.le_refl _)
    exact ⟨run_some_le hL h, this.1, this.2.2⟩
  have down : ∀ {h r c}, Ht (Calls E) h r → Calls E c r → ∀ {t k}, (∀ h' ≤ M, Ht (Calls E) h' c → t ≤ B.top k h') →
      h ≤ M → t + B.D ≤ B.top k h := by
    intro h r c hh hc t k ht hm
    obtain ⟨h', rfl, hh'⟩ := ht_pred hh hc
    have h1 := ht h' (by omega) hh'
    have h2 := B.top_up k h'
    omega
  have mk : ∀ {k k' h : Nat}, k ≤ k' → B.top k h ≤ B.top k' h := fun hk => B.top_mono hk (Nat.le_refl _)
  have mz : ∀ {k h : Nat}, B.top k 0 ≤ B.top k h := B.top_mono (Nat.le_refl _) (Nat.zero_le _)
  induction hr with
  | @leaf_ok r p i n ts j tr hlf h =>
    intro v hv hp k hk hh
    obtain ⟨t, -, rfl⟩ := List.mem_map.1 hv
    have := B.top_big (k := p.src.length) (n := 0) (h := k) (by omega)
    simp only [List.length_singleton]
    omega
  | leaf_fail | sel_nil | fast_end | fast_miss | seq_nil | lines_done | lines_fail | line_shallow | line_deep
  | node_unresolved => intro v hv; simp at hv
  | @select rs id p i a h ih =>
    intro v hv hp k hk hh
    cases rs with
    | nil => cases h; simp at hv
    | cons r rs =>
      obtain ⟨k, rfl, -⟩ := ht_pred hh (.select (List.mem_cons_self (a := r) (l := rs)))
      have h1 := ih v hv (fun x hx => part_child hp (.select hx)) k (by omega) fun x hx => hh x (.select hx)
      have h2 := B.top_up p.src.length k
      omega
  | sel_here h ha ih =>
    intro v hv hp k hk hh
    exact ih v hv (hp _ (by simp)) k hk (hh _ (by simp))
  | sel_next h ha hb ih ih' =>
    intro v hv hp k hk hh
    rcases List.mem_append.1 hv with hv | hv
    · exact ih v hv (hp _ (by simp)) k hk (hh _ (by simp))
    · exact ih' v hv (fun x hx => hp x (by simp [hx])) k hk fun x hx => hh x (by simp [hx])
  | fast_hit h hb ht hr ha ih =>
    intro v hv hp k hk hh
    have hc := List.mem_of_getElem? hr
    have := down hh (.fast hc) (ih v hv (part_child hp (.fast hc))) hk
    omega
  | fastTail_miss h hb ht hr ha ih =>
    intro v hv hp k hk hh
    have hc := List.mem_of_getLast? hr
    have := down hh (.fast hc) (ih v hv (part_child hp (.fast hc))) hk
    omega
  | fastTail_hit h hb ht hr h' ha ih =>
    intro v hv hp k hk hh
    have hc := List.mem_of_getElem? hr
    have := down hh (.fast hc) (ih v hv (part_child hp (.fast hc))) hk
    omega
  | fastTail_next h hb ht hr h' ha hr' ha' ih ih' =>
    intro v hv hp k hk hh
    rcases List.mem_append.1 hv with hv | hv
    · have hc := List.mem_of_getElem? hr
      have := down hh (.fast hc) (ih v hv (part_child hp (.fast hc))) hk
      omega
    · have hc := List.mem_of_getLast? hr'
      have := down hh (.fast hc) (ih' v hv (part_child hp (.fast hc))) hk
      omega
  | @sequence rs id p i a h ih =>
    intro v hv hp k hk hh
    cases rs with
    | nil => cases h; simp at hv
    | cons r rs =>
      obtain ⟨k, rfl, -⟩ := ht_pred hh (Calls.sequence (pre := []) (c := r) (post := rs) (by simp))
      have hfr : FreshFrom E k (r :: rs) := fun pre c post e hpre => hh c (e ▸ Calls.sequence hpre)
      have h1 := ih v hv (fun x hx => part_child hp (.sequence hx)) k (by omega) hfr
      have h2 := B.top_up p.src.length k
      have hw : (r :: rs).length ≤ W := hW _ hp
      have hw2 := Nat.mul_le_mul_right (B.z M) hw
      omega
  | seq_fail h ha ih =>
    intro v hv hp k hk hf
    have := ih v hv (hp _ (by simp)) k hk (freshFrom_cons hf).1
    omega
  | @seq_cons r rs p i n ts j tr a b h ha hb ih ih' =>
    intro v hv hp k hk hf
    have hpr := hp r (by simp)
    obtain ⟨f1, f2⟩ := freshFrom_cons hf
    simp only [List.length_cons, Nat.add_mul, Nat.one_mul]
    rcases List.mem_append.1 hv with hv | hv
    · have := ih v hv hpr k hk f1
      omega
    · obtain ⟨u, hu, rfl⟩ := mem_behind hv
      obtain ⟨g0, g1, g2⟩ := gave hpr h
      have hps : ∀ x ∈ rs, Part E.refs x := fun x hx => hp x (by simp [hx])
      rw [List.length_append]
      by_cases hn : n = 0
      · subst hn
        have := ih' u hu hps k hk (f2 ⟨_, _, _, _, _, h⟩)
        rw [adv_len] at this
        simp only [Nat.mul_zero, Nat.sub_zero] at *
        omega
      · have h1 := ih' u hu hps M (Nat.le_refl _)
          (fun pre c post e _ => hM _ (hps c (by rw [e]; simp)))
        rw [adv_len] at h1
        have h2 := B.top_step k hn g0
        have := g2 hn
        omega
  | rep h ih =>
    intro v hv hp k hk hh
    have := down hh .repeat_ (ih v hv (part_child hp .repeat_) (hl _ hp)) hk
    omega
  | rep_stop h ha ih =>
    intro v hv hp hne k hk hh
    exact ih v hv hp k hk hh
  | @rep_more r p i n ts j tr a b h ha hb ih ih' =>
    intro v hv hp hne k hk hh
    rcases List.mem_append.1 hv with hv | hv
    · exact ih v hv hp k hk hh
    · obtain ⟨u, hu, rfl⟩ := mem_behind hv
      obtain ⟨g0, g1, g2⟩ := gave hp h
      have hn : n ≠ 0 := fun h0 => hne ⟨_, _, _, _, _, h0 ▸ h⟩
      have h1 := ih' u hu hp hne M (Nat.le_refl _) (hM _ hp)
      rw [adv_len] at h1
      have h2 := B.top_step k hn g0
      have := g2 hn
      rw [List.length_append]
      omega
  | sep_none h ha ih =>
    intro v hv hp k hk hh
    have := down hh .item (ih v hv (part_child hp .item)) hk
    omega
  | @sep_first r b opt trail id p i n ts j tr a c h ha hc ih ih' =>
    intro v hv hp k hk hh
    have hpr := part_child hp .item
    have hpb := part_child hp .sep
    have hne : ¬ (CanBeEmpty E r ∧ CanBeEmpty E b) := hl _ hp
    rcases List.mem_append.1 hv with hv | hv
    · have := down hh .item (ih v hv hpr) hk
      omega
    · obtain ⟨u, hu, rfl⟩ := mem_behind hv
      obtain ⟨g0, g1, g2⟩ := gave hpr h
      obtain ⟨h1, h2⟩ := ih' u hu hpr hpb hne
      rw [adv_len] at h1 h2
      rw [List.length_append]
      by_cases hn : n = 0
      · subst hn
        have hre : CanBeEmpty E r := ⟨_, _, _, _, _, h⟩
        obtain ⟨k', rfl, hh'⟩ := ht_pred hh (.sep hre)
        have h3 := h2 k' (by omega) hh' fun hb => hne ⟨hre, hb⟩
        have h4 := B.top_up p.src.length k'
        simp only [Nat.mul_zero, Nat.sub_zero] at *
        omega
      · have h2 := B.top_step k hn g0
        have := g2 hn
        omega
  | sep_stop h ha ih =>
    intro v hv hpr hpb hne
    have h1 := ih v hv hpb
    refine ⟨?_, fun k hk hh _ => ?_⟩
    · have := h1 M (Nat.le_refl _) (hM _ hpb)
      omega
    · have := h1 k hk hh
      omega
  | @sep_last r b trail p i m us j tr k tr' a c h ha h' hc ih ih' =>
    intro v hv hpr hpb hne
    rcases List.mem_append.1 hv with hv | hv
    · have h1 := ih v hv hpb
      refine ⟨?_, fun k hk hh _ => ?_⟩
      · have := h1 M (Nat.le_refl _) (hM _ hpb)
        omega
      · have := h1 k hk hh
        omega
    · obtain ⟨u, hu, rfl⟩ := mem_behind hv
      obtain ⟨g0, g1, g2⟩ := gave hpb h
      have h1 := ih' u hu hpr M (Nat.le_refl _) (hM _ hpr)
      rw [adv_len] at h1
      rw [List.length_append]
      refine ⟨?_, fun k hk hh hb => ?_⟩
      · by_cases hm : m = 0
        · subst hm
          simp only [Nat.mul_zero, Nat.sub_zero] at *
          omega
        · have := B.top_step M hm g0
          have := g2 hm
          omega
      · have hm : m ≠ 0 := fun h0 => hb ⟨_, _, _, _, _, h0 ▸ h⟩
        have := B.top_step k hm g0
        have := g2 hm
        omega
  | @sep_more r b trail p i m us j tr n ts k tr' a c d h ha h' hc hd ih ih' ih'' =>
    intro v hv hpr hpb hne
    rcases List.mem_append.1 hv with hv | hv
    · have h1 := ih v hv hpb
      refine ⟨?_, fun k hk hh _ => ?_⟩
      · have := h1 M (Nat.le_refl _) (hM _ hpb)
        omega
      · have := h1 k hk hh
        omega
    · obtain ⟨u, hu, rfl⟩ := mem_behind hv
      obtain ⟨g0, g1, g2⟩ := gave hpb h
      obtain ⟨f0, f1, f2⟩ := gave hpr h'
      rw [adv_len] at f0
      rw [List.length_append]
      rcases List.mem_append.1 hu with hu | hu
      · have h1 := ih' u hu hpr M (Nat.le_refl _) (hM _ hpr)
        rw [adv_len] at h1
        refine ⟨?_, fun k hk hh hb => ?_⟩
        · by_cases hm : m = 0
          · subst hm
            simp only [Nat.mul_zero, Nat.sub_zero] at *
            omega
          · have := B.top_step M hm g0
            have := g2 hm
            omega
        · have hm : m ≠ 0 := fun h0 => hb ⟨_, _, _, _, _, h0 ▸ h⟩
          have := B.top_step k hm g0
          have := g2 hm
          omega
      · obtain ⟨w, hw, rfl⟩ := mem_behind hu
        have h1 := (ih'' w hw hpr hpb hne).1
        rw [adv_len] at h1
        rw [List.length_append]
        have hmn : m ≠ 0 ∨ n ≠ 0 := by
          by_cases hm : m = 0
          · right
            intro hn
            exact hne ⟨⟨_, _, _, _, _, hn ▸ h'⟩, ⟨_, _, _, _, _, hm ▸ h⟩⟩
          · exact .inl hm
        have hsum : us.length + ts.length ≤ B.K * (m + n) := by
          rw [Nat.mul_add]
          rcases hmn with hm | hn
          · have := g2 hm; omega
          · have := f2 hn; omega
        refine ⟨?_, fun k hk hh hb => ?_⟩
        · have := B.top_step (k := p.src.length) (n := m + n) M (by omega) (by omega)
          omega
        · have := B.top_step (k := p.src.length) (n := m + n) k (by omega) (by omega)
          omega
  | lines h ih =>
    intro v hv hp k hk hh
    obtain ⟨k', rfl, hh'⟩ := ht_pred hh .lines
    have h1 := (ih v hv (part_child hp .lines)).2.2 k' (by omega) hh'
    rename_i p _ _
    have h2 := B.top_up p.src.length k'
    omega
  | @lines_stop r ind id first item p i k j tr a h h' ha ih =>
    intro v hv hp
    have h1 := ih v hv hp
    have hm := h1 M (Nat.le_refl _) (hM _ hp)
    rw [adv_len] at h1 hm
    refine ⟨?_, fun hf hi => ?_, fun h hh ht => ?_⟩
    · have := mk (k := p.src.length - k) (k' := p.src.length) (h := M) (by omega)
      omega
    · have hk : k ≠ 0 := by
        rintro rfl
        have := (hL.line_call h).2.2.2.2 hf
        simp [hi] at this
      have := B.top_step (k := p.src.length) (n := k) 0 hk (hL.line_call h).1
      omega
    · have := mk (k := p.src.length - k) (k' := p.src.length) (h := h) (by omega)
      have := h1 h hh ht
      omega
  | @lines_more r ind id first item p i k n ts j tr a b h h' ha hb ih ih' =>
    intro v hv hp
    have hkl := (hL.line_call h).1
    have hpos : first = false → item = [] → k ≠ 0 := by
      rintro hf hi rfl
      have := (hL.line_call h).2.2.2.2 hf
      simp [hi] at this
    rcases List.mem_append.1 hv with hv | hv
    · have h1 := ih v hv hp
      have hm := h1 M (Nat.le_refl _) (hM _ hp)
      rw [adv_len] at h1 hm
      refine ⟨?_, fun hf hi => ?_, fun h hh ht => ?_⟩
      · have := mk (k := p.src.length - k) (k' := p.src.length) (h := M) (by omega)
        omega
      · have := B.top_step (k := p.src.length) (n := k) 0 (hpos hf hi) hkl
        omega
      · have := mk (k := p.src.length - k) (k' := p.src.length) (h := h) (by omega)
        have := h1 h hh ht
        omega
    · obtain ⟨u, hu, rfl⟩ := mem_behind hv
      have gl := (run_sized B hL hM hW hl h' _ _ rfl hp M (Nat.le_refl _) (hM _ hp)).any B (Nat.le_refl _)
      have hnl := run_some_le hL h'
      rw [adv_len] at hnl
      obtain ⟨h1, h2, -⟩ := ih' u hu hp
      rw [adv_len] at h1 h2
      rw [List.length_append]
      by_cases hkn : k + n = 0
      · have hk : k = 0 := by omega
        have hn : n = 0 := by omega
        subst hk hn
        have h3 := h2 rfl (by simp)
        have h4 := gl.2.1 rfl
        simp only [Nat.add_zero, Nat.sub_zero] at *
        refine ⟨?_, fun hf hi => absurd rfl (hpos hf hi), fun h hh ht => ?_⟩
        · have := mz (k := p.src.length) (h := M); omega
        · have := mz (k := p.src.length) (h := h); omega
      · have hsum : ts.length ≤ B.K * (k + n) := by
          rw [Nat.mul_add]
          by_cases hn : n = 0
          · have := gl.2.1 hn
            have : B.K ≤ B.K * k := Nat.le_mul_of_pos_right _ (by omega)
            omega
          · have := gl.2.2 hn; omega
        have st := fun h => B.top_step (k := p.src.length) (n := k + n) h hkn (by omega)
        refine ⟨?_, fun _ _ => ?_, fun h hh ht => ?_⟩
        · have := st M; omega
        · have := st 0; omega
        · have := st h; omega
  | line_plain h ih => exact ih
  | @line_body r first p i k a ha h hd h' ih =>
    intro v hv hp h hh ht
    have h1 := ih v hv hp h hh ht
    rw [adv_len] at h1
    have := mk (k := p.src.length - k) (k' := p.src.length) (h := h) (by omega)
    omega
  | @line_align r p i k m a ha h hm h' ih =>
    intro v hv hp h hh ht
    have h1 := ih v hv hp h hh ht
    rw [adv_len] at h1
    have := mk (k := p.src.length - (k + m)) (k' := p.src.length) (h := h) (by omega)
    omega
  | node_plain hr ha ih =>
    intro v hv hp k hk hh
    have := down hh (.node hr) (ih v hv (part_ref hr)) hk
    omega
  | @node_fail name x ix id p i r j tr a hr h ha ih =>
    intro v hv hp k hk hh
    obtain ⟨u, hu, rfl⟩ := mem_behind hv
    simp only [List.length_append, List.length_singleton]
    rcases List.mem_cons.1 hu with rfl | hu
    · have := B.top_big (k := p.src.length) (n := 0) (h := k) (by omega)
      simp only [List.length_nil]
      omega
    · have := down hh (.node hr) (ih u hu (part_ref hr)) hk
      omega
  | @node_ok name x ix id p i r n ts j tr a hr h ha ih =>
    intro v hv hp k hk hh
    obtain ⟨u, hu, rfl⟩ := mem_behind hv
    simp only [List.length_append, List.length_singleton]
    rw [List.cons_append] at hu
    rcases List.mem_cons.1 hu with rfl | hu
    · have := B.top_big (k := p.src.length) (n := 0) (h := k) (by omega)
      simp only [List.length_nil]
      omega
    · rcases List.mem_append.1 hu with hu | hu
      · have := down hh (.node hr) (ih u hu (part_ref hr)) hk
        omega
      · obtain ⟨w, hw, rfl⟩ := mem_behind hu
        rw [List.mem_singleton] at hw
        subst hw
        obtain ⟨g0, g1, g2⟩ := gave (part_ref hr) h
        have := B.top_big (k := p.src.length) (h := k) g0
        simp only [List.length_append, List.length_singleton]
        omega
  | optional h ih =>
    intro v hv hp k hk hh
    have := down hh .optional (ih v hv (part_child hp .optional)) hk
    omega
  | not h ih =>
    intro v hv hp k hk hh
    have := down hh .not (ih v hv (part_child hp .not)) hk
    omega

end Verif
