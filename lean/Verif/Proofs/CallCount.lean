import Verif.Spec.Cost
import Verif.Proofs.CallDepth
/-
How many calls a call makes: at most as many at each place as the rule has parts.
-/
namespace Verif
open Spec

/-- `a 0 + … + a (n - 1)`. -/
def upTo (a : Nat → Nat) : Nat → Nat
  | 0 => 0
  | n + 1 => upTo a n + a n

theorem upTo_mono {a : Nat → Nat} {m n : Nat} (h : m ≤ n) : upTo a m ≤ upTo a n := by
  induction h with
  | refl => exact Nat.le_refl _
  | step _ ih => exact Nat.le_trans ih (Nat.le_add_right _ _)

theorem le_upTo {a : Nat → Nat} {m n : Nat} (h : m < n) : upTo a m + a m ≤ upTo a n := upTo_mono (m := m + 1) h

theorem sum_le_length {l : List Nat} {b : Nat} (h : ∀ x ∈ l, x ≤ b) : l.sum ≤ l.length * b := by
  induction l with
  | nil => simp
  | cons a l ih =>
    have h1 := h a (by simp)
    have h2 := ih fun x hx => h x (by simp [hx])
    simp only [List.sum_cons, List.length_cons, Nat.add_mul]
    omega

section
variable {E : Env} (hL : E.L.Lawful) {ev : Ev} (hev : EvSound E ev)

theorem selectCalls_length {s p} : ∀ (rs : List Rule) (st : St), (selectCalls ev s p rs st).length ≤ rs.length
  | [], _ => Nat.le_refl _
  | r :: rs, st => by
    simp only [selectCalls, List.length_cons]
    split
    · exact Nat.succ_le_succ (selectCalls_length rs _)
    · simp

theorem fastCalls_length {tb args tail st s p} : (fastSelectCalls ev tb args tail st s p).length ≤ 2 := by
  have hlast : ∀ st, (if tail = true then
        match args.getLast? with
        | none => []
        | some sub => [(⟨sub, st, s, p⟩ : Call)]
      else []).length ≤ 1 := by
    intro st
    split
    · split <;> simp
    · simp
  unfold fastSelectCalls
  split
  · simp
  · simp only
    split
    · split
      · simp
      · simp only [List.length_cons]
        split
        · exact Nat.succ_le_succ (hlast _)
        · simp
    · exact Nat.le_trans (hlast st) (by omega)

theorem sequenceCalls_length : ∀ (rs : List Rule) (p : Pos) (s : Nat) (st : St),
    (sequenceCalls ev rs p s st).length ≤ rs.length
  | [], _, _, _ => Nat.le_refl _
  | r :: rs, p, s, st => by
    simp only [sequenceCalls, List.length_cons]
    split
    · exact Nat.succ_le_succ (sequenceCalls_length rs _ _ _)
    · simp

variable {g : Call → Nat} {a : Nat → Nat}

include hL hev in
theorem repeatCalls_sum {r : Rule} (hr : ¬ CanBeEmpty E r) : ∀ {fuel : Nat} {p s st}, Call.Fine E ⟨default, st, s, p⟩ →
    (∀ c ∈ repeatCalls ev r fuel p s st, g c ≤ a c.p.src.length) →
    ((repeatCalls ev r fuel p s st).map g).sum ≤ upTo a (p.src.length + 1)
  | 0, _, _, _, _, _ => by simp [repeatCalls]
  | fuel + 1, p, s, st, hf, h => by
    simp only [repeatCalls, List.mem_cons, List.map_cons, List.sum_cons] at h ⊢
    have h0 := h _ (.inl rfl)
    have hu : upTo a (p.src.length + 1) = upTo a p.src.length + a p.src.length := rfl
    simp only at h0
    cases ho : ev r st s p with
    | timeout => simp; omega
    | panic => simp; omega
    | ret x st' =>
      cases x with
      | err e => simp; omega
      | ok range s' e =>
        obtain ⟨h1, h2, h3, h4⟩ := ev_ok hL hev (c := ⟨r, st, s, p⟩) hf ho
        have h5 : range.length ≠ 0 := fun h => hr (h4 h)
        rw [ho] at h
        simp only at h h3 ⊢
        have h6 := repeatCalls_sum hr (fuel := fuel) (p := p.consume range.length) (s := s') (st := st') ⟨h1, h2⟩
          (fun c hc => h c (.inr hc))
        have h7 : (p.consume range.length).src.length + 1 ≤ p.src.length := by
          simp only [consume_eq, adv_src, List.length_drop]; omega
        have h8 := upTo_mono (a := a) h7
        omega

include hL hev in
/-- The separator always reads something. -/
theorem separateByCalls_sum {r b : Rule} (hb : ¬ CanBeEmpty E b) : ∀ {fuel : Nat} {p s st},
    Call.Fine E ⟨default, st, s, p⟩ → (∀ c ∈ separateByCalls ev r b fuel p s st, g c ≤ a c.p.src.length) →
    ((separateByCalls ev r b fuel p s st).map g).sum ≤ 2 * upTo a (p.src.length + 1)
  | 0, _, _, _, _, _ => by simp [separateByCalls]
  | fuel + 1, p, s, st, hf, h => by
    simp only [separateByCalls, List.mem_cons, List.map_cons, List.sum_cons] at h ⊢
    have h0 := h _ (.inl rfl)
    have hu : upTo a (p.src.length + 1) = upTo a p.src.length + a p.src.length := rfl
    simp only at h0
    cases ho : ev r st s p with
    | timeout => simp; omega
    | panic => simp; omega
    | ret x st' =>
      cases x with
      | err e => simp; omega
      | ok range s' e =>
        obtain ⟨h1, h2, h3, -⟩ := ev_ok hL hev (c := ⟨r, st, s, p⟩) hf ho
        rw [ho] at h
        simp only [consume_eq, List.mem_cons, List.map_cons, List.sum_cons] at h h3 ⊢
        have h4 := h _ (.inr (.inl rfl))
        simp only at h4
        have h5 : (adv p range.length).src.length ≤ p.src.length := by simp only [adv_src, List.length_drop]; omega
        have h6 := le_upTo (a := a) (Nat.lt_succ_of_le h5)
        simp only [Nat.succ_eq_add_one] at h6
        cases ho2 : ev b st' s' (adv p range.length) with
        | timeout => simp; omega
        | panic => simp; omega
        | ret x2 st2 =>
          cases x2 with
          | err e2 => simp; omega
          | ok range2 s2 e2 =>
            obtain ⟨h7, h8, h9, h10⟩ := ev_ok hL hev (c := ⟨b, st', s', adv p range.length⟩) ⟨h1, h2⟩ ho2
            have h11 : range2.length ≠ 0 := fun h => hb (h10 h)
            rw [ho2] at h
            simp only at h h9 ⊢
            have h12 := separateByCalls_sum hb (fuel := fuel) (p := adv (adv p range.length) range2.length) (s := s2)
              (st := st2) ⟨h7, h8⟩ (fun c hc => h c (.inr (.inr hc)))
            have h13 : (adv (adv p range.length) range2.length).src.length + 1 ≤ (adv p range.length).src.length := by
              rw [adv_src, List.length_drop]; omega
            have h14 := upTo_mono (a := a) h13
            have h15 := upTo_mono (a := a) h5
            omega

include hL hev in
/-- What is separated always reads something. -/
theorem separateByCalls_sum' {r b : Rule} (hr : ¬ CanBeEmpty E r) : ∀ {fuel : Nat} {p s st},
    Call.Fine E ⟨default, st, s, p⟩ → (∀ c ∈ separateByCalls ev r b fuel p s st, g c ≤ a c.p.src.length) →
    ((separateByCalls ev r b fuel p s st).map g).sum ≤ upTo a (p.src.length + 1) + upTo a p.src.length
  | 0, _, _, _, _, _ => by simp [separateByCalls]
  | fuel + 1, p, s, st, hf, h => by
    simp only [separateByCalls, List.mem_cons, List.map_cons, List.sum_cons] at h ⊢
    have h0 := h _ (.inl rfl)
    have hu : upTo a (p.src.length + 1) = upTo a p.src.length + a p.src.length := rfl
    simp only at h0
    cases ho : ev r st s p with
    | timeout => simp; omega
    | panic => simp; omega
    | ret x st' =>
      cases x with
      | err e => simp; omega
      | ok range s' e =>
        obtain ⟨h1, h2, h3, hn⟩ := ev_ok hL hev (c := ⟨r, st, s, p⟩) hf ho
        have hn : range.length ≠ 0 := fun h => hr (hn h)
        rw [ho] at h
        simp only [consume_eq, List.mem_cons, List.map_cons, List.sum_cons] at h h3 ⊢
        have h4 := h _ (.inr (.inl rfl))
        simp only at h4
        have h5 : (adv p range.length).src.length < p.src.length := by simp only [adv_src, List.length_drop]; omega
        have h6 := le_upTo (a := a) h5
        cases ho2 : ev b st' s' (adv p range.length) with
        | timeout => simp; omega
        | panic => simp; omega
        | ret x2 st2 =>
          cases x2 with
          | err e2 => simp; omega
          | ok range2 s2 e2 =>
            obtain ⟨h7, h8, h9, -⟩ := ev_ok hL hev (c := ⟨b, st', s', adv p range.length⟩) ⟨h1, h2⟩ ho2
            rw [ho2] at h
            simp only at h h9 ⊢
            have h12 := separateByCalls_sum' hr (fuel := fuel) (p := adv (adv p range.length) range2.length) (s := s2)
              (st := st2) ⟨h7, h8⟩ (fun c hc => h c (.inr (.inr hc)))
            have h13 : (adv (adv p range.length) range2.length).src.length ≤ (adv p range.length).src.length := by
              rw [adv_src, List.length_drop]; omega
            have h14 := upTo_mono (a := a) h13
            have h15 := upTo_mono (a := a) (Nat.le_trans (Nat.succ_le_succ h13) h5)
            simp only [Nat.succ_eq_add_one] at h15
            omega

theorem lineItemCalls_sum (ha : ∀ i j : Nat, i ≤ j → a i ≤ a j) {r : Rule} {x : LineSt} {p : Pos} {K : Nat}
    (hp : p.src.length ≤ K) (h : ∀ c ∈ lineItemCalls r x p, g c ≤ a c.p.src.length) :
    ((lineItemCalls r x p).map g).sum ≤ a K := by
  unfold lineItemCalls at h ⊢
  simp only at h ⊢
  split
  · simp
  · rename_i hn
    rw [if_neg hn] at h
    have h0 := h _ (List.mem_singleton.2 rfl)
    simp only at h0
    have := ha _ _ hp
    simp only [List.map_cons, List.map_nil, List.sum_cons, List.sum_nil]
    omega

theorem lineCalls_sum (ha : ∀ i j : Nat, i ≤ j → a i ≤ a j) {r : Rule} {indent : Bool} {x : LineSt} {p : Pos}
    (h : ∀ c ∈ (if indent then lineClosureIndentCalls r else lineClosureCalls r) x p, g c ≤ a c.p.src.length) :
    (((if indent then lineClosureIndentCalls r else lineClosureCalls r) x p).map g).sum ≤ a p.src.length := by
  cases indent with
  | false =>
    simp only [Bool.false_eq_true, if_false, lineClosureCalls, List.mem_singleton] at h ⊢
    have h0 := h _ rfl
    simpa using h0
  | true =>
    simp only [if_true, lineClosureIndentCalls] at h ⊢
    generalize eatIndent x.st.ind.tabSpaces p.src x.st.ind.indent = o at h ⊢
    cases o with
    | none => simp
    | some k =>
      simp only at h ⊢
      split
      · rename_i hc
        rw [if_pos hc] at h
        split
        · simp
        · rename_i hn
          rw [if_neg hn] at h
          exact lineItemCalls_sum ha (by simp only [consume_eq, adv_src, List.length_drop]; omega) h
      · rename_i hc
        rw [if_neg hc] at h
        generalize (p.consume k).tag [' '] = o at h ⊢
        cases o with
        | some _ => simp
        | none => exact lineItemCalls_sum ha (by simp only [consume_eq, adv_src, List.length_drop]; omega) h

include hL hev in
theorem linesCalls_sum (ha : ∀ i j : Nat, i ≤ j → a i ≤ a j) {r : Rule} {indent : Bool} :
    ∀ {fuel : Nat} {first item p x}, Call.Fine E ⟨default, x.st, x.s, p⟩ →
      (indent = true → E.align = true → x.first = first) →
      (∀ c ∈ linesCalls E.L (if indent then lineClosureIndent ev r else lineClosure ev r)
        (if indent then lineClosureIndentCalls r else lineClosureCalls r) fuel first item p x, g c ≤ a c.p.src.length) →
      ((linesCalls E.L (if indent then lineClosureIndent ev r else lineClosure ev r)
        (if indent then lineClosureIndentCalls r else lineClosureCalls r) fuel first item p x).map g).sum ≤
          upTo a (item.length + p.src.length + if first then 1 else 0)
  | 0, _, _, _, _, _, _, _ => by simp [linesCalls]
  | fuel + 1, first, item, p, x, hf, hfl, h => by
    simp only [linesCalls] at h ⊢
    cases hk : E.L.lineNext first item p.src with
    | done _ => simp
    | fail _ => simp
    | call k =>
      rw [hk] at h
      obtain ⟨hk1, -, -, -, hk2⟩ := hL.line_call hk
      have hlen : (adv p k).src.length + 1 ≤ item.length + p.src.length + if first then 1 else 0 := by
        simp only [adv_src, List.length_drop]
        cases first with
        | true => simp only [if_true]; omega
        | false =>
          have h3 : (item ++ p.src.take k).length ≠ 0 := by
            intro h0
            have := hk2 rfl
            rw [List.length_eq_zero_iff.1 h0] at this
            simp at this
          simp only [List.length_append, List.length_take] at h3
          simp only [Bool.false_eq_true, if_false]
          omega
      simp only [consume_eq, List.mem_append, List.map_append, List.sum_append] at h ⊢
      have h1 := lineCalls_sum (indent := indent) (r := r) ha (fun c hc => h c (.inl hc))
      have h2 := le_upTo (a := a) (Nat.lt_of_succ_le hlen)
      generalize hcl : (if indent then lineClosureIndent ev r else lineClosure ev r) x (adv p k) = out at h ⊢
      cases out with
      | timeout => simp; omega
      | panic => simp; omega
      | ret o x' =>
        cases o with
        | none => simp; omega
        | some range =>
          obtain ⟨⟨i, hi⟩, hs⟩ := hf
          simp only at hi hs
          have hgood : GoodLine E r indent first (adv p k) i x.st.toks x.s x.oe
              ((if indent then lineClosureIndent ev r else lineClosure ev r) x (adv p k)) := by
            obtain ⟨s, oe, fl, toks, ind⟩ := x
            simp only at hi hs hfl
            subst hi
            cases indent with
            | false => exact lineClosure_good hev _ _ _ _ _ _ _ _ hs
            | true => exact lineClosureIndent_good hev _ _ _ _ _ _ _ _ hs (hfl rfl)
          rw [hcl] at hgood
          obtain ⟨n, ts, j, tr, hrun, hlen', hs', -, hind, -, hfirst⟩ := hgood
          have h3 := linesCalls_sum (indent := indent) (r := r) ha (fuel := fuel) (first := false)
            (item := (adv p k).src.take range.length) (p := adv (adv p k) range.length) (x := x') ⟨⟨j, hind⟩, hs'⟩ hfirst
            (fun c hc => h c (.inr hc))
          have h4 : ((adv p k).src.take range.length).length + (adv (adv p k) range.length).src.length +
              (if false = true then 1 else 0) = (adv p k).src.length := by
            rw [adv_src (adv p k), List.length_drop, List.length_take]
            simp only [Bool.false_eq_true, if_false]
            omega
          rw [h4] at h3
          simp only
          omega

/-- How many calls there may be at the same place, or two. -/
def width : Rule → Nat
  | .select args _ => args.length
  | .sequence args _ => args.length
  | _ => 2

include hL hev in
theorem subcalls_sum (ha : ∀ i j : Nat, i ≤ j → a i ≤ a j) {fuel : Nat} {c : Call} (hf : c.Fine E) (hl : LoopOk E c.rule)
    (h : ∀ c' ∈ subcalls E.L E.refs ev fuel c, g c' ≤ a c'.p.src.length) :
    ((subcalls E.L E.refs ev fuel c).map g).sum ≤ width c.rule * upTo a (c.p.src.length + 1) := by
  have hu : a c.p.src.length ≤ upTo a (c.p.src.length + 1) := Nat.le_add_left _ _
  have hmany : ∀ w, (subcalls E.L E.refs ev fuel c).length ≤ w →
      ((subcalls E.L E.refs ev fuel c).map g).sum ≤ w * upTo a (c.p.src.length + 1) := by
    intro w hw
    refine Nat.le_trans (sum_le_length (b := a c.p.src.length) ?_) ?_
    · intro x hx
      obtain ⟨c', hc', rfl⟩ := List.mem_map.1 hx
      have hn := subcalls_near hL hev hf hc'
      exact Nat.le_trans (h c' hc') (ha _ _ (by rcases hn.2 with hn | hn <;> omega))
    · rw [List.length_map]
      exact Nat.mul_le_mul hw hu
  obtain ⟨r, st, s, p⟩ := c
  cases r with
  | whitespace => exact hmany _ (by simp [subcalls])
  | tag => exact hmany _ (by simp [subcalls])
  | untilAny => exact hmany _ (by simp [subcalls])
  | untilAnyOrWs => exact hmany _ (by simp [subcalls])
  | text => exact hmany _ (by simp [subcalls])
  | number => exact hmany _ (by simp [subcalls])
  | optional => exact hmany _ (by simp [subcalls, width])
  | not => exact hmany _ (by simp [subcalls, width])
  | node name prop ix id =>
    refine hmany _ ?_
    simp only [subcalls, nodeCalls, width]
    split
    · simp
    · split <;> simp
  | select args id => exact hmany _ (selectCalls_length _ _)
  | fastSelect => exact hmany _ fastCalls_length
  | sequence args id => exact hmany _ (sequenceCalls_length _ _ _ _)
  | repeat_ r o id =>
    have := repeatCalls_sum hL hev (g := g) (a := a) hl (fuel := fuel) hf h
    simp only [subcalls, width] at this ⊢
    omega
  | separateBy r b o t id =>
    simp only [subcalls, width]
    by_cases hb : CanBeEmpty E b
    · have h1 := separateByCalls_sum' hL hev (g := g) (a := a) (fun hr => hl ⟨hr, hb⟩) (fuel := fuel) hf h
      have h2 := upTo_mono (a := a) (Nat.le_succ p.src.length)
      simp only [Nat.succ_eq_add_one] at h1 h2 ⊢
      omega
    · exact separateByCalls_sum hL hev (g := g) (a := a) hb (fuel := fuel) hf h
  | lines r ind id =>
    have := linesCalls_sum hL hev (g := g) ha (indent := ind) (x := ⟨s, none, true, st⟩) (item := []) (first := true)
      (fuel := fuel) hf (fun _ _ => rfl) h
    simp only [List.length_nil, if_true, Nat.zero_add] at this
    simp only [subcalls, width]
    omega

end

/-- A geometric sum. -/
theorem upTo_pow {B m : Nat} (hB : 2 ≤ B) (hm : 1 ≤ m) {a : Nat → Nat} : ∀ K, (∀ k < K, a k = B ^ (m * (k + 1))) →
    upTo a K ≤ 2 * B ^ (m * K)
  | 0, _ => by simp [upTo]
  | K + 1, h => by
    have h1 := upTo_pow hB hm K fun k hk => h k (by omega)
    have h2 := h K (by omega)
    have h3 : B ^ (m * K) * 2 ≤ B ^ (m * (K + 1)) := by
      rw [Nat.mul_add, Nat.mul_one, Nat.pow_add]
      refine Nat.mul_le_mul_left _ ?_
      calc 2 ≤ B := hB
        _ = B ^ 1 := (Nat.pow_one B).symm
        _ ≤ B ^ m := Nat.pow_le_pow_right (by omega) hm
    simp only [upTo, h2]
    omega

/-- A constant factor for each rule of the syntax and each character. -/
theorem callCount_le {E : Env} (hL : E.L.Lawful) {M W : Nat} (hM : ∀ r, Part E.refs r → Ht (Calls E) M r)
    (hW : ∀ r, Part E.refs r → width r ≤ W) (hl : ∀ r, Part E.refs r → LoopOk E r) : ∀ (n h : Nat) (c : Call), c.Fine E →
    Part E.refs c.rule → Ht (Calls E) h c.rule →
    callCount E.L E.refs n c ≤ (3 * W + 2) ^ ((M + 1) * c.p.src.length + h + 1) := by
  intro n
  induction n with
  | zero => intro h c _ _ _; simp [callCount]
  | succ n ih =>
    intro h c hf hp hh
    simp only [callCount]
    generalize hB : 3 * W + 2 = B at ih ⊢
    have hB2 : 2 ≤ B := by omega
    generalize hK : c.p.src.length = K
    have hbase : ∀ {i j : Nat}, i ≤ j → B ^ i ≤ B ^ j := fun h => Nat.pow_le_pow_right (by omega) h
    let a : Nat → Nat := fun k => if k < K then B ^ ((M + 1) * (k + 1)) else B ^ ((M + 1) * K + h)
    have ha : ∀ i j : Nat, i ≤ j → a i ≤ a j := by
      intro i j hij
      simp only [a]
      split
      · split
        · exact hbase (Nat.mul_le_mul_left _ (by omega))
        · refine hbase (Nat.le_trans (Nat.mul_le_mul_left _ (m := K) ?_) (Nat.le_add_right _ _))
          omega
      · rw [if_neg (by omega)]
        exact Nat.le_refl _
    have hg : ∀ c' ∈ subcalls E.L E.refs (eval E.L E.refs n) n c, callCount E.L E.refs n c' ≤ a c'.p.src.length := by
      intro c' hc'
      have hfar : c'.Fine E → c'.p.src.length < K → Part E.refs c'.rule → callCount E.L E.refs n c' ≤ a c'.p.src.length := by
        intro hf' hlt hp'
        have h1 := ih M c' hf' hp' (hM _ hp')
        simp only [a, if_pos hlt]
        refine Nat.le_trans h1 (hbase ?_)
        rw [Nat.mul_add]
        omega
      obtain ⟨hf', hc' | hc'⟩ := subcalls_near hL (eval_sound E n) hf hc'
      · obtain ⟨q, hq, ho⟩ := hp
        exact hfar hf' (hK ▸ hc'.1) ⟨q, hq, Occurs.trans (.step .refl hc'.2) ho⟩
      · have hp' := calls_part hc'.2 hp
        by_cases hlt : c'.p.src.length < K
        · exact hfar hf' hlt hp'
        · cases h with
          | zero => exact absurd hc'.2 (hh _)
          | succ h =>
            have h1 := ih h c' hf' hp' (hh _ hc'.2)
            simp only [a, if_neg hlt]
            refine Nat.le_trans h1 (hbase ?_)
            have h2 : c'.p.src.length = K := by omega
            rw [h2]
            omega
    have hsum := subcalls_sum hL (eval_sound E n) ha hf (hl _ hp) hg
    rw [hK] at hsum
    have hup : upTo a (K + 1) ≤ 3 * B ^ ((M + 1) * K + h) := by
      have h1 := upTo_pow hB2 (m := M + 1) (by omega) (a := a) K (fun k hk => by simp only [a, if_pos hk])
      have h2 : B ^ ((M + 1) * K) ≤ B ^ ((M + 1) * K + h) := hbase (Nat.le_add_right _ _)
      have h3 : a K = B ^ ((M + 1) * K + h) := by simp [a]
      simp only [upTo, h3]
      omega
    have hw := hW _ hp
    have hone : 1 ≤ B ^ ((M + 1) * K + h) := Nat.one_le_pow _ _ (by omega)
    rw [Nat.pow_succ]
    generalize B ^ ((M + 1) * K + h) = P at hup hone ⊢
    calc 1 + _ ≤ 1 + width c.rule * upTo a (K + 1) := Nat.add_le_add_left hsum 1
      _ ≤ 1 + W * (3 * P) := Nat.add_le_add_left (Nat.mul_le_mul hw hup) 1
      _ ≤ P * B := by
        rw [← hB, Nat.mul_add, ← Nat.mul_assoc, Nat.mul_comm (W * 3) P, Nat.mul_comm W 3]
        omega

theorem upTo_one : ∀ K, upTo (fun _ => 1) K = K
  | 0 => rfl
  | K + 1 => by simp [upTo, upTo_one K]

theorem leads_part {refs : List Rule} {c r : Rule} (h : Leads refs c r) (hr : Part refs r) : Part refs c := by
  cases h with
  | child h =>
    obtain ⟨q, hq, ho⟩ := hr
    exact ⟨q, hq, Occurs.trans (.step .refl h) ho⟩
  | node h => exact ⟨c, List.mem_of_getElem? h, .refl⟩

theorem calls_leads {E : Env} {c r : Rule} (h : Calls E c r) : Leads E.refs c r := by
  cases h with
  | select h => exact .child (.select h)
  | fast h => exact .child (.fast h)
  | sequence _ => exact .child (.sequence (by simp))
  | item => exact .child .item
  | sep _ => exact .child .sep
  | repeat_ => exact .child .repeat_
  | lines => exact .child .lines
  | optional => exact .child .optional
  | not => exact .child .not
  | node h => exact .node h

theorem nonRecursive_ht {refs : List Rule} (h : NonRecursive refs) {r} (hr : Part refs r) :
    Ht (Leads refs) (Rule.partsL refs).length r := by
  have hpart : ∀ {x r}, Relation.TransGen (Leads refs) x r → Part refs r → Part refs x := by
    intro x r hx
    induction hx with
    | single h => exact leads_part h
    | tail _ h ih => exact fun hr => ih (leads_part h hr)
  have hlist : ∀ {x}, Part refs x → x ∈ Rule.partsL refs := by
    rintro x ⟨q, hq, hx⟩
    exact mem_partsL hq (mem_parts hx)
  classical
  refine ht_of_acyclic _ ((Rule.partsL refs).filter fun x => decide (Part refs x))
    (List.length_filter_le _ _) r ?_ ?_
  · intro x hx
    have := hpart hx hr
    rw [List.mem_filter]
    exact ⟨hlist this, by simpa using this⟩
  · intro x hx
    have := (List.mem_filter.1 hx).2
    exact h x (by simpa using this)

/-- Without recursion: as many calls as there are ways down. -/
theorem callCount_flat {E : Env} (hL : E.L.Lawful) {W N : Nat} (hW : ∀ r, Part E.refs r → width r ≤ W)
    (hl : ∀ r, Part E.refs r → LoopOk E r) : ∀ (n h : Nat) (c : Call), c.Fine E → c.p.src.length ≤ N →
    Part E.refs c.rule → Ht (Leads E.refs) h c.rule →
    callCount E.L E.refs n c ≤ (W * (N + 1) + 1) ^ (h + 1) ∧
      ∀ hd, Ht (Leads E.refs) hd c.rule → callDepth E.L E.refs n c ≤ hd + 1 := by
  intro n
  induction n with
  | zero => intro h c _ _ _ _; simp [callCount, callDepth]
  | succ n ih =>
    intro h c hf hN hp hh
    have hsub : ∀ c' ∈ subcalls E.L E.refs (eval E.L E.refs n) n c,
        c'.Fine E ∧ c'.p.src.length ≤ N ∧ Leads E.refs c'.rule c.rule := by
      intro c' hc'
      obtain ⟨hf', hc' | hc'⟩ := subcalls_near hL (eval_sound E n) hf hc'
      · exact ⟨hf', by omega, .child hc'.2⟩
      · exact ⟨hf', by omega, calls_leads hc'.2⟩
    constructor
    · simp only [callCount]
      cases h with
      | zero =>
        have : subcalls E.L E.refs (eval E.L E.refs n) n c = [] := by
          refine List.eq_nil_iff_forall_not_mem.2 fun c' hc' => ?_
          exact hh _ (hsub c' hc').2.2
        rw [this]
        simp
      | succ h =>
        have hlen := subcalls_sum (g := fun _ => 1) (a := fun _ => 1) (fuel := n) hL (eval_sound E n)
          (fun _ _ _ => Nat.le_refl _) hf (hl _ hp) (fun _ _ => Nat.le_refl _)
        rw [upTo_one] at hlen
        have hlen' : (subcalls E.L E.refs (eval E.L E.refs n) n c).length ≤ W * (N + 1) := by
          have h1 : ∀ l : List Call, (l.map fun _ => 1).sum = l.length := by
            intro l
            induction l with
            | nil => rfl
            | cons a l ih => simp [ih]; omega
          rw [h1] at hlen
          exact Nat.le_trans hlen (Nat.mul_le_mul (hW _ hp) (by omega))
        have hsum := sum_le_length (l := (subcalls E.L E.refs (eval E.L E.refs n) n c).map (callCount E.L E.refs n))
          (b := (W * (N + 1) + 1) ^ (h + 1)) (by
            intro x hx
            obtain ⟨c', hc', rfl⟩ := List.mem_map.1 hx
            obtain ⟨h1, h2, h3⟩ := hsub c' hc'
            exact (ih h c' h1 h2 (leads_part h3 hp) (hh _ h3)).1)
        rw [List.length_map] at hsum
        have hone : 1 ≤ (W * (N + 1) + 1) ^ (h + 1) := Nat.one_le_pow _ _ (by omega)
        have hmul := Nat.mul_le_mul_right ((W * (N + 1) + 1) ^ (h + 1)) hlen'
        rw [Nat.pow_succ _ (h + 1), Nat.mul_comm _ (W * (N + 1) + 1), Nat.add_mul (W * (N + 1)) 1]
        omega
    · intro hd hh'
      simp only [callDepth]
      rw [Nat.add_comm 1]
      refine Nat.succ_le_succ (foldr_max_le ?_)
      intro x hx
      obtain ⟨c', hc', rfl⟩ := List.mem_map.1 hx
      obtain ⟨h1, h2, h3⟩ := hsub c' hc'
      cases hd with
      | zero => exact absurd h3 (hh' _)
      | succ hd =>
        have h4 := hh' _ h3
        exact (ih hd c' h1 h2 (leads_part h3 hp) h4).2 hd h4

end Verif
