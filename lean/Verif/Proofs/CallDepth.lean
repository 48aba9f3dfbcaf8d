import Verif.Proofs.Calls
import Verif.Proofs.FuelBound
/-
Where the calls that a call makes are: further on, or at a rule that it leads to without reading.
-/
namespace Verif
open Spec

/-- The arguments of a call are in order. -/
def Call.Fine (E : Env) (c : Call) : Prop := (∃ i, c.st.ind = E.ind i) ∧ c.s ≤ c.st.toks.length

/-- `c'` is further on than `K` characters before the end, at a rule in `ch`, or not before that at a rule in `now`. -/
def Near (E : Env) (ch now : Rule → Prop) (K : Nat) (c : Call) : Prop :=
  c.Fine E ∧ (c.p.src.length < K ∧ ch c.rule ∨ c.p.src.length ≤ K ∧ now c.rule)

section
variable {E : Env} (hL : E.L.Lawful) {ev : Ev} (hev : EvSound E ev)

theorem fine_ind {c : Call} (h : c.Fine E) : ∃ i, c.st = ⟨c.st.toks, E.ind i⟩ := by
  obtain ⟨⟨i, hi⟩, -⟩ := h
  exact ⟨i, by rw [← hi]⟩

include hev in
theorem ev_err {c : Call} (h : c.Fine E) {e st'} (ho : ev c.rule c.st c.s c.p = .ret (.err e) st') :
    (∃ i, st'.ind = E.ind i) ∧ c.s ≤ st'.toks.length := by
  obtain ⟨i, hi⟩ := fine_ind h
  have hg := hev c.rule i c.st.toks c.s c.p h.2
  rw [← hi, ho] at hg
  obtain ⟨j, tr, h1, h2, -, h3, -⟩ := hg
  exact ⟨⟨j, h3⟩, h2⟩

include hL hev in
theorem ev_ok {c : Call} (h : c.Fine E) {range s' oe st'} (ho : ev c.rule c.st c.s c.p = .ret (.ok range s' oe) st') :
    (∃ i, st'.ind = E.ind i) ∧ s' ≤ st'.toks.length ∧ range.length ≤ c.p.src.length ∧
      (range.length = 0 → CanBeEmpty E c.rule) := by
  obtain ⟨i, hi⟩ := fine_ind h
  have hg := hev c.rule i c.st.toks c.s c.p h.2
  rw [← hi, ho] at hg
  obtain ⟨n, ts, j, tr, h1, h2, h3, -, h4, -⟩ := hg
  have hn : range.length = n := by rw [h2]; simp
  rw [hn]
  refine ⟨⟨j, h4⟩, h3, run_some_le hL h1, ?_⟩
  intro hn
  subst hn
  exact ⟨_, _, _, _, _, h1⟩

include hev in
theorem selectCalls_near {ch now : Rule → Prop} {s p} : ∀ {rs : List Rule} {st c}, (∀ r ∈ rs, now r) →
    Call.Fine E ⟨default, st, s, p⟩ → c ∈ selectCalls ev s p rs st → Near E ch now p.src.length c
  | [], _, _, _, _, h => by simp [selectCalls] at h
  | r :: rs, st, c, hr, hf, h => by
    simp only [selectCalls, List.mem_cons] at h
    rcases h with rfl | h
    · exact ⟨hf, .inr ⟨Nat.le_refl _, hr r (by simp)⟩⟩
    · split at h
      · rename_i e st' ho
        exact selectCalls_near (fun r h => hr r (by simp [h])) (ev_err hev (c := ⟨r, st, s, p⟩) hf ho) h
      · simp at h

include hev in
theorem fastCalls_near {ch now : Rule → Prop} {tb args tail st s p c} (hr : ∀ r ∈ args, now r)
    (hf : Call.Fine E ⟨default, st, s, p⟩) (h : c ∈ fastSelectCalls ev tb args tail st s p) : Near E ch now p.src.length c := by
  have hlast : ∀ st, Call.Fine E ⟨default, st, s, p⟩ → c ∈ (if tail = true then
        match args.getLast? with
        | none => []
        | some sub => [(⟨sub, st, s, p⟩ : Call)]
      else []) → Near E ch now p.src.length c := by
    intro st hf h
    split at h
    · split at h
      · simp at h
      · rename_i sub hl
        rw [List.mem_singleton] at h
        subst h
        exact ⟨hf, .inr ⟨Nat.le_refl _, hr _ (List.mem_of_getLast? hl)⟩⟩
    · simp at h
  unfold fastSelectCalls at h
  split at h
  · simp at h
  · rename_i x c0 cs hp
    simp only at h
    split at h
    · split at h
      · simp at h
      · rename_i sub hg
        rw [List.mem_cons] at h
        rcases h with rfl | h
        · exact ⟨hf, .inr ⟨Nat.le_refl _, hr _ (List.mem_of_getElem? hg)⟩⟩
        · split at h
          · rename_i e st' ho
            exact hlast st' (ev_err hev (c := ⟨sub, st, s, p⟩) hf ho) h
          · simp at h
    · exact hlast st hf h

include hL hev in
theorem sequenceCalls_later {ch now : Rule → Prop} {K : Nat} : ∀ {rs : List Rule} {p s st c}, (∀ r ∈ rs, ch r) →
    Call.Fine E ⟨default, st, s, p⟩ → p.src.length < K → c ∈ sequenceCalls ev rs p s st → Near E ch now K c
  | [], _, _, _, _, _, _, _, h => by simp [sequenceCalls] at h
  | r :: rs, p, s, st, c, hr, hf, hp, h => by
    simp only [sequenceCalls, List.mem_cons] at h
    rcases h with rfl | h
    · exact ⟨hf, .inl ⟨hp, hr r (by simp)⟩⟩
    · split at h
      · rename_i range s' e st' ho
        obtain ⟨h1, h2, h3, -⟩ := ev_ok hL hev (c := ⟨r, st, s, p⟩) hf ho
        refine sequenceCalls_later (fun r h => hr r (by simp [h])) ⟨h1, h2⟩ ?_ h
        simp only [consume_eq, adv_src, List.length_drop]; omega
      · simp at h

include hL hev in
theorem sequenceCalls_near {ch now : Rule → Prop} {K : Nat} : ∀ {rs pre : List Rule} {p s st c}, (∀ r ∈ rs, ch r) →
    (∀ x ∈ pre, CanBeEmpty E x) → (∀ a r b, rs = a ++ r :: b → (∀ x ∈ pre ++ a, CanBeEmpty E x) → now r) →
    Call.Fine E ⟨default, st, s, p⟩ → p.src.length ≤ K → c ∈ sequenceCalls ev rs p s st → Near E ch now K c
  | [], _, _, _, _, _, _, _, _, _, _, h => by simp [sequenceCalls] at h
  | r :: rs, pre, p, s, st, c, hr, hpre, hnow, hf, hp, h => by
    simp only [sequenceCalls, List.mem_cons] at h
    rcases h with rfl | h
    · exact ⟨hf, .inr ⟨hp, hnow [] r rs rfl (by simpa using hpre)⟩⟩
    · split at h
      · rename_i range s' e st' ho
        obtain ⟨h1, h2, h3, h4⟩ := ev_ok hL hev (c := ⟨r, st, s, p⟩) hf ho
        by_cases hn : range.length = 0
        · refine sequenceCalls_near (pre := pre ++ [r]) (fun r h => hr r (by simp [h])) ?_ ?_ ⟨h1, h2⟩ ?_ h
          · intro x hx
            rcases List.mem_append.1 hx with hx | hx
            · exact hpre x hx
            · rw [List.mem_singleton] at hx; subst hx; exact h4 hn
          · intro a q b hab hc
            exact hnow (r :: a) q b (by simp [hab]) (by simpa using hc)
          · simp only [consume_eq, adv_src, List.length_drop]; omega
        · refine sequenceCalls_later hL hev (fun r h => hr r (by simp [h])) ⟨h1, h2⟩ ?_ h
          simp only [consume_eq, adv_src, List.length_drop]
          simp only at h3
          omega
      · simp at h

include hL hev in
theorem repeatCalls_near {ch now : Rule → Prop} {K : Nat} {r : Rule} (hr : now r) : ∀ {fuel : Nat} {p s st c},
    Call.Fine E ⟨default, st, s, p⟩ → p.src.length ≤ K → c ∈ repeatCalls ev r fuel p s st → Near E ch now K c
  | 0, _, _, _, _, _, _, h => by simp [repeatCalls] at h
  | fuel + 1, p, s, st, c, hf, hp, h => by
    simp only [repeatCalls, List.mem_cons] at h
    rcases h with rfl | h
    · exact ⟨hf, .inr ⟨hp, hr⟩⟩
    · split at h
      · rename_i range s' e st' ho
        obtain ⟨h1, h2, h3, -⟩ := ev_ok hL hev (c := ⟨r, st, s, p⟩) hf ho
        refine repeatCalls_near hr ⟨h1, h2⟩ ?_ h
        simp only [consume_eq, adv_src, List.length_drop]; omega
      · simp at h

include hL hev in
theorem separateByCalls_near {ch now : Rule → Prop} {K : Nat} {r b : Rule} (hr : now r) (hb : ch b)
    (hb' : CanBeEmpty E r → now b) : ∀ {fuel : Nat} {p s st c},
    Call.Fine E ⟨default, st, s, p⟩ → p.src.length ≤ K → c ∈ separateByCalls ev r b fuel p s st → Near E ch now K c
  | 0, _, _, _, _, _, _, h => by simp [separateByCalls] at h
  | fuel + 1, p, s, st, c, hf, hp, h => by
    simp only [separateByCalls, List.mem_cons] at h
    rcases h with rfl | h
    · exact ⟨hf, .inr ⟨hp, hr⟩⟩
    · split at h
      · rename_i range s' e st' ho
        obtain ⟨h1, h2, h3, h4⟩ := ev_ok hL hev (c := ⟨r, st, s, p⟩) hf ho
        simp only at h3 h4
        simp only [consume_eq, List.mem_cons] at h
        rcases h with rfl | h
        · refine ⟨⟨h1, h2⟩, ?_⟩
          simp only [adv_src, List.length_drop]
          by_cases hn : range.length = 0
          · exact .inr ⟨by omega, hb' (h4 hn)⟩
          · exact .inl ⟨by omega, hb⟩
        · split at h
          · rename_i range2 s2 e2 st2 ho2
            obtain ⟨h5, h6, h7, -⟩ := ev_ok hL hev (c := ⟨b, st', s', adv p range.length⟩) ⟨h1, h2⟩ ho2
            refine separateByCalls_near hr hb hb' ⟨h5, h6⟩ ?_ h
            simp only [adv_src, List.length_drop] at h7 ⊢
            omega
          · simp at h
      · simp at h

theorem lineItemCalls_near {ch now : Rule → Prop} {K : Nat} {r : Rule} (hr : now r) {x : LineSt} {p c}
    (hf : Call.Fine E ⟨default, x.st, x.s, p⟩) (hp : p.src.length ≤ K) (h : c ∈ lineItemCalls r x p) : Near E ch now K c := by
  unfold lineItemCalls at h
  simp only at h
  split at h
  · simp at h
  · rw [List.mem_singleton] at h
    subst h
    obtain ⟨⟨i, hi⟩, h2⟩ := hf
    refine ⟨⟨⟨x.st.ind.indent + 1, ?_⟩, h2⟩, .inr ⟨hp, hr⟩⟩
    simp only at hi ⊢
    rw [hi]
    rfl

theorem lineCalls_near {ch now : Rule → Prop} {K : Nat} {r : Rule} {indent : Bool} (hr : now r) {x : LineSt} {p c}
    (hf : Call.Fine E ⟨default, x.st, x.s, p⟩) (hp : p.src.length ≤ K)
    (h : c ∈ (if indent then lineClosureIndentCalls r else lineClosureCalls r) x p) : Near E ch now K c := by
  cases indent with
  | false =>
    simp only [Bool.false_eq_true, if_false, lineClosureCalls, List.mem_singleton] at h
    subst h
    exact ⟨hf, .inr ⟨hp, hr⟩⟩
  | true =>
    simp only [if_true, lineClosureIndentCalls] at h
    split at h
    · simp at h
    · split at h
      · split at h
        · simp at h
        · refine lineItemCalls_near hr ?_ ?_ h
          · obtain ⟨⟨i, hi⟩, hs⟩ := hf
            refine ⟨?_, hs⟩
            simp only at hi ⊢
            rw [hi]
            exact ⟨_, rfl⟩
          · simp only [consume_eq, adv_src, List.length_drop]; omega
      · split at h
        · simp at h
        · exact lineItemCalls_near (p := p.consume _) hr ⟨hf.1, hf.2⟩ (by simp only [consume_eq, adv_src, List.length_drop]; omega) h

include hL hev in
theorem linesCalls_near {ch now : Rule → Prop} {K : Nat} {r : Rule} {indent : Bool} (hr : now r) :
    ∀ {fuel : Nat} {first item p x c}, Call.Fine E ⟨default, x.st, x.s, p⟩ →
      (indent = true → E.align = true → x.first = first) → p.src.length ≤ K →
      c ∈ linesCalls E.L (if indent then lineClosureIndent ev r else lineClosure ev r)
        (if indent then lineClosureIndentCalls r else lineClosureCalls r) fuel first item p x → Near E ch now K c
  | 0, _, _, _, _, _, _, _, _, h => by simp [linesCalls] at h
  | fuel + 1, first, item, p, x, c, hf, hfl, hp, h => by
    simp only [linesCalls] at h
    split at h
    · simp at h
    · simp at h
    · rename_i k hk
      have hp' : (adv p k).src.length ≤ K := by simp only [adv_src, List.length_drop]; omega
      simp only [consume_eq, List.mem_append] at h
      rcases h with h | h
      · exact lineCalls_near (p := adv p k) hr ⟨hf.1, hf.2⟩ hp' h
      · split at h
        · rename_i range x' ho
          obtain ⟨⟨i, hi⟩, hs⟩ := hf
          simp only at hi hs
          have hgood : GoodLine E r indent first (adv p k) i x.st.toks x.s x.oe
              ((if indent then lineClosureIndent ev r else lineClosure ev r) x (adv p k)) := by
            obtain ⟨s, oe, fl, toks, ind⟩ := x
            simp only at hi hs hfl
            subst hi
            cases indent with
            | false => exact lineClosure_good hev _ _ _ _ _ _ _ _ hs
            | true => exact lineClosureIndent_good hev _ _ _ _ _ _ _ _ hs (hfl rfl)
          rw [ho] at hgood
          obtain ⟨n, ts, j, tr, hrun, hlen, hs', -, hind, -, hfirst⟩ := hgood
          refine linesCalls_near (ch := ch) (now := now) hr ⟨⟨j, hind⟩, hs'⟩ hfirst ?_ h
          simp only [adv_src, List.length_drop]
          omega
        · simp at h

include hL hev in
/-- Where the calls that a call makes are. -/
theorem subcalls_near {fuel : Nat} {c c' : Call} (hf : c.Fine E) (h : c' ∈ subcalls E.L E.refs ev fuel c) :
    Near E (fun r => Child r c.rule) (fun r => Calls E r c.rule) c.p.src.length c' := by
  obtain ⟨r, st, s, p⟩ := c
  simp only [subcalls] at h
  cases r with
  | whitespace => simp at h
  | tag => simp at h
  | untilAny => simp at h
  | untilAnyOrWs => simp at h
  | text => simp at h
  | number => simp at h
  | select args id => exact selectCalls_near hev (fun r hr => .select hr) hf h
  | fastSelect => exact fastCalls_near hev (fun r hr => .fast hr) hf h
  | sequence args id =>
    refine sequenceCalls_near hL hev (pre := []) (fun r hr => .sequence hr) (by simp) ?_ hf (Nat.le_refl _) h
    rintro a r b rfl hc
    exact .sequence (by simpa using hc)
  | separateBy => exact separateByCalls_near hL hev .item .sep .sep hf (Nat.le_refl _) h
  | repeat_ => exact repeatCalls_near hL hev .repeat_ hf (Nat.le_refl _) h
  | lines r ind id => exact linesCalls_near hL hev (indent := ind) (x := ⟨s, none, true, st⟩) .lines ⟨hf.1, hf.2⟩ (fun _ _ => rfl) (Nat.le_refl _) h
  | node name prop ix id =>
    cases ix with
    | none => simp [nodeCalls] at h
    | some ix =>
      simp only [nodeCalls] at h
      split at h
      · simp at h
      · rename_i a hx
        rw [List.mem_singleton] at h
        subst h
        refine ⟨?_, .inr ⟨Nat.le_refl _, .node hx⟩⟩
        cases prop with
        | none => exact hf
        | some name => exact ⟨hf.1, by simp [pushOpt, readData]⟩
  | optional =>
    rw [List.mem_singleton] at h
    subst h
    exact ⟨hf, .inr ⟨Nat.le_refl _, .optional⟩⟩
  | not =>
    rw [List.mem_singleton] at h
    subst h
    exact ⟨hf, .inr ⟨Nat.le_refl _, .not⟩⟩

end

theorem foldr_max_le {l : List Nat} {b : Nat} (h : ∀ x ∈ l, x ≤ b) : l.foldr max 0 ≤ b := by
  induction l with
  | nil => simp
  | cons a l ih =>
    simp only [List.foldr_cons]
    have := h a (by simp)
    have := ih fun x hx => h x (by simp [hx])
    omega

/-- At most one more level for every rule of the syntax and every character. -/
theorem callDepth_le {E : Env} (hL : E.L.Lawful) {M : Nat}
    (hM : ∀ r, Part E.refs r → Ht (Calls E) M r) : ∀ (n h : Nat) (c : Call), c.Fine E →
    Part E.refs c.rule → Ht (Calls E) h c.rule → callDepth E.L E.refs n c ≤ (M + 1) * c.p.src.length + h + 1 := by
  intro n
  induction n with
  | zero => intro h c _ _ _; simp [callDepth]
  | succ n ih =>
    intro h c hf hp hh
    simp only [callDepth]
    rw [Nat.add_comm 1]
    refine Nat.succ_le_succ (foldr_max_le ?_)
    intro x hx
    obtain ⟨c', hc', rfl⟩ := List.mem_map.1 hx
    obtain ⟨hf', hc' | hc'⟩ := subcalls_near hL (eval_sound E n) hf hc'
    · have hp' : Part E.refs c'.rule := by
        obtain ⟨q, hq, ho⟩ := hp
        exact ⟨q, hq, Occurs.trans (.step .refl hc'.2) ho⟩
      have h1 := ih M c' hf' hp' (hM _ hp')
      have h2 : (M + 1) * (c'.p.src.length + 1) ≤ (M + 1) * c.p.src.length := Nat.mul_le_mul_left _ hc'.1
      rw [Nat.mul_add] at h2
      omega
    · cases h with
      | zero => exact absurd hc'.2 (hh _)
      | succ h =>
        have h1 := ih h c' hf' (calls_part hc'.2 hp) (hh _ hc'.2)
        have h2 : (M + 1) * c'.p.src.length ≤ (M + 1) * c.p.src.length := Nat.mul_le_mul_left _ hc'.1
        omega

end Verif
