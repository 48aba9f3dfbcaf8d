import Verif.Proofs.Total
import Verif.Proofs.Sound
/-
How much fuel is enough: an explicit bound for well-formed syntaxes.
-/
namespace Verif
open Spec

/-- The rule does not run out of fuel here. -/
def InTime (E : Env) (ev : Ev) (r : Rule) (p : Pos) : Prop :=
  ∀ i toks s, s ≤ toks.length → ev r ⟨toks, E.ind i⟩ s p ≠ .timeout

section
variable {E : Env} (hL : E.L.Lawful) {ev : Ev} (hev : EvSound E ev)
include hL hev

/-- What a sub rule can return. -/
theorem ev_cases {r : Rule} {p : Pos} (h : InTime E ev r p) {i toks s} (hs : s ≤ toks.length) :
    ev r ⟨toks, E.ind i⟩ s p = .panic ∨
    (∃ e toks' j tr, ev r ⟨toks, E.ind i⟩ s p = .ret (.err e) ⟨toks', E.ind j⟩ ∧ s ≤ toks'.length ∧
      Run E (.rule r) p i none j tr) ∨
    ∃ n ts s' oe toks' j tr, ev r ⟨toks, E.ind i⟩ s p = .ret (.ok ⟨p.off, n⟩ s' oe) ⟨toks', E.ind j⟩ ∧
      s' ≤ toks'.length ∧ Run E (.rule r) p i (some (n, ts)) j tr ∧ n ≤ p.src.length := by
  have hg := hev r i toks s p hs
  have ht := h i toks s hs
  cases ho : ev r ⟨toks, E.ind i⟩ s p with
  | timeout => exact absurd ho ht
  | panic => exact .inl rfl
  | ret x st' =>
    rw [ho] at hg
    obtain ⟨toks', ind'⟩ := st'
    cases x with
    | err e =>
      obtain ⟨j, tr, h1, h2, -, rfl, -⟩ := hg
      exact .inr (.inl ⟨e, toks', j, tr, rfl, h2, h1⟩)
    | ok range s' oe =>
      obtain ⟨n, ts, j, tr, h1, rfl, h3, -, rfl, -⟩ := hg
      refine .inr (.inr ⟨n, ts, s', oe, toks', j, tr, ?_, h3, h1, run_some_le hL h1⟩)
      simp

theorem select_inTime {id s p} : ∀ {rs : List Rule}, (∀ r ∈ rs, InTime E ev r p) → ∀ oe toks i, s ≤ toks.length →
    evalSelect ev id s p rs oe ⟨toks, E.ind i⟩ ≠ .timeout
  | [], _, none, _, _, _ => by simp [evalSelect]
  | [], _, some _, _, _, _ => by simp [evalSelect]
  | r :: rs, h, oe, toks, i, hs => by
    rw [evalSelect.eq_def]
    rcases ev_cases hL hev (h r (by simp)) (i := i) hs with h1 | ⟨e, toks', j, tr, h1, h2, -⟩ |
      ⟨n, ts, s', oe', toks', j, tr, h1, h2, -⟩ <;> simp only [h1]
    · simp
    · exact select_inTime (fun r hr => h r (by simp [hr])) _ _ _ h2
    · simp

theorem fast_inTime {tb tail id s p} {args : List Rule} (h : ∀ r ∈ args, InTime E ev r p) {toks i} (hs : s ≤ toks.length) :
    evalFastSelect ev tb args tail id ⟨toks, E.ind i⟩ s p ≠ .timeout := by
  unfold evalFastSelect
  cases hp : p.src with
  | nil => simp
  | cons c cs =>
    simp only
    have htail : ∀ oe toks i, s ≤ toks.length → (match args.getLast? with
        | none => Out.panic
        | some sub =>
          match ev sub ⟨toks, E.ind i⟩ s p with
          | .ret (.ok range s' err) st' => .ret (.ok (p.peek range.length) s' (errUpdate err oe)) st'
          | .ret (.err e) st' => .ret (.err (retErr e oe)) st'
          | .timeout => .timeout
          | .panic => .panic) ≠ .timeout := by
      intro oe toks i hs
      cases hl : args.getLast? with
      | none => simp
      | some sub =>
        rcases ev_cases hL hev (h sub (List.mem_of_getLast? hl)) (i := i) hs with h1 | ⟨e, toks', j, tr, h1, h2, -⟩ |
          ⟨n, ts, s', oe', toks', j, tr, h1, h2, -⟩ <;> simp [h1]
    by_cases hi : tb (firstByte c) = 255
    · cases tail
      · simp [hi]
      · simp only [hi, ne_eq, not_true_eq_false, if_false, if_true]
        exact htail none toks i hs
    · cases tail
      · simp only [Bool.false_eq_true, if_false, ne_eq, hi, not_false_eq_true, if_true]
        cases hg : args[(tb (firstByte c)).toNat]? with
        | none => simp
        | some sub =>
          rcases ev_cases hL hev (h sub (List.mem_of_getElem? hg)) (i := i) hs with h1 | ⟨e, toks', j, tr, h1, h2, -⟩ |
            ⟨n, ts, s', oe', toks', j, tr, h1, h2, -⟩ <;> simp [h1]
      · simp only [ne_eq, hi, not_false_eq_true, if_true]
        cases hg : args[(tb (firstByte c)).toNat]? with
        | none => simp
        | some sub =>
          rcases ev_cases hL hev (h sub (List.mem_of_getElem? hg)) (i := i) hs with h1 | ⟨e, toks', j, tr, h1, h2, -⟩ |
            ⟨n, ts, s', oe', toks', j, tr, h1, h2, -⟩ <;> simp only [h1]
          · simp
          · exact htail _ _ _ h2
          · simp

/-- A sequence at a position with at most `K` characters left. -/
theorem seq_inTime {start : Pos} {K : Nat} : ∀ {rs : List Rule},
    (∀ r ∈ rs, ∀ p, p.src.length ≤ K → InTime E ev r p) → ∀ p s oe toks i, p.src.length ≤ K → s ≤ toks.length →
    evalSequence ev start rs p s oe ⟨toks, E.ind i⟩ ≠ .timeout
  | [], _, _, _, _, _, _, _, _ => by simp [evalSequence]
  | r :: rs, h, p, s, oe, toks, i, hp, hs => by
    rw [evalSequence.eq_def]
    rcases ev_cases hL hev (h r (by simp) p hp) (i := i) hs with h1 | ⟨e, toks', j, tr, h1, h2, -⟩ |
      ⟨n, ts, s', oe', toks', j, tr, h1, h2, -, h3⟩ <;> simp only [h1]
    · simp
    · simp
    · exact seq_inTime (fun r hr => h r (by simp [hr])) _ _ _ _ _ (by simp; omega) h2

/-- A sequence of which the rules before have read nothing. -/
theorem seq_inTime_from {start : Pos} {K : Nat} : ∀ {rs pre : List Rule}, (∀ x ∈ pre, CanBeEmpty E x) →
    (∀ a r b, rs = a ++ r :: b → (∀ x ∈ pre ++ a, CanBeEmpty E x) → ∀ p, p.src.length ≤ K → InTime E ev r p) →
    (∀ r ∈ rs, ∀ p, p.src.length < K → InTime E ev r p) → ∀ p s oe toks i, p.src.length ≤ K → s ≤ toks.length →
    evalSequence ev start rs p s oe ⟨toks, E.ind i⟩ ≠ .timeout
  | [], _, _, _, _, _, _, _, _, _, _, _ => by simp [evalSequence]
  | r :: rs, pre, hpre, h, h', p, s, oe, toks, i, hp, hs => by
    rw [evalSequence.eq_def]
    rcases ev_cases hL hev (h [] r rs rfl (by simpa using hpre) p hp) (i := i) hs with h1 | ⟨e, toks', j, tr, h1, h2, -⟩ |
      ⟨n, ts, s', oe', toks', j, tr, h1, h2, hr, h3⟩ <;> simp only [h1]
    · simp
    · simp
    · by_cases hn : n = 0
      · subst hn
        refine seq_inTime_from (pre := pre ++ [r]) (K := K) ?_ ?_ (fun q hq => h' q (by simp [hq])) _ _ _ _ _ (by simpa using hp) h2
        · intro x hx
          rcases List.mem_append.1 hx with hx | hx
          · exact hpre x hx
          · simp at hx; subst hx; exact ⟨_, _, _, _, _, hr⟩
        · intro a q b hab hc
          exact h (r :: a) q b (by simp [hab]) (by simpa using hc)
      · by_cases hK : K = 0
        · omega
        · exact seq_inTime hL hev (K := K - 1) (fun q hq p hp => h' q (by simp [hq]) p (by omega)) _ _ _ _ _
            (by simp; omega) h2

theorem repeat_inTime {r : Rule} {opt} {start : Pos} (hr : ¬ CanBeEmpty E r) {K : Nat}
    (h : ∀ p, p.src.length ≤ K → InTime E ev r p) : ∀ fuel first p s oe toks i, p.src.length ≤ K → p.src.length < fuel →
    s ≤ toks.length → evalRepeat ev r opt start fuel first p s oe ⟨toks, E.ind i⟩ ≠ .timeout
  | 0, _, _, _, _, _, _, _, hf, _ => by omega
  | fuel + 1, first, p, s, oe, toks, i, hp, hf, hs => by
    rw [evalRepeat.eq_def]
    rcases ev_cases hL hev (h p hp) (i := i) hs with h1 | ⟨e, toks', j, tr, h1, h2, -⟩ |
      ⟨n, ts, s', oe', toks', j, tr, h1, h2, hrun, h3⟩ <;> simp only [h1]
    · simp
    · split <;> simp
    · have hn : n ≠ 0 := by rintro rfl; exact hr ⟨_, _, _, _, _, hrun⟩
      exact repeat_inTime hr h fuel _ _ _ _ _ _ (by simp; omega) (by simp; omega) h2

theorem separate_inTime {r b : Rule} {opt trail} {start : Pos} (hrb : ¬ (CanBeEmpty E r ∧ CanBeEmpty E b)) {K : Nat}
    (h : ∀ p, p.src.length ≤ K → InTime E ev r p)
    (h' : ∀ p, p.src.length < K ∨ (p.src.length ≤ K ∧ CanBeEmpty E r) → InTime E ev b p) :
    ∀ fuel first p s oe toks i, p.src.length ≤ K → p.src.length < fuel →
    s ≤ toks.length → evalSeparateBy ev r b opt trail start fuel first p s oe ⟨toks, E.ind i⟩ ≠ .timeout
  | 0, _, _, _, _, _, _, _, hf, _ => by omega
  | fuel + 1, first, p, s, oe, toks, i, hp, hf, hs => by
    rw [evalSeparateBy.eq_def]
    rcases ev_cases hL hev (h p hp) (i := i) hs with h1 | ⟨e, toks', j, tr, h1, h2, -⟩ |
      ⟨n, ts, s', oe', toks', j, tr, h1, h2, hrun, h3⟩ <;> simp only [h1]
    · simp
    · split <;> simp
    · have hb : InTime E ev b (adv p n) := h' _ (by
        by_cases hn : n = 0
        · subst hn; exact .inr ⟨by simpa using hp, _, _, _, _, _, hrun⟩
        · exact .inl (by simp; omega))
      simp only [consume_eq]
      rcases ev_cases hL hev hb (i := j) h2 with h4 | ⟨e, toks'', j', tr', h4, h5, -⟩ |
        ⟨n', ts', s'', oe'', toks'', j', tr', h4, h5, hrun', h6⟩ <;> simp only [h4]
      · simp
      · simp
      · have hn : n + n' ≠ 0 := by
          intro h0
          obtain ⟨rfl, rfl⟩ : n = 0 ∧ n' = 0 := by omega
          exact hrb ⟨⟨_, _, _, _, _, hrun⟩, _, _, _, _, _, hrun'⟩
        simp at h6
        exact separate_inTime hrb h h' fuel _ _ _ _ _ _ (by simp; omega) (by simp; omega) h5

theorem line_inTime {r : Rule} {K : Nat} {indent : Bool} (h : ∀ p, p.src.length ≤ K → InTime E ev r p) {x : LineSt} {i : Nat}
    (hx : x.st.ind = E.ind i) (hs : x.s ≤ x.st.toks.length) {p : Pos} (hp : p.src.length ≤ K) :
    (if indent then lineClosureIndent ev r else lineClosure ev r) x p ≠ .timeout := by
  obtain ⟨s, oe, first, toks, ind⟩ := x
  simp only at hx hs
  subst hx
  have hitem : ∀ oe first i p0 p, p.src.length ≤ K →
      lineItem ev r ⟨s, oe, first, toks, E.ind i⟩ p0 p ≠ .timeout := by
    intro oe first i p0 p hp
    unfold lineItem
    simp only
    split
    · simp
    · rcases ev_cases hL hev (h p hp) (i := (E.ind i).indent + 1) hs with h1 | ⟨e, toks', j, tr, h1, h2, -⟩ |
        ⟨n, ts, s', oe', toks', j, tr, h1, h2, hrun, h3⟩ <;>
        simp only [Env.ind] at h1 ⊢ <;> simp [h1]
  cases indent with
  | false =>
    simp only [Bool.false_eq_true, if_false]
    unfold lineClosure
    rcases ev_cases hL hev (h p hp) (i := i) hs with h1 | ⟨e, toks', j, tr, h1, h2, -⟩ |
      ⟨n, ts, s', oe', toks', j, tr, h1, h2, hrun, h3⟩ <;> simp [h1]
  | true =>
    simp only [if_true]
    unfold lineClosureIndent
    simp only
    split
    · simp
    · split
      · split
        · simp
        · exact hitem _ _ (i + _) _ _ (by simp; omega)
      · split
        · simp
        · exact hitem _ _ _ _ _ (by simp; omega)

theorem lines_inTime {r : Rule} {indent id} {start : Pos} {K : Nat} (h : ∀ p, p.src.length ≤ K → InTime E ev r p) :
    ∀ fuel first item p x i, x.st.ind = E.ind i → x.s ≤ x.st.toks.length → (indent = true → E.align = true → x.first = first) →
      p.src.length ≤ K → p.src.length + (if first = true ∨ '\n' ∈ item then 1 else 0) < fuel →
      evalLines E.L (if indent then lineClosureIndent ev r else lineClosure ev r) id start fuel first item p x ≠ .timeout
  | 0, _, _, _, _, _, _, _, _, _, hf => by omega
  | fuel + 1, first, item, p, x, i, hx, hs, hfl, hp, hf => by
    rw [evalLines.eq_def]
    simp only
    cases hn : E.L.lineNext first item p.src with
    | done k => simp
    | fail k => simp
    | call k =>
      obtain ⟨h1, _, _, _, h5⟩ := hL.line_call hn
      simp only [consume_eq]
      have hp' : (adv p k).src.length ≤ K := by simp; omega
      have hc := line_inTime hL hev (indent := indent) h hx hs hp'
      have hgood : GoodLine E r indent first (adv p k) i x.st.toks x.s x.oe
          ((if indent then lineClosureIndent ev r else lineClosure ev r) x (adv p k)) := by
        obtain ⟨s, oe, fl, toks, ind⟩ := x
        simp only at hx hs hfl
        subst hx
        cases indent with
        | false => exact lineClosure_good hev _ _ _ _ _ _ _ _ hs
        | true => exact lineClosureIndent_good hev _ _ _ _ _ _ _ _ hs (hfl rfl)
      cases hcl : (if indent then lineClosureIndent ev r else lineClosure ev r) x (adv p k) with
      | timeout => exact absurd hcl hc
      | panic => simp
      | ret o x' =>
        rw [hcl] at hgood
        cases o with
        | none => simp
        | some range =>
          obtain ⟨n, ts, j, tr, hrun, hlen, hs', -, hind, -, hfirst⟩ := hgood
          have hle := run_some_le hL hrun
          simp at hle
          simp only [hlen]
          refine lines_inTime h fuel false _ _ x' j hind hs' hfirst (by simp; omega) ?_
          have hl : (adv (adv p k) n).src.length = p.src.length - k - n := by simp; omega
          rw [hl]
          have hnl : n = 0 → ¬ ('\n' ∈ (adv p k).src.take n) := by rintro rfl; simp
          have hk : k = 0 → (first = true ∨ '\n' ∈ item) := by
            intro hk
            subst hk
            cases first with
            | true => exact .inl rfl
            | false => have := h5 rfl; simp at this; exact .inr this
          by_cases hn0 : n = 0
          · rw [if_neg (fun h => h.elim (by simp) (hnl hn0))]
            by_cases hk0 : k = 0
            · rw [if_pos (hk hk0)] at hf; omega
            · omega
          · by_cases hk0 : k = 0
            · rw [if_pos (hk hk0)] at hf
              split <;> omega
            · split <;> omega

end

/-- The relation goes down from `r` for at most `n` steps. -/
def Ht {α : Type} (R : α → α → Prop) : Nat → α → Prop
  | 0, r => ∀ c, ¬ R c r
  | n + 1, r => ∀ c, R c r → Ht R n c

theorem Ht.mono {α : Type} {R : α → α → Prop} : ∀ {n m : Nat} {r : α}, n ≤ m → Ht R n r → Ht R m r
  | 0, 0, _, _, h => h
  | 0, _ + 1, _, _, h => fun c hc => absurd hc (h c)
  | _ + 1, _ + 1, _, hn, h => fun c hc => (h c hc).mono (Nat.le_of_succ_le_succ hn)

theorem ht_of_acyclic {α : Type} {R : α → α → Prop} : ∀ (n : Nat) (l : List α), l.length ≤ n → ∀ r,
    (∀ x, Relation.TransGen R x r → x ∈ l) → (∀ x ∈ l, ¬ Relation.TransGen R x x) → Ht R n r := by
  intro n
  induction n with
  | zero =>
    intro l hl r hr _ y hy
    have hyl := hr y (.single hy)
    cases l with
    | nil => simp at hyl
    | cons _ _ => simp at hl
  | succ n ih =>
    intro l hl r hr hac y hy
    classical
    have hyl := hr y (.single hy)
    refine ih (l.filter (· ≠ y)) ?_ y ?_ ?_
    · have : (l.filter (· ≠ y)).length < l.length :=
        List.length_filter_lt_length_iff_exists.2 ⟨y, hyl, by simp⟩
      omega
    · intro x hx
      rw [List.mem_filter]
      refine ⟨hr x (hx.trans (.single hy)), ?_⟩
      simp only [decide_not, Bool.not_eq_eq_eq_not, Bool.not_true, decide_eq_false_iff_not]
      rintro rfl
      exact hac _ hyl hx
    · intro x hx
      exact hac x (List.mem_filter.1 hx).1

/-- A well-formed syntax goes down at most as often as it has rules in it. -/
theorem wellFormed_ht {E : Env} (h : WellFormed E) {r} (hr : Part E.refs r) :
    Ht (Calls E) (Rule.partsL E.refs).length r := by
  have hpart : ∀ {x r}, Relation.TransGen (Calls E) x r → Part E.refs r → Part E.refs x := by
    intro x r hx
    induction hx with
    | single h => exact calls_part h
    | tail _ h ih => exact fun hr => ih (calls_part h hr)
  have hlist : ∀ {x}, Part E.refs x → x ∈ Rule.partsL E.refs := by
    rintro x ⟨q, hq, hx⟩
    exact mem_partsL hq (mem_parts hx)
  classical
  refine ht_of_acyclic _ ((Rule.partsL E.refs).filter fun x => decide (Part E.refs x))
    (List.length_filter_le _ _) r ?_ ?_
  · intro x hx
    have := hpart hx hr
    rw [List.mem_filter]
    exact ⟨hlist this, by simpa using this⟩
  · intro x hx
    have := (List.mem_filter.1 hx).2
    exact h.acyclic x (by simpa using this)

/-- The fuel that is enough `K` characters before the end. -/
theorem rule_inTime {E : Env} (hL : E.L.Lawful) (hw : WellFormed E) (K : Nat) :
    ∀ h r, Part E.refs r → Ht (Calls E) h r → ∀ n, ((Rule.partsL E.refs).length + 2) * (K + 1) + h ≤ n →
      ∀ p : Pos, p.src.length ≤ K → InTime E (eval E.L E.refs n) r p := by
  induction K using Nat.strongRecOn with
  | _ K ihK =>
    intro h
    induction h with
    | zero =>
      intro r hr hh n hn p hp i toks s hs
      obtain ⟨n, rfl⟩ : ∃ m, n = m + 1 := ⟨n - 1, by have := Nat.mul_le_mul (Nat.le_add_left 2 (Rule.partsL E.refs).length) (Nat.le_add_left 1 K); omega⟩
      simp only [eval, step]
      cases r with
      | whitespace => simp only [evalWhitespace]; split <;> simp
      | tag => simp only [evalTag, emitOpt]; split <;> split <;> simp
      | untilAny => simp only [evalUntilAny, emitOpt]; split <;> simp
      | untilAnyOrWs => simp only [evalUntilAnyOrWs, emitOpt]; split <;> simp
      | text =>
        simp only [evalText, emitOpt]
        split
        · split
          · simp
          · split <;> simp
        · simp
      | number =>
        simp only [evalNumber, emitOpt]
        split
        · split <;> simp
        · simp
      | select args id =>
        cases args with
        | nil => simp [evalSelect]
        | cons a as => exact absurd (.select (by simp)) (hh a)
      | fastSelect tb args tail id =>
        have : args = [] := by
          cases args with
          | nil => rfl
          | cons a as => exact absurd (.fast (by simp)) (hh a)
        subst this
        simp only [evalFastSelect]
        split
        · simp
        · rename_i c cs hc
          by_cases hi : tb (firstByte c) = 255 <;> cases tail <;> simp [hi]
      | sequence args id =>
        cases args with
        | nil => simp [evalSequence]
        | cons a as => exact absurd (.sequence (pre := []) (by simp)) (hh a)
      | separateBy a => exact absurd .item (hh a)
      | repeat_ a => exact absurd .repeat_ (hh a)
      | lines a => exact absurd .lines (hh a)
      | optional a => exact absurd .optional (hh a)
      | not a => exact absurd .not (hh a)
      | node name prop ix id =>
        cases ix with
        | none => simp [evalNode]
        | some ix =>
          cases hix : E.refs[ix]? with
          | none => simp [evalNode, hix]
          | some a => exact absurd (.node hix) (hh a)
    | succ h ih =>
      intro r hr hh n hn p hp i toks s hs
      have hge : 2 * (K + 1) ≤ ((Rule.partsL E.refs).length + 2) * (K + 1) := Nat.mul_le_mul_right _ (by omega)
      obtain ⟨n, rfl⟩ : ∃ m, n = m + 1 := ⟨n - 1, by omega⟩
      have hnow : ∀ c, Calls E c r → ∀ q : Pos, q.src.length ≤ K → InTime E (eval E.L E.refs n) c q :=
        fun c hc q hq => ih c (calls_part hc hr) (hh c hc) n (by omega) q hq
      have hlater : ∀ c, Part E.refs c → ∀ q : Pos, q.src.length < K → InTime E (eval E.L E.refs n) c q := by
        intro c hc q hq
        refine ihK (K - 1) (by omega) _ c hc (wellFormed_ht hw hc) n ?_ q (by omega)
        have : K - 1 + 1 = K := by omega
        rw [this]
        rw [Nat.mul_add] at hn
        omega
      have hev := eval_sound E n
      obtain ⟨q0, hq0, hocc⟩ := hr
      have hchild : ∀ c, Child c r → Part E.refs c := fun c hc => ⟨q0, hq0, Occurs.trans (.step .refl hc) hocc⟩
      have hloop := hw.loops r ⟨q0, hq0, hocc⟩
      simp only [eval, step]
      cases r with
      | whitespace => simp only [evalWhitespace]; split <;> simp
      | tag => simp only [evalTag, emitOpt]; split <;> split <;> simp
      | untilAny => simp only [evalUntilAny, emitOpt]; split <;> simp
      | untilAnyOrWs => simp only [evalUntilAnyOrWs, emitOpt]; split <;> simp
      | text =>
        simp only [evalText, emitOpt]
        split
        · split
          · simp
          · split <;> simp
        · simp
      | number =>
        simp only [evalNumber, emitOpt]
        split
        · split <;> simp
        · simp
      | select args id => exact select_inTime hL hev (fun c hc => hnow c (.select hc) p hp) _ _ _ hs
      | fastSelect tb args tail id => exact fast_inTime hL hev (fun c hc => hnow c (.fast hc) p hp) hs
      | sequence args id =>
        refine seq_inTime_from hL hev (pre := []) (K := K) (by simp) ?_ (fun c hc => hlater c (hchild c (.sequence hc))) _ _ _ _ _ hp hs
        rintro a c b rfl hc
        exact hnow c (.sequence (by simpa using hc))
      | separateBy a b opt trail id =>
        refine separate_inTime hL hev (K := K) hloop (hnow a .item) ?_ _ _ _ _ _ _ _ hp (by omega) hs
        rintro q (hq | ⟨hq, he⟩)
        · exact hlater b (hchild b .sep) q hq
        · exact hnow b (.sep he) q hq
      | repeat_ a => exact repeat_inTime hL hev (K := K) hloop (hnow a .repeat_) _ _ _ _ _ _ _ hp (by omega) hs
      | lines a ind id =>
        exact lines_inTime hL hev (K := K) (hnow a .lines) _ _ _ _ ⟨s, none, true, ⟨toks, E.ind i⟩⟩ i rfl hs (fun _ _ => rfl) hp (by simp; omega)
      | optional a =>
        simp only [evalOptional]
        rcases ev_cases hL hev (hnow a .optional p hp) (i := i) hs with h1 | ⟨e, toks', j, tr, h1, h2, -⟩ |
          ⟨n, ts, s', oe', toks', j, tr, h1, h2, -⟩ <;> simp [h1]
      | not a =>
        simp only [evalNot]
        rcases ev_cases hL hev (hnow a .not p hp) (i := i) hs with h1 | ⟨e, toks', j, tr, h1, h2, -⟩ |
          ⟨n, ts, s', oe', toks', j, tr, h1, h2, -⟩ <;> simp [h1]
      | node name prop ix id =>
        cases ix with
        | none => simp [evalNode]
        | some ix =>
          cases hix : E.refs[ix]? with
          | none => simp [evalNode, hix]
          | some a =>
            have hpush : ∃ toks' s', pushOpt prop .startNode p.start ⟨toks, E.ind i⟩ s = (⟨toks', E.ind i⟩, s') ∧ s' ≤ toks'.length := by
              cases prop with
              | none => exact ⟨toks, s, rfl, hs⟩
              | some name => exact ⟨_, _, rfl, by simp [readData]⟩
            obtain ⟨toks', s', h0, hs'⟩ := hpush
            simp only [evalNode, hix, h0]
            rcases ev_cases hL hev (hnow a (.node hix) p hp) (i := i) hs' with h1 | ⟨e, toks', j, tr, h1, h2, -⟩ |
              ⟨n, ts, s', oe', toks', j, tr, h1, h2, -⟩ <;> simp [h1]

end Verif
