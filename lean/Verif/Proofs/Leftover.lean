import Verif.Proofs.Sound
import Verif.Proofs.Origin
/-
The items in the vector, also those that were recorded on the way to a failure: an invariant of the
parser.
-/
namespace Verif
open Spec

/-! ### Nesting -/

/-- Well nested data may be put anywhere into well nested data. -/
theorem wellNested_insert {w : List MetaData} (hw : WellNested w) : ∀ {l : List MetaData}, WellNested l →
    ∀ {a b : List MetaData}, l = a ++ b → WellNested (a ++ w ++ b) := by
  intro l hl
  induction hl with
  | nil =>
    intro a b h
    simp only [List.nil_eq, List.append_eq_nil_iff] at h
    obtain ⟨rfl, rfl⟩ := h
    simpa using hw
  | @value m rest hm hr ih =>
    intro a b h
    cases a with
    | nil => simp only [List.nil_append] at h; subst h; exact wellNested_append hw (.value hm hr)
    | cons x xs =>
      simp only [List.cons_append, List.cons.injEq] at h
      obtain ⟨rfl, h⟩ := h
      simpa using WellNested.value hm (ih h)
  | @node name body rest hb hr ihb ihr =>
    intro a b h
    cases a with
    | nil => simp only [List.nil_append] at h; subst h; exact wellNested_append hw (.node hb hr)
    | cons x xs =>
      simp only [List.cons_append, List.cons.injEq] at h
      obtain ⟨rfl, h⟩ := h
      rcases List.append_eq_append_iff.1 h with ⟨c, rfl, h2⟩ | ⟨c, rfl, rfl⟩
      · cases c with
        | nil =>
          simp only [List.nil_append] at h2
          subst h2
          have := WellNested.node (name := name) (wellNested_append hb hw) hr
          simpa using this
        | cons y ys =>
          simp only [List.cons_append, List.cons.injEq] at h2
          obtain ⟨rfl, h2⟩ := h2
          have := WellNested.node (name := name) hb (ihr h2)
          simpa using this
      · have := WellNested.node (name := name) (ihb rfl) hr
        simpa using this

/-! ### The invariant -/

/-- What holds of the items in the vector at any time. -/
structure VecOk (E : Env) (text : Str) (v : List Tok) : Prop where
  recs : ∀ t ∈ v, ∃ x, Part E.refs x ∧ Records E text x t
  order : InOrder v
  inText : ∀ t ∈ v, t.range.next ≤ text.length
  nest : ∃ rest, WellNested (v.map Tok.data ++ rest)

theorem VecOk.take {E : Env} {text v} (h : VecOk E text v) (s : Nat) : VecOk E text (v.take s) := by
  refine ⟨fun t ht => h.recs t (List.mem_of_mem_take ht), h.order.sublist (List.take_sublist ..),
    fun t ht => h.inText t (List.mem_of_mem_take ht), ?_⟩
  obtain ⟨rest, hr⟩ := h.nest
  refine ⟨(v.drop s).map Tok.data ++ rest, ?_⟩
  rw [← List.append_assoc, ← List.map_append, List.take_append_drop]
  exact hr

/-- A parser may be started. -/
structure Ready (E : Env) (text : Str) (st : St) (s : Nat) (p : Pos) : Prop where
  inside : Inside text p
  le : p.off ≤ text.length
  ind : ∃ i, st.ind = E.ind i
  len : s ≤ st.toks.length
  before : ∀ t ∈ st.toks.take s, t.range.next ≤ p.off
  vec : VecOk E text st.toks

section
variable {E : Env} {text : Str}

theorem Ready.src {st s p} (h : Ready E text st s p) : p.off + p.src.length = text.length := by
  have := h.inside
  have := h.le
  simp only [Inside] at *
  rw [‹p.src = _›, List.length_drop]
  omega

theorem Ready.move {st s p} (h : Ready E text st s p) {k : Nat} (hk : k ≤ p.src.length) :
    Ready E text st s (p.consume k) := by
  have := h.src
  refine ⟨inside_adv h.inside k, ?_, h.ind, h.len, fun t ht => ?_, h.vec⟩
  · show p.off + k ≤ _; omega
  · have := h.before t ht
    show _ ≤ p.off + k
    omega

/-- The items of a finished rule may be added. -/
theorem vecOk_extend (hL : E.L.Lawful) {st s p r i n ts j tr} (h : Ready E text st s p) (hr : Part E.refs r)
    (hrun : Run E (.rule r) p i (some (n, ts)) j tr) : VecOk E text (st.toks.take s ++ ts) := by
  have ht := (run_told hL text hrun h.inside hr).toks n ts rfl
  obtain ⟨hn, hw, ho⟩ := (run_bounded hL hrun).1 n ts rfl
  have hsrc := h.src
  have hv := h.vec.take s
  refine ⟨fun t h' => (List.mem_append.1 h').elim (hv.recs t) (ht t), ?_, fun t h' => ?_, ?_⟩
  · refine List.pairwise_append.2 ⟨hv.order, ho, fun a ha b hb => ?_⟩
    have h1 := h.before a ha
    have h2 := hw b hb
    simp only [Within, Range.next, Precedes] at *
    omega
  · rcases List.mem_append.1 h' with h' | h'
    · exact hv.inText t h'
    · have := (hw t h').2; omega
  · obtain ⟨rest, hr⟩ := hv.nest
    refine ⟨rest, ?_⟩
    rw [List.map_append]
    exact wellNested_insert (run_wellNested hrun n ts rfl) hr rfl

/-- What is claimed of a result. -/
def OutOk (E : Env) (text : Str) (o : Out) : Prop := ∀ res st', o = .ret res st' → VecOk E text st'.toks

/-- What is claimed of a parser. -/
def EvKept (E : Env) (text : Str) (ev : Ev) : Prop :=
  ∀ r st s p, Part E.refs r → Ready E text st s p → OutOk E text (ev r st s p)

theorem outOk_ret {res st} (h : VecOk E text st.toks) : OutOk E text (.ret res st) := by
  intro _ _ e; cases e; exact h

theorem outOk_timeout : OutOk E text .timeout := by intro _ _ e; cases e
theorem outOk_panic : OutOk E text .panic := by intro _ _ e; cases e

variable (hL : E.L.Lawful) {ev : Ev} (hs : EvSound E ev) (hk : EvKept E text ev)
include hL hs hk

/-- After a success. -/
theorem ok_ready {r st s p range s' err st'} (hr : Part E.refs r) (h : Ready E text st s p)
    (he : ev r st s p = .ret (.ok range s' err) st') :
    Ready E text st' s' (p.consume range.length) ∧ range.length ≤ p.src.length ∧ range.offset = p.off ∧
      ∃ i j ts tr, Run E (.rule r) p i (some (range.length, ts)) j tr ∧
        st'.toks.take s' = st.toks.take s ++ ts := by
  obtain ⟨i, hi⟩ := h.ind
  obtain ⟨toks, ind⟩ := st
  simp only at hi
  subst hi
  have hg := hs r i toks s p h.len
  have hv := hk r _ s p hr h _ _ he
  rw [he] at hg
  obtain ⟨n, ts, j, tr, hrun, rfl, hl, ht, hind, -⟩ := hg
  obtain ⟨hn, hw, -⟩ := (run_bounded hL hrun).1 n ts rfl
  have hlen : p.off + n - p.off = n := by omega
  simp only [hlen]
  refine ⟨?_, hn, trivial, i, j, ts, tr, hrun, ht⟩
  have hsrc := h.src
  refine ⟨inside_adv h.inside n, ?_, ⟨j, hind⟩, hl, fun t h' => ?_, hv⟩
  · show p.off + n ≤ _; omega
  · rw [ht] at h'
    show _ ≤ p.off + n
    rcases List.mem_append.1 h' with h' | h'
    · have := h.before t h'; omega
    · exact (hw t h').2

omit hL in
/-- After a failure. -/
theorem err_ready {r st s p e st'} (hr : Part E.refs r) (h : Ready E text st s p)
    (he : ev r st s p = .ret (.err e) st') : Ready E text st' s p := by
  obtain ⟨i, hi⟩ := h.ind
  obtain ⟨toks, ind⟩ := st
  simp only at hi
  subst hi
  have hg := hs r i toks s p h.len
  have hv := hk r _ s p hr h _ _ he
  rw [he] at hg
  obtain ⟨j, tr, hrun, hl, ht, hind, -⟩ := hg
  exact ⟨h.inside, h.le, ⟨j, hind⟩, hl, fun t h' => h.before t (by rw [← ht]; exact h'), hv⟩

omit hL in
theorem evalSelect_kept (id s p) : ∀ rs oe st, (∀ r ∈ rs, Part E.refs r) → Ready E text st s p →
    OutOk E text (evalSelect ev id s p rs oe st)
  | [], none, st, _, h => outOk_ret h.vec
  | [], some _, st, _, h => outOk_ret h.vec
  | r :: rs, oe, st, hr, h => by
    have hr0 := hr r (by simp)
    simp only [evalSelect]
    split
    · rename_i he; exact outOk_ret (hk r st s p hr0 h _ _ he)
    · rename_i he
      exact evalSelect_kept id s p rs _ _ (fun x hx => hr x (by simp [hx])) (err_ready hs hk hr0 h he)
    · exact outOk_timeout
    · exact outOk_panic

omit hL in
theorem evalFastSelect_kept (tb args tail id st s p) (hr : ∀ r ∈ args, Part E.refs r)
    (h : Ready E text st s p) : OutOk E text (evalFastSelect ev tb args tail id st s p) := by
  have htail : ∀ oe st, Ready E text st s p → OutOk E text
      (match args.getLast? with
        | none => .panic
        | some sub =>
          match ev sub st s p with
          | .ret (.ok range s' err) st' =>
            .ret (.ok (p.peek range.length) s' (errUpdate err oe)) st'
          | .ret (.err e) st' => .ret (.err (retErr e oe)) st'
          | .timeout => .timeout
          | .panic => .panic) := by
    intro oe st h
    split
    · exact outOk_panic
    · rename_i sub hsub
      have := hr sub (List.mem_of_getLast? hsub)
      split
      · rename_i he; exact outOk_ret (hk sub st s p this h _ _ he)
      · rename_i he; exact outOk_ret (hk sub st s p this h _ _ he)
      · exact outOk_timeout
      · exact outOk_panic
  unfold evalFastSelect
  split
  · exact outOk_ret h.vec
  · simp only
    split
    · split
      · split
        · exact outOk_panic
        · rename_i sub hsub
          have := hr sub (List.mem_of_getElem? hsub)
          split
          · rename_i he; exact outOk_ret (hk sub st s p this h _ _ he)
          · rename_i he; exact htail _ _ (err_ready hs hk this h he)
          · exact outOk_timeout
          · exact outOk_panic
      · exact htail _ _ h
    · split
      · split
        · exact outOk_panic
        · rename_i sub hsub
          have := hr sub (List.mem_of_getElem? hsub)
          split
          · rename_i he; exact outOk_ret (hk sub st s p this h _ _ he)
          · rename_i he; exact outOk_ret (hk sub st s p this h _ _ he)
          · exact outOk_timeout
          · exact outOk_panic
      · exact outOk_ret h.vec

theorem evalSequence_kept (start) : ∀ rs p s oe st, (∀ r ∈ rs, Part E.refs r) → Ready E text st s p →
    OutOk E text (evalSequence ev start rs p s oe st)
  | [], _, _, _, _, _, h => outOk_ret h.vec
  | r :: rs, p, s, oe, st, hr, h => by
    have hr0 := hr r (by simp)
    simp only [evalSequence]
    split
    · rename_i he
      exact evalSequence_kept start rs _ _ _ _ (fun x hx => hr x (by simp [hx])) (ok_ready hL hs hk hr0 h he).1
    · rename_i he; exact outOk_ret (hk r st s p hr0 h _ _ he)
    · exact outOk_timeout
    · exact outOk_panic

theorem evalRepeat_kept (r opt start) (hr : Part E.refs r) : ∀ n first p s oe st, Ready E text st s p →
    OutOk E text (evalRepeat ev r opt start n first p s oe st)
  | 0, _, _, _, _, _, _ => outOk_timeout
  | n + 1, first, p, s, oe, st, h => by
    simp only [evalRepeat]
    split
    · rename_i he
      exact evalRepeat_kept r opt start hr n _ _ _ _ _ (ok_ready hL hs hk hr h he).1
    · rename_i he
      have := hk r st s p hr h _ _ he
      split <;> exact outOk_ret this
    · exact outOk_timeout
    · exact outOk_panic

theorem evalSeparateBy_kept (r b opt trail start) (hr : Part E.refs r) (hb : Part E.refs b) :
    ∀ n first p s oe st, Ready E text st s p →
    OutOk E text (evalSeparateBy ev r b opt trail start n first p s oe st)
  | 0, _, _, _, _, _, _ => outOk_timeout
  | n + 1, first, p, s, oe, st, h => by
    simp only [evalSeparateBy]
    split
    · rename_i he
      have := hk r st s p hr h _ _ he
      split <;> exact outOk_ret this
    · rename_i he
      have h1 := (ok_ready hL hs hk hr h he).1
      split
      · rename_i he2; exact outOk_ret (hk b _ _ _ hb h1 _ _ he2)
      · rename_i he2
        exact evalSeparateBy_kept r b opt trail start hr hb n _ _ _ _ _ (ok_ready hL hs hk hb h1 he2).1
      · exact outOk_timeout
      · exact outOk_panic
    · exact outOk_timeout
    · exact outOk_panic

omit hL hs in
theorem evalOptional_kept (r st s p) (hr : Part E.refs r) (h : Ready E text st s p) :
    OutOk E text (evalOptional ev r st s p) := by
  unfold evalOptional
  split
  · rename_i he; exact outOk_ret (hk r st s p hr h _ _ he)
  · rename_i he; exact outOk_ret (hk r st s p hr h _ _ he)
  · exact outOk_timeout
  · exact outOk_panic

omit hL hs in
theorem evalNot_kept (r id st s p) (hr : Part E.refs r) (h : Ready E text st s p) :
    OutOk E text (evalNot ev r id st s p) := by
  unfold evalNot
  split
  · rename_i he; exact outOk_ret (hk r st s p hr h _ _ he)
  · rename_i he; exact outOk_ret (hk r st s p hr h _ _ he)
  · exact outOk_timeout
  · exact outOk_panic

/-- What is claimed of a call of the closure of `Lines::parse`. -/
def LineOk (E : Env) (text : Str) (p : Pos) : LineOut → Prop
  | .ret none x => VecOk E text x.st.toks
  | .ret (some range) x => range.length ≤ p.src.length ∧ Ready E text x.st x.s (p.consume range.length)
  | _ => True

theorem lineClosure_kept (r x p) (hr : Part E.refs r) (h : Ready E text x.st x.s p) :
    LineOk E text p (lineClosure ev r x p) := by
  unfold lineClosure
  split
  · rename_i he; exact hk r _ _ p hr h _ _ he
  · rename_i he
    have := ok_ready hL hs hk hr h he
    exact ⟨this.2.1, this.1⟩
  · trivial
  · trivial

omit hL hs hk in
theorem Ready.indent {st s p} (h : Ready E text st s p) (i : Nat) :
    Ready E text { st with ind := { st.ind with indent := i } } s p := by
  obtain ⟨j, hj⟩ := h.ind
  exact ⟨h.inside, h.le, ⟨i, by simp [hj, Env.ind]⟩, h.len, h.before, h.vec⟩

theorem lineItem_kept (r x) (p0 : Pos) (k : Nat) (hr : Part E.refs r) (hkl : k ≤ p0.src.length)
    (h : Ready E text x.st x.s p0) : LineOk E text p0 (lineItem ev r x p0 (p0.consume k)) := by
  unfold lineItem
  simp only
  split
  · trivial
  · have h1 := (h.move hkl).indent (x.st.ind.indent + 1)
    split
    · rename_i he
      exact (err_ready hs hk hr h1 he).vec
    · rename_i range s' err st' he
      obtain ⟨h2, h3, h4, -⟩ := ok_ready hL hs hk hr h1 he
      have hlen : range.offset + range.length - p0.off = k + range.length := by
        rw [h4]; show p0.off + k + _ - _ = _; omega
      have h5 : range.length ≤ p0.src.length - k := by simpa [Pos.consume] using h3
      simp only [LineOk, hlen]
      refine ⟨by omega, ?_⟩
      have : p0.consume (k + range.length) = (p0.consume k).consume range.length := by
        simp [Pos.consume, Nat.add_assoc]
      rw [this]
      exact h2.indent _
    · trivial
    · trivial

omit hL hs hk in
theorem eatIndent_le (tab : Nat) : ∀ cs n k, eatIndent tab cs n = some k → k ≤ cs.length := by
  intro cs
  induction cs with
  | nil => intro n k h; cases n <;> simp [eatIndent] at h; omega
  | cons c cs ih =>
    intro n k h
    cases n with
    | zero => simp [eatIndent] at h; omega
    | succ n =>
      simp only [eatIndent] at h
      split at h
      · obtain ⟨a, ha, rfl⟩ := Option.map_eq_some_iff.1 h
        have := ih _ _ ha
        simp; omega
      · split at h
        · split at h
          · simp at h; subst h; simp
          · obtain ⟨a, ha, rfl⟩ := Option.map_eq_some_iff.1 h
            have := ih _ _ ha
            simp; omega
        · simp at h

omit hL hs hk in
theorem eatAlign_le (tab : Nat) : ∀ cs, (eatAlign tab cs).1 ≤ cs.length
  | [] => by simp [eatAlign]
  | c :: cs => by
    have := eatAlign_le tab cs
    simp only [eatAlign]
    split
    · simp; omega
    · split
      · simp; omega
      · simp

theorem lineClosureIndent_kept (r x p) (hr : Part E.refs r) (h : Ready E text x.st x.s p) :
    LineOk E text p (lineClosureIndent ev r x p) := by
  unfold lineClosureIndent
  split
  · exact h.vec
  · rename_i k hk'
    have hkl := eatIndent_le _ _ _ _ hk'
    simp only
    split
    · have hal := eatAlign_le x.st.ind.tabSpaces (p.consume k).src
      split
      · trivial
      · have := lineItem_kept (p0 := p) (k := k + (eatAlign x.st.ind.tabSpaces (p.consume k).src).1)
          (x := { x with first := false, st := { x.st with ind := { x.st.ind with indent := x.st.ind.indent + (eatAlign x.st.ind.tabSpaces (p.consume k).src).2 } } })
          hL hs hk r hr (by simp [Pos.consume] at hal ⊢; omega) (h.indent _)
        rw [show p.consume (k + (eatAlign x.st.ind.tabSpaces (p.consume k).src).1)
          = (p.consume k).consume (eatAlign x.st.ind.tabSpaces (p.consume k).src).1 by
            simp [Pos.consume, Nat.add_assoc]] at this
        exact this
    · split
      · exact h.vec
      · exact lineItem_kept hL hs hk r x p k hr hkl h

omit hs hk in
theorem evalLines_kept {cl : LineSt → Pos → LineOut} (hcl : ∀ x p, Ready E text x.st x.s p → LineOk E text p (cl x p))
    (id start) : ∀ n first item p x, Ready E text x.st x.s p →
    OutOk E text (evalLines E.L cl id start n first item p x)
  | 0, _, _, _, _, _ => outOk_timeout
  | n + 1, first, item, p, x, h => by
    simp only [evalLines]
    split
    · exact outOk_ret h.vec
    · exact outOk_ret h.vec
    · rename_i k hc
      have h1 := h.move (hL.line_call hc).1
      have h2 := hcl x _ h1
      split
      · rename_i he; rw [he] at h2; exact outOk_ret h2
      · rename_i he; rw [he] at h2; exact evalLines_kept hcl id start n _ _ _ _ h2.2
      · exact outOk_timeout
      · exact outOk_panic

omit hs hk in
/-- A leaf: the vector is as before, or ends with the item. -/
theorem emitOpt_kept {prop mk rg r st s p} (hr : Part E.refs r) (h : Ready E text st s p)
    (hg : ∀ i toks, st = ⟨toks, E.ind i⟩ → Good E (.rule r) p i toks s none p.off (emitOpt prop mk rg st s)) :
    OutOk E text (emitOpt prop mk rg st s) := by
  obtain ⟨i, hi⟩ := h.ind
  obtain ⟨toks, ind⟩ := st
  simp only at hi
  subst hi
  have hg := hg i toks rfl
  cases prop with
  | none => exact outOk_ret h.vec
  | some name =>
    simp only [emitOpt, pushOpt] at hg ⊢
    obtain ⟨n, ts, j, tr, hrun, -, -, ht, -⟩ := hg
    refine outOk_ret ?_
    have := vecOk_extend hL h hr hrun
    rw [← ht] at this
    rwa [show (readData toks ⟨rg, mk name⟩ s).2 = (readData toks ⟨rg, mk name⟩ s).1.length from rfl,
      List.take_length] at this

/-- A node: the item that opens it, the items of the rule, the item that closes it. -/
theorem evalNode_kept (name prop index id st s p) (hr : Part E.refs (.node name prop index id))
    (h : Ready E text st s p) : OutOk E text (evalNode ev E.refs prop index id st s p) := by
  have hg : ∀ i toks, st = ⟨toks, E.ind i⟩ → Good E (.rule (.node name prop index id)) p i toks s none p.off
      (evalNode ev E.refs prop index id st s p) := by
    rintro i toks rfl
    exact node_good hs name prop index id i toks s p h.len
  obtain ⟨i, hi⟩ := h.ind
  obtain ⟨toks, ind⟩ := st
  simp only at hi
  subst hi
  have hg := hg i toks rfl
  have hstart : ∀ ix, index = some ix → Ready E text (pushOpt prop .startNode p.start ⟨toks, E.ind i⟩ s).1
      (pushOpt prop .startNode p.start ⟨toks, E.ind i⟩ s).2 p := by
    rintro ix rfl
    cases prop with
    | none => exact h
    | some n =>
      have hv := h.vec.take s
      have he : (pushOpt (some n) .startNode p.start ⟨toks, E.ind i⟩ s) =
          (⟨toks.take s ++ [⟨p.start, .startNode n⟩], E.ind i⟩,
            (toks.take s ++ [(⟨p.start, .startNode n⟩ : Tok)]).length) := by
        simp only [pushOpt, readData]
        split
        · rfl
        · rename_i hc
          have : s = toks.length := by have := h.len; simp at this; omega
          subst this
          simp
      rw [he]
      have hb : ∀ t ∈ toks.take s ++ [(⟨p.start, .startNode n⟩ : Tok)], t.range.next ≤ p.off := by
        intro t ht
        rcases List.mem_append.1 ht with ht | ht
        · exact h.before t ht
        · simp at ht; subst ht; simp [Pos.start, Range.next]
      refine ⟨h.inside, h.le, ⟨i, rfl⟩, Nat.le_refl _, fun t ht => hb t (List.mem_of_mem_take ht), ?_, ?_,
        fun t ht => Nat.le_trans (hb t ht) h.le, ?_⟩
      · intro t ht
        rcases List.mem_append.1 ht with ht | ht
        · exact hv.recs t ht
        · simp at ht; subst ht; exact ⟨_, hr, .startNode⟩
      · refine List.pairwise_append.2 ⟨hv.order, by simp, fun a ha b hb => ?_⟩
        simp at hb; subst hb
        have := h.before a ha
        simp only [Precedes, Pos.start, Range.next] at *
        omega
      · obtain ⟨rest, hrest⟩ := hv.nest
        refine ⟨.endNode n :: rest, ?_⟩
        have := wellNested_insert (WellNested.node (name := n) .nil .nil) hrest rfl
        simpa using this
  unfold evalNode at hg ⊢
  cases index with
  | none => exact outOk_ret h.vec
  | some ix =>
    have h1 := hstart ix rfl
    simp only at hg ⊢
    cases hrf : E.refs[ix]? with
    | none => exact outOk_panic
    | some rule =>
      have hrule := part_ref hrf
      simp only [hrf] at hg ⊢
      cases he : ev rule (pushOpt prop .startNode p.start ⟨toks, E.ind i⟩ s).1
        (pushOpt prop .startNode p.start ⟨toks, E.ind i⟩ s).2 p with
      | timeout => exact outOk_timeout
      | panic => exact outOk_panic
      | ret res st2 =>
        cases res with
        | err e => exact outOk_ret (hk rule _ _ p hrule h1 _ _ he)
        | ok range s2 err =>
          simp only [he] at hg ⊢
          cases prop with
          | none => exact outOk_ret (hk rule _ _ p hrule h1 _ _ he)
          | some n =>
            obtain ⟨m, ts, j, tr, hrun, -, -, ht, -⟩ := hg
            refine outOk_ret ?_
            have := vecOk_extend hL h hr hrun
            rw [← ht] at this
            rwa [show ∀ t, (pushOpt (some n) .endNode t st2 s2).2 = (pushOpt (some n) .endNode t st2 s2).1.toks.length
              from fun _ => rfl, List.take_length] at this

theorem step_kept (fuel : Nat) : EvKept E text (step E.L E.refs ev fuel) := by
  intro r st s p hr h
  have hgood : ∀ i toks, st = ⟨toks, E.ind i⟩ → Good E (.rule r) p i toks s none p.off
      (step E.L E.refs ev fuel r st s p) := by
    rintro i toks rfl
    exact step_sound hs fuel r i toks s p h.len
  have hc : ∀ c, Child c r → Part E.refs c := fun c => part_child hr
  cases r with
  | whitespace opt id =>
    simp only [step, evalWhitespace]; split <;> exact outOk_ret h.vec
  | tag t nt inv prop id =>
    simp only [step, evalTag] at hgood ⊢
    split <;> split <;> first
      | exact outOk_ret h.vec
      | (refine emitOpt_kept hL hr h fun i toks e => ?_
         have := hgood i toks e
         simp_all)
  | untilAny any opt prop id =>
    simp only [step, evalUntilAny] at hgood ⊢
    split
    · exact outOk_ret h.vec
    · refine emitOpt_kept hL hr h fun i toks e => ?_
      have := hgood i toks e
      rwa [if_neg (by assumption)] at this
  | untilAnyOrWs any opt prop id =>
    simp only [step, evalUntilAnyOrWs] at hgood ⊢
    split
    · exact outOk_ret h.vec
    · refine emitOpt_kept hL hr h fun i toks e => ?_
      have := hgood i toks e
      rwa [if_neg (by assumption)] at this
  | text empty prop id =>
    simp only [step, evalText] at hgood ⊢
    split
    · split
      · exact outOk_ret h.vec
      · split
        · exact outOk_ret h.vec
        · refine emitOpt_kept hL hr h fun i toks e => ?_
          have := hgood i toks e
          simpa only [*, if_false] using this
    · exact outOk_ret h.vec
  | number prop us id =>
    simp only [step, evalNumber] at hgood ⊢
    split
    · split
      · exact outOk_ret h.vec
      · refine emitOpt_kept hL hr h fun i toks e => ?_
        have := hgood i toks e
        simpa only [*] using this
    · exact outOk_ret h.vec
  | select args id => exact evalSelect_kept hs hk id s p args none st (fun r hr => hc r (.select hr)) h
  | fastSelect tb args tail id =>
    exact evalFastSelect_kept hs hk tb args tail id st s p (fun r hr => hc r (.fast hr)) h
  | sequence args id => exact evalSequence_kept hL hs hk p args p s none st (fun r hr => hc r (.sequence hr)) h
  | separateBy r b opt trail id =>
    exact evalSeparateBy_kept hL hs hk r b opt trail p (hc r (by constructor)) (hc b (by constructor)) fuel true p s none st h
  | repeat_ r opt id => exact evalRepeat_kept hL hs hk r opt p (hc r (by constructor)) fuel true p s none st h
  | lines r indent id =>
    simp only [step]
    refine evalLines_kept hL (fun x q hx => ?_) id p fuel true [] p ⟨s, none, true, st⟩ h
    split
    · exact lineClosureIndent_kept hL hs hk r x q (hc r (by constructor)) hx
    · exact lineClosure_kept hL hs hk r x q (hc r (by constructor)) hx
  | node name prop index id => exact evalNode_kept hL hs hk name prop index id st s p hr h
  | optional r id => exact evalOptional_kept hk r st s p (hc r (by constructor)) h
  | not r id => exact evalNot_kept hk r id st s p (hc r (by constructor)) h

end

theorem eval_kept {E : Env} (hL : E.L.Lawful) (text : Str) : ∀ n, EvKept E text (eval E.L E.refs n)
  | 0 => fun _ _ _ _ _ _ => outOk_timeout
  | n + 1 => step_kept hL (eval_sound E n) (eval_kept hL text n) n

end Verif
