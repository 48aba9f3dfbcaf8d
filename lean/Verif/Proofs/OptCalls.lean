import Verif.Proofs.CallDepth
import Verif.Proofs.OptRun
/-
The calls made with a syntax and with the optimized syntax.
-/
namespace Verif
open Spec

mutual
/-- Like `Sim`, for tables with at least two entries, and without guards. -/
inductive Tabled (refs : List Rule) (n : Nat) (Q : Rule → Prop) : Rule → Rule → Prop
  | whitespace {a b} : Tabled refs n Q (.whitespace a b) (.whitespace a b)
  | tag {a b c d e} : Tabled refs n Q (.tag a b c d e) (.tag a b c d e)
  | untilAny {a b c d} : Tabled refs n Q (.untilAny a b c d) (.untilAny a b c d)
  | untilAnyOrWs {a b c d} : Tabled refs n Q (.untilAnyOrWs a b c d) (.untilAnyOrWs a b c d)
  | text {a b c} : Tabled refs n Q (.text a b c) (.text a b c)
  | number {a b c} : Tabled refs n Q (.number a b c) (.number a b c)
  | node {a b c d} : Tabled refs n Q (.node a b c d) (.node a b c d)
  | fastSelect {t rs rs' tl id} (h : TabledL refs n Q rs rs') :
      Tabled refs n Q (.fastSelect t rs tl id) (.fastSelect t rs' tl id)
  | select {rs rs' id} (h : TabledL refs n Q rs rs') : Tabled refs n Q (.select rs id) (.select rs' id)
  | fast {rs rs' id t} (ht : uniqueTable refs n rs = .ok (t, rs.length)) (hne : rs ≠ [])
      (h : TabledL refs n Q rs rs') : Tabled refs n Q (.select rs id) (.fastSelect t rs' false id)
  | tail {rs rs' id t u} (ht : uniqueTable refs n rs = .ok (t, u)) (h2 : 2 ≤ u) (hu : u < rs.length)
      (hQ : ∀ b ∈ rs.drop u, Q b) (h : TabledL refs n Q rs rs') :
      Tabled refs n Q (.select rs id)
        (.fastSelect t (rs'.take u ++ [.select (rs'.drop u) id]) true id)
  | sequence {rs rs' id} (h : TabledL refs n Q rs rs') :
      Tabled refs n Q (.sequence rs id) (.sequence rs' id)
  | separateBy {r r' b b' o t id} (h : Tabled refs n Q r r') (h' : Tabled refs n Q b b') :
      Tabled refs n Q (.separateBy r b o t id) (.separateBy r' b' o t id)
  | repeat_ {r r' o id} (h : Tabled refs n Q r r') : Tabled refs n Q (.repeat_ r o id) (.repeat_ r' o id)
  | lines {r r' i id} (h : Tabled refs n Q r r') : Tabled refs n Q (.lines r i id) (.lines r' i id)
  | optional {r r' id} (h : Tabled refs n Q r r') : Tabled refs n Q (.optional r id) (.optional r' id)
  | not {r r' id} (h : Tabled refs n Q r r') : Tabled refs n Q (.not r id) (.not r' id)
/-- The same for lists. -/
inductive TabledL (refs : List Rule) (n : Nat) (Q : Rule → Prop) : List Rule → List Rule → Prop
  | nil : TabledL refs n Q [] []
  | cons {r r' rs rs'} (h : Tabled refs n Q r r') (h' : TabledL refs n Q rs rs') :
      TabledL refs n Q (r :: rs) (r' :: rs')
end

section
variable {refs : List Rule} {n : Nat} {Q : Rule → Prop}

mutual
theorem Tabled.refl : (r : Rule) → Tabled refs n Q r r
  | .whitespace _ _ => .whitespace
  | .tag _ _ _ _ _ => .tag
  | .untilAny _ _ _ _ => .untilAny
  | .untilAnyOrWs _ _ _ _ => .untilAnyOrWs
  | .text _ _ _ => .text
  | .number _ _ _ => .number
  | .node _ _ _ _ => .node
  | .fastSelect _ args _ _ => .fastSelect (TabledL.refl args)
  | .select args _ => .select (TabledL.refl args)
  | .sequence args _ => .sequence (TabledL.refl args)
  | .separateBy r b _ _ _ => .separateBy (Tabled.refl r) (Tabled.refl b)
  | .repeat_ r _ _ => .repeat_ (Tabled.refl r)
  | .lines r _ _ => .lines (Tabled.refl r)
  | .optional r _ => .optional (Tabled.refl r)
  | .not r _ => .not (Tabled.refl r)
theorem TabledL.refl : (rs : List Rule) → TabledL refs n Q rs rs
  | [] => .nil
  | r :: rs => .cons (Tabled.refl r) (TabledL.refl rs)
end

mutual
theorem Tabled.sim {r r' : Rule} : Tabled refs n Q r r' → Sim refs n Q r r'
  | .whitespace => .whitespace
  | .tag => .tag
  | .untilAny => .untilAny
  | .untilAnyOrWs => .untilAnyOrWs
  | .text => .text
  | .number => .number
  | .node => .node
  | .fastSelect h => .fastSelect h.simL
  | .select h => .select h.simL
  | .fast ht hne h => .fast ht hne h.simL
  | .tail ht h2 hu hQ h => .tail ht (by omega) hu hQ h.simL
  | .sequence h => .sequence h.simL
  | .separateBy h h' => .separateBy h.sim h'.sim
  | .repeat_ h => .repeat_ h.sim
  | .lines h => .lines h.sim
  | .optional h => .optional h.sim
  | .not h => .not h.sim
theorem TabledL.simL {rs rs' : List Rule} : TabledL refs n Q rs rs' → SimL refs n Q rs rs'
  | .nil => .nil
  | .cons h h' => .cons h.sim h'.simL
end

theorem TabledL.length {rs rs' : List Rule} (h : TabledL refs n Q rs rs') : rs.length = rs'.length := h.simL.length

theorem TabledL.get {rs rs' : List Rule} (h : TabledL refs n Q rs rs') : ∀ (k : Nat) (r'),
    rs'[k]? = some r' → ∃ r, rs[k]? = some r ∧ Tabled refs n Q r r' :=
  match h with
  | .nil => by simp
  | .cons h h' => by
    intro k r hk
    cases k with
    | zero => simp at hk; subst hk; exact ⟨_, rfl, h⟩
    | succ k => simpa using h'.get _ _ (by simpa using hk)

theorem TabledL.get' {rs rs' : List Rule} (h : TabledL refs n Q rs rs') (k : Nat) (r) (hr : rs[k]? = some r) :
    ∃ r', rs'[k]? = some r' ∧ Tabled refs n Q r r' := by
  have h1 := (List.getElem?_eq_some_iff.1 hr).1
  have h2 : rs'[k]? = some (rs'[k]'(by rw [← h.length]; exact h1)) := List.getElem?_eq_getElem _
  obtain ⟨r0, h3, h4⟩ := h.get k _ h2
  rw [hr] at h3
  cases h3
  exact ⟨_, h2, h4⟩

theorem TabledL.last {rs rs' : List Rule} (h : TabledL refs n Q rs rs') {r'}
    (hk : rs'.getLast? = some r') : ∃ r, rs.getLast? = some r ∧ Tabled refs n Q r r' := by
  rw [List.getLast?_eq_getElem?] at hk ⊢
  rw [h.length]
  exact h.get _ _ hk

theorem TabledL.drop {rs rs' : List Rule} (h : TabledL refs n Q rs rs') : ∀ k,
    TabledL refs n Q (rs.drop k) (rs'.drop k) :=
  match h with
  | .nil => by intro k; simp; exact .nil
  | .cons h h' => by
    intro k
    cases k with
    | zero => exact .cons h h'
    | succ k => exact h'.drop k

mutual
theorem opt_tabled : (r : Rule) → {r' : Rule} →
    (∀ args id t u, Occurs (.select args id) r → uniqueTable refs n args = .ok (t, u) → 2 ≤ u →
      ∀ b ∈ args.drop u, Q b) →
    optimizeRule refs n r = .ok r' → Tabled refs n Q r r'
  | .whitespace _ _, _, _, h => by simp [optimizeRule] at h; subst h; exact .whitespace
  | .tag _ _ _ _ _, _, _, h => by simp [optimizeRule] at h; subst h; exact .tag
  | .untilAny _ _ _ _, _, _, h => by simp [optimizeRule] at h; subst h; exact .untilAny
  | .untilAnyOrWs _ _ _ _, _, _, h => by simp [optimizeRule] at h; subst h; exact .untilAnyOrWs
  | .text _ _ _, _, _, h => by simp [optimizeRule] at h; subst h; exact .text
  | .number _ _ _, _, _, h => by simp [optimizeRule] at h; subst h; exact .number
  | .node _ _ _ _, _, _, h => by simp [optimizeRule] at h; subst h; exact .node
  | .fastSelect _ _ _ _, _, _, h => by simp [optimizeRule] at h; subst h; exact Tabled.refl _
  | .sequence args id, _, hq, h => by
    simp only [optimizeRule] at h
    obtain ⟨args', h1, h2⟩ := Comp.bind_ok.1 h
    cases Comp.pure_ok.1 h2
    exact .sequence (opt_tabledL args (fun x hx => hq' hq (.sequence hx)) h1)
  | .separateBy r b _ _ _, _, hq, h => by
    simp only [optimizeRule] at h
    obtain ⟨r', h1, h2⟩ := Comp.bind_ok.1 h
    obtain ⟨b', h3, h4⟩ := Comp.bind_ok.1 h2
    cases Comp.pure_ok.1 h4
    exact .separateBy (opt_tabled r (hq' hq .item) h1) (opt_tabled b (hq' hq .sep) h3)
  | .repeat_ r _ _, _, hq, h => by
    simp only [optimizeRule] at h
    obtain ⟨r', h1, h2⟩ := Comp.bind_ok.1 h
    cases Comp.pure_ok.1 h2
    exact .repeat_ (opt_tabled r (hq' hq .repeat_) h1)
  | .lines r _ _, _, hq, h => by
    simp only [optimizeRule] at h
    obtain ⟨r', h1, h2⟩ := Comp.bind_ok.1 h
    cases Comp.pure_ok.1 h2
    exact .lines (opt_tabled r (hq' hq .lines) h1)
  | .optional r _, _, hq, h => by
    simp only [optimizeRule] at h
    obtain ⟨r', h1, h2⟩ := Comp.bind_ok.1 h
    cases Comp.pure_ok.1 h2
    exact .optional (opt_tabled r (hq' hq .optional) h1)
  | .not r _, _, hq, h => by
    simp only [optimizeRule] at h
    obtain ⟨r', h1, h2⟩ := Comp.bind_ok.1 h
    cases Comp.pure_ok.1 h2
    exact .not (opt_tabled r (hq' hq .not) h1)
  | .select args id, r', hq, h => by
    simp only [optimizeRule] at h
    obtain ⟨t, u, args', ht, h1, h2⟩ := optimizeSelect_ok (by simp [optimizeRules_eq]) h
    have hsim := opt_tabledL args (fun x hx => hq' hq (.select hx)) h1
    have hq0 := hq args id t u .refl ht
    rcases h2 with ⟨_, rfl⟩ | ⟨hu, rfl, rfl⟩ | ⟨hu, hlt, rfl⟩
    · exact .select hsim
    · exact .fast ht (by rintro rfl; simp at hu) hsim
    · exact .tail ht hu hlt (hq0 hu) hsim
theorem opt_tabledL : (rs : List Rule) → {rs' : List Rule} →
    (∀ x ∈ rs, ∀ args id t u, Occurs (.select args id) x → uniqueTable refs n args = .ok (t, u) →
      2 ≤ u → ∀ b ∈ args.drop u, Q b) →
    Comp.all (optimizeRules refs n rs) = .ok rs' → TabledL refs n Q rs rs'
  | [], _, _, h => by simp [optimizeRules, Comp.all] at h; subst h; exact .nil
  | r :: rs, _, hq, h => by
    simp only [optimizeRules] at h
    obtain ⟨a, as, h1, h2, rfl⟩ := Comp.all_cons_ok.1 h
    exact .cons (opt_tabled r (hq r (by simp)) h1) (opt_tabledL rs (fun x hx => hq x (by simp [hx])) h2)
end

end

/-- `l'` goes along with `l`, but may end before it. -/
inductive Follows (R : Call → Call → Prop) : List Call → List Call → Prop
  | nil {l} : Follows R l []
  | cons {c c' l l'} (h : R c c') (h' : Follows R l l') : Follows R (c :: l) (c' :: l')

theorem Follows.append {R : Call → Call → Prop} {l l' m m' : List Call} (h : Follows R l l') (hl : l.length = l'.length)
    (hm : Follows R m m') : Follows R (l ++ m) (l' ++ m') := by
  induction h with
  | nil =>
    rw [List.length_eq_zero_iff.1 hl]
    exact hm
  | cons h _ ih => exact .cons h (ih (by simpa using hl))

/-- The sums. -/
theorem Follows.sum {R : Call → Call → Prop} {l l' : List Call} {f f' : Call → Nat} (h : Follows R l l')
    (hf : ∀ c c', R c c' → f' c' ≤ f c) : (l'.map f').sum ≤ (l.map f).sum := by
  induction h with
  | nil => simp
  | cons h _ ih =>
    have := hf _ _ h
    simp only [List.map_cons, List.sum_cons]
    omega

/-- The maxima. -/
theorem Follows.max {R : Call → Call → Prop} {l l' : List Call} {f f' : Call → Nat} (h : Follows R l l')
    (hf : ∀ c c', R c c' → f' c' ≤ 2 * f c - 1) : (l'.map f').foldr max 0 ≤ 2 * (l.map f).foldr max 0 - 1 := by
  induction h with
  | nil => simp
  | cons h _ ih =>
    have := hf _ _ h
    simp only [List.map_cons, List.foldr_cons]
    omega

section
variable {L : Lexer} {refs refs' : List Rule} {align : Bool} {tab : Nat} {n : Nat} {Q : Rule → Prop}

/-- The original syntax. -/
local notation "EE" => (Env.mk L refs align tab)
/-- The optimized syntax. -/
local notation "EO" => (Env.mk L refs' align tab)

/-- The same indentation; the data may differ. -/
def Match (E : Env) (st : St) (s : Nat) (st' : St) (s' : Nat) : Prop :=
  (∃ i, st.ind = E.ind i ∧ st'.ind = E.ind i) ∧ s ≤ st.toks.length ∧ s' ≤ st'.toks.length

/-- Related calls, of which the first returns. -/
structure CallRel (L : Lexer) (refs : List Rule) (align : Bool) (tab : Nat) (n : Nat) (Q : Rule → Prop) (ev : Ev)
    (c c' : Call) : Prop where
  rule : Tabled refs n Q c.rule c'.rule
  pos : c'.p = c.p
  st : Match (Env.mk L refs align tab) c.st c.s c'.st c'.s
  ret : ∃ o st, c.run ev = .ret o st

variable (hL : L.Lawful) (hQ : Q = EndRefused (Env.mk L refs align tab)) (hrefs : TabledL refs n Q refs refs')
  {ev ev' : Ev} (hev : EvSound (Env.mk L refs align tab) ev) (hev' : EvSound (Env.mk L refs' align tab) ev')

include hL hQ hrefs hev hev' in
/-- Related calls that return come to the same, but for the data. -/
theorem calls_agree {r r' : Rule} (hr : Tabled refs n Q r r') {st st' : St} {s s' : Nat} {p : Pos}
    (hm : Match EE st s st' s') {o o' x x'} (h : ev r st s p = .ret o x) (h' : ev' r' st' s' p = .ret o' x') :
    (∃ e e', o = .err e ∧ o' = .err e' ∧ Match EE x s x' s') ∨
      ∃ range s1 oe range' s1' oe', o = .ok range s1 oe ∧ o' = .ok range' s1' oe' ∧ range' = range ∧
        Match EE x s1 x' s1' := by
  obtain ⟨⟨i, hi, hi'⟩, hs, hs'⟩ := hm
  obtain ⟨toks, ind⟩ := st
  obtain ⟨toks', ind'⟩ := st'
  simp only at hi hi' hs hs'
  subst hi hi'
  have hg := hev r i toks s p hs
  have hg' := hev' r' i toks' s' p hs'
  have hind : ∀ j, Env.ind EO j = Env.ind EE j := fun _ => rfl
  rw [hind, h'] at hg'
  rw [h] at hg
  cases o with
  | err e =>
    obtain ⟨j, tr, hrun, h1, -, h2, -⟩ := hg
    obtain ⟨tr', hrun', -⟩ := run_opt hL hQ hrefs.simL hrun _ (.rule hr.sim)
    cases o' with
    | err e' =>
      obtain ⟨j', tr2, hrun2, h1', -, h2', -⟩ := hg'
      obtain ⟨-, hj, -⟩ := hrun'.det hrun2
      exact .inl ⟨e, e', rfl, rfl, ⟨j, h2, by rw [h2', ← hj]; rfl⟩, h1, h1'⟩
    | ok range' s1' oe' =>
      obtain ⟨n', ts', j', tr2, hrun2, -⟩ := hg'
      have := (hrun'.det hrun2).1
      simp at this
  | ok range s1 oe =>
    obtain ⟨m, ts, j, tr, hrun, hra, h1, -, h2, -⟩ := hg
    obtain ⟨tr', hrun', -⟩ := run_opt hL hQ hrefs.simL hrun _ (.rule hr.sim)
    cases o' with
    | err e' =>
      obtain ⟨j', tr2, hrun2, h1', -, h2', -⟩ := hg'
      have := (hrun'.det hrun2).1
      simp at this
    | ok range' s1' oe' =>
      obtain ⟨m', ts', j', tr2, hrun2, hra', h1', -, h2', -⟩ := hg'
      obtain ⟨ho, hj, -⟩ := hrun'.det hrun2
      simp only [Option.some.injEq, Prod.mk.injEq] at ho
      refine .inr ⟨_, _, _, _, _, _, rfl, rfl, ?_, ⟨j, h2, by rw [h2', ← hj]; rfl⟩, h1, h1'⟩
      rw [hra, hra', ho.1]

include hL hQ hrefs hev hev' in
theorem select_follows {id s s' p} : ∀ {rs rs' : List Rule} {oe st st' o x}, TabledL refs n Q rs rs' → Match EE st s st' s' →
    evalSelect ev id s p rs oe st = .ret o x → Follows (CallRel L refs align tab n Q ev) (selectCalls ev s p rs st) (selectCalls ev' s' p rs' st')
  | [], _, _, _, _, _, _, .nil, _, _ => .nil
  | r :: rs, _, oe, st, st', o, x, .cons (r' := r') (rs' := rs') hr hrs, hm, h => by
    simp only [evalSelect] at h
    simp only [selectCalls]
    cases ho : ev r st s p with
    | timeout => rw [ho] at h; simp at h
    | panic => rw [ho] at h; simp at h
    | ret o1 x1 =>
      refine .cons ⟨hr, rfl, hm, _, _, ho⟩ ?_
      cases ho' : ev' r' st' s' p with
      | timeout => exact .nil
      | panic => exact .nil
      | ret o1' x1' =>
        rcases calls_agree hL hQ hrefs hev hev' hr hm ho ho' with ⟨e, e', rfl, rfl, hm'⟩ |
          ⟨range, s1, oe1, range', s1', oe1', rfl, rfl, -, -⟩
        · rw [ho] at h
          exact select_follows hrs hm' h
        · exact .nil

include hL hQ hrefs hev hev' in
theorem sequence_follows {start} : ∀ {rs rs' : List Rule} {p s s' oe st st' o x}, TabledL refs n Q rs rs' →
    Match EE st s st' s' → evalSequence ev start rs p s oe st = .ret o x →
    Follows (CallRel L refs align tab n Q ev) (sequenceCalls ev rs p s st) (sequenceCalls ev' rs' p s' st')
  | [], _, _, _, _, _, _, _, _, _, .nil, _, _ => .nil
  | r :: rs, _, p, s, s', oe, st, st', o, x, .cons (r' := r') (rs' := rs') hr hrs, hm, h => by
    simp only [evalSequence] at h
    simp only [sequenceCalls]
    cases ho : ev r st s p with
    | timeout => rw [ho] at h; simp at h
    | panic => rw [ho] at h; simp at h
    | ret o1 x1 =>
      refine .cons ⟨hr, rfl, hm, _, _, ho⟩ ?_
      cases ho' : ev' r' st' s' p with
      | timeout => exact .nil
      | panic => exact .nil
      | ret o1' x1' =>
        rcases calls_agree hL hQ hrefs hev hev' hr hm ho ho' with ⟨e, e', rfl, rfl, -⟩ |
          ⟨range, s1, oe1, range', s1', oe1', rfl, rfl, hlen, hm'⟩
        · exact .nil
        · rw [ho] at h
          simp only [hlen]
          exact sequence_follows hrs hm' h

include hL hQ hrefs hev hev' in
theorem repeat_follows {r r' : Rule} (hr : Tabled refs n Q r r') {opt start} : ∀ {fuel fuel' : Nat} {first p s s' oe st st' o x},
    Match EE st s st' s' → evalRepeat ev r opt start fuel first p s oe st = .ret o x →
    Follows (CallRel L refs align tab n Q ev) (repeatCalls ev r fuel p s st) (repeatCalls ev' r' fuel' p s' st')
  | 0, _, _, _, _, _, _, _, _, _, _, _, h => by simp [evalRepeat] at h
  | _ + 1, 0, _, _, _, _, _, _, _, _, _, _, _ => .nil
  | fuel + 1, fuel' + 1, first, p, s, s', oe, st, st', o, x, hm, h => by
    simp only [evalRepeat] at h
    simp only [repeatCalls]
    cases ho : ev r st s p with
    | timeout => rw [ho] at h; simp at h
    | panic => rw [ho] at h; simp at h
    | ret o1 x1 =>
      refine .cons ⟨hr, rfl, hm, _, _, ho⟩ ?_
      cases ho' : ev' r' st' s' p with
      | timeout => exact .nil
      | panic => exact .nil
      | ret o1' x1' =>
        rcases calls_agree hL hQ hrefs hev hev' hr hm ho ho' with ⟨e, e', rfl, rfl, -⟩ |
          ⟨range, s1, oe1, range', s1', oe1', rfl, rfl, hlen, hm'⟩
        · exact .nil
        · rw [ho] at h
          simp only [hlen]
          exact repeat_follows hr hm' h

include hL hQ hrefs hev hev' in
theorem separateBy_follows {r r' b b' : Rule} (hr : Tabled refs n Q r r') (hb : Tabled refs n Q b b') {opt trail start} :
    ∀ {fuel fuel' : Nat} {first p s s' oe st st' o x},
    Match EE st s st' s' → evalSeparateBy ev r b opt trail start fuel first p s oe st = .ret o x →
    Follows (CallRel L refs align tab n Q ev) (separateByCalls ev r b fuel p s st) (separateByCalls ev' r' b' fuel' p s' st')
  | 0, _, _, _, _, _, _, _, _, _, _, _, h => by simp [evalSeparateBy] at h
  | _ + 1, 0, _, _, _, _, _, _, _, _, _, _, _ => .nil
  | fuel + 1, fuel' + 1, first, p, s, s', oe, st, st', o, x, hm, h => by
    simp only [evalSeparateBy] at h
    simp only [separateByCalls]
    cases ho : ev r st s p with
    | timeout => rw [ho] at h; simp at h
    | panic => rw [ho] at h; simp at h
    | ret o1 x1 =>
      refine .cons ⟨hr, rfl, hm, _, _, ho⟩ ?_
      cases ho' : ev' r' st' s' p with
      | timeout => exact .nil
      | panic => exact .nil
      | ret o1' x1' =>
        rcases calls_agree hL hQ hrefs hev hev' hr hm ho ho' with ⟨e, e', rfl, rfl, -⟩ |
          ⟨range, s1, oe1, range', s1', oe1', rfl, rfl, hlen, hm'⟩
        · exact .nil
        · rw [ho] at h
          simp only [hlen] at h ⊢
          cases ho2 : ev b x1 s1 (p.consume range.length) with
          | timeout => rw [ho2] at h; simp at h
          | panic => rw [ho2] at h; simp at h
          | ret o2 x2 =>
            refine .cons ⟨hb, rfl, hm', _, _, ho2⟩ ?_
            cases ho2' : ev' b' x1' s1' (p.consume range.length) with
            | timeout => exact .nil
            | panic => exact .nil
            | ret o2' x2' =>
              rcases calls_agree hL hQ hrefs hev hev' hb hm' ho2 ho2' with ⟨e, e', rfl, rfl, -⟩ |
                ⟨range2, s2, oe2, range2', s2', oe2', rfl, rfl, hlen2, hm2⟩
              · exact .nil
              · rw [ho2] at h
                simp only [hlen2]
                exact separateBy_follows hr hb hm2 h

/-- The variables of the closure of `Lines::parse`. -/
def MatchLine (E : Env) (x x' : LineSt) : Prop :=
  Match E x.st x.s x'.st x'.s ∧ (E.align = true → x'.first = x.first)

include hL hQ hrefs hev hev' in
theorem lineClosure_follows {r r' : Rule} (hr : Tabled refs n Q r r') {x x' : LineSt} (hx : MatchLine EE x x') {p o y}
    (h : lineClosure ev r x p = .ret o y) :
    Follows (CallRel L refs align tab n Q ev) (lineClosureCalls r x p) (lineClosureCalls r' x' p) ∧
    (lineClosureCalls r x p).length = (lineClosureCalls r' x' p).length ∧
    ∀ o' y', lineClosure ev' r' x' p = .ret o' y' → o' = o ∧ MatchLine EE y y' := by
  unfold lineClosure at h
  cases ho : ev r x.st x.s p with
  | timeout => rw [ho] at h; simp at h
  | panic => rw [ho] at h; simp at h
  | ret o1 x1 =>
    refine ⟨.cons ⟨hr, rfl, hx.1, _, _, ho⟩ .nil, rfl, ?_⟩
    intro o' y' h'
    unfold lineClosure at h'
    cases ho' : ev' r' x'.st x'.s p with
    | timeout => rw [ho'] at h'; simp at h'
    | panic => rw [ho'] at h'; simp at h'
    | ret o1' x1' =>
      rw [ho] at h
      rw [ho'] at h'
      rcases calls_agree hL hQ hrefs hev hev' hr hx.1 ho ho' with ⟨e, e', rfl, rfl, hm⟩ |
        ⟨range, s1, oe1, range', s1', oe1', rfl, rfl, rfl, hm⟩
      · simp only [LineOut.ret.injEq] at h h'
        obtain ⟨rfl, rfl⟩ := h
        obtain ⟨rfl, rfl⟩ := h'
        exact ⟨rfl, hm, hx.2⟩
      · simp only [LineOut.ret.injEq] at h h'
        obtain ⟨rfl, rfl⟩ := h
        obtain ⟨rfl, rfl⟩ := h'
        exact ⟨rfl, hm, hx.2⟩

include hL hQ hrefs hev hev' in
theorem lineItem_follows {r r' : Rule} (hr : Tabled refs n Q r r') {x x' : LineSt} (hx : MatchLine EE x x') {p0 p o y}
    (h : lineItem ev r x p0 p = .ret o y) :
    Follows (CallRel L refs align tab n Q ev) (lineItemCalls r x p) (lineItemCalls r' x' p) ∧
    (lineItemCalls r x p).length = (lineItemCalls r' x' p).length ∧
    ∀ o' y', lineItem ev' r' x' p0 p = .ret o' y' → o' = o ∧ MatchLine EE y y' := by
  obtain ⟨s, oe, fl, toks, ind⟩ := x
  obtain ⟨s', oe', fl', toks', ind'⟩ := x'
  obtain ⟨⟨⟨i, hi, hi'⟩, hs, hs'⟩, hfl⟩ := hx
  simp only at hi hi' hs hs' hfl
  subst hi hi'
  have hm0 : Match EE ⟨toks, Env.ind EE (i + 1)⟩ s ⟨toks', Env.ind EE (i + 1)⟩ s' := ⟨⟨_, rfl, rfl⟩, hs, hs'⟩
  have hind : ({ Env.ind EE i with indent := (Env.ind EE i).indent + 1 } : Indent) = Env.ind EE (i + 1) := rfl
  unfold lineItem at h
  simp only [hind] at h
  simp only [lineItemCalls, lineItem, hind]
  split at h
  · simp at h
  · rename_i hlt
    simp only [if_neg hlt]
    cases ho : ev r ⟨toks, Env.ind EE (i + 1)⟩ s p with
    | timeout => rw [ho] at h; simp at h
    | panic => rw [ho] at h; simp at h
    | ret o1 x1 =>
      refine ⟨.cons ⟨hr, rfl, hm0, _, _, ho⟩ .nil, rfl, ?_⟩
      intro o' y' h'
      cases ho' : ev' r' ⟨toks', Env.ind EE (i + 1)⟩ s' p with
      | timeout => rw [ho'] at h'; simp at h'
      | panic => rw [ho'] at h'; simp at h'
      | ret o1' x1' =>
        rw [ho] at h
        rw [ho'] at h'
        rcases calls_agree hL hQ hrefs hev hev' hr hm0 ho ho' with ⟨e, e', rfl, rfl, ⟨j, hj, hj'⟩, hm⟩ |
          ⟨range, s1, oe1, range', s1', oe1', rfl, rfl, rfl, ⟨j, hj, hj'⟩, hm⟩
        · simp only [LineOut.ret.injEq] at h h'
          obtain ⟨rfl, rfl⟩ := h
          obtain ⟨rfl, rfl⟩ := h'
          exact ⟨rfl, ⟨⟨i, by simp only [hj]; rfl, by simp only [hj']; rfl⟩, hm⟩, hfl⟩
        · simp only [LineOut.ret.injEq] at h h'
          obtain ⟨rfl, rfl⟩ := h
          obtain ⟨rfl, rfl⟩ := h'
          exact ⟨rfl, ⟨⟨i, by simp only [hj]; rfl, by simp only [hj']; rfl⟩, hm⟩, hfl⟩

include hL hQ hrefs hev hev' in
theorem lineClosureIndent_follows {r r' : Rule} (hr : Tabled refs n Q r r') {x x' : LineSt} (hx : MatchLine EE x x') {p o y}
    (h : lineClosureIndent ev r x p = .ret o y) :
    Follows (CallRel L refs align tab n Q ev) (lineClosureIndentCalls r x p) (lineClosureIndentCalls r' x' p) ∧
    (lineClosureIndentCalls r x p).length = (lineClosureIndentCalls r' x' p).length ∧
    ∀ o' y', lineClosureIndent ev' r' x' p = .ret o' y' → o' = o ∧ MatchLine EE y y' := by
  obtain ⟨s, oe, fl, toks, ind⟩ := x
  obtain ⟨s', oe', fl', toks', ind'⟩ := x'
  have hx0 := hx
  obtain ⟨⟨⟨i, hi, hi'⟩, hs, hs'⟩, hfl⟩ := hx
  simp only at hi hi' hs hs' hfl
  subst hi hi'
  unfold lineClosureIndent at h
  unfold lineClosureIndent lineClosureIndentCalls
  simp only at h ⊢
  cases he : eatIndent (Env.ind EE i).tabSpaces p.src (Env.ind EE i).indent with
  | none =>
    simp only [he, LineOut.ret.injEq] at h ⊢
    obtain ⟨rfl, rfl⟩ := h
    refine ⟨.nil, trivial, ?_⟩
    rintro _ _ ⟨rfl, rfl⟩
    exact ⟨rfl, hx0⟩
  | some k =>
    simp only [he] at h ⊢
    have hc : (fl' = true ∧ (Env.ind EE i).alignFirst = true) ↔ (fl = true ∧ (Env.ind EE i).alignFirst = true) := by
      constructor
      · rintro ⟨h1, h2⟩; exact ⟨by rw [← hfl h2]; exact h1, h2⟩
      · rintro ⟨h1, h2⟩; exact ⟨by rw [hfl h2]; exact h1, h2⟩
    simp only [hc]
    split at h
    · rename_i hcond
      simp only [if_pos hcond]
      split at h
      · simp at h
      · rename_i hlt
        simp only [if_neg hlt]
        exact lineItem_follows hL hQ hrefs hev hev' hr
          (x := ⟨s, oe, false, ⟨toks, Env.ind EE (i + (eatAlign tab (p.consume k).src).2)⟩⟩)
          (x' := ⟨s', oe', false, ⟨toks', Env.ind EE (i + (eatAlign tab (p.consume k).src).2)⟩⟩)
          ⟨⟨⟨_, rfl, rfl⟩, hs, hs'⟩, fun _ => rfl⟩ h
    · rename_i hcond
      simp only [if_neg hcond]
      cases ht : (p.consume k).tag [' '] with
      | some z =>
        simp only [ht, LineOut.ret.injEq] at h ⊢
        obtain ⟨rfl, rfl⟩ := h
        refine ⟨.nil, trivial, ?_⟩
        rintro _ _ ⟨rfl, rfl⟩
        exact ⟨rfl, hx0⟩
      | none =>
        simp only [ht] at h ⊢
        exact lineItem_follows hL hQ hrefs hev hev' hr hx0 h

/-- The loop over the lines, for closures that go along with each other. -/
theorem lines_follows {R : Call → Call → Prop} {E : Env} {cl cl' : LineSt → Pos → LineOut} {cc cc' : LineSt → Pos → List Call}
    (hcl : ∀ x x' p o y, MatchLine E x x' → cl x p = .ret o y → Follows R (cc x p) (cc' x' p) ∧
      (cc x p).length = (cc' x' p).length ∧ ∀ o' y', cl' x' p = .ret o' y' → o' = o ∧ MatchLine E y y') {id start} :
    ∀ {fuel fuel' : Nat} {first item p x x' o st}, MatchLine E x x' →
      evalLines L cl id start fuel first item p x = .ret o st →
      Follows R (linesCalls L cl cc fuel first item p x) (linesCalls L cl' cc' fuel' first item p x')
  | 0, _, _, _, _, _, _, _, _, _, h => by simp [evalLines] at h
  | _ + 1, 0, _, _, _, _, _, _, _, _, _ => .nil
  | fuel + 1, fuel' + 1, first, item, p, x, x', o, st, hx, h => by
    simp only [evalLines] at h
    simp only [linesCalls]
    cases hn : L.lineNext first item p.src with
    | done k => exact .nil
    | fail k => exact .nil
    | call k =>
      rw [hn] at h
      simp only at h ⊢
      cases ho : cl x (p.consume k) with
      | timeout => rw [ho] at h; simp at h
      | panic => rw [ho] at h; simp at h
      | ret o1 y =>
        obtain ⟨h1, h2, h3⟩ := hcl _ _ _ _ _ hx ho
        refine h1.append h2 ?_
        rw [ho] at h
        cases ho' : cl' x' (p.consume k) with
        | timeout => exact .nil
        | panic => exact .nil
        | ret o1' y' =>
          obtain ⟨rfl, hy⟩ := h3 _ _ ho'
          cases o1' with
          | none => exact .nil
          | some range => exact lines_follows (cl := cl) (cl' := cl') (cc := cc) (cc' := cc') hcl hy h

theorem match_push {E : Env} {st st' : St} {s s' : Nat} (h : Match E st s st' s') (prop mk r) :
    Match E (pushOpt prop mk r st s).1 (pushOpt prop mk r st s).2 (pushOpt prop mk r st' s').1
      (pushOpt prop mk r st' s').2 := by
  cases prop with
  | none => exact h
  | some name =>
    obtain ⟨hi, hs, hs'⟩ := h
    rw [pushOpt_some _ _ _ _ _ hs, pushOpt_some _ _ _ _ _ hs']
    refine ⟨hi, ?_, ?_⟩
    · simp; omega
    · simp; omega

include hrefs in
theorem node_follows {prop index id st st' s s' p o x} (hm : Match EE st s st' s')
    (h : evalNode ev refs prop index id st s p = .ret o x) :
    Follows (CallRel L refs align tab n Q ev) (nodeCalls refs prop index st s p) (nodeCalls refs' prop index st' s' p) := by
  unfold evalNode at h
  unfold nodeCalls
  cases index with
  | none => exact .nil
  | some i =>
    simp only at h ⊢
    cases hr : refs[i]? with
    | none => rw [hr] at h; simp at h
    | some r =>
      rw [hr] at h
      obtain ⟨r', hr', hrr⟩ := hrefs.get' i r hr
      rw [hr']
      simp only at h ⊢
      cases ho : ev r (pushOpt prop .startNode p.start st s).1 (pushOpt prop .startNode p.start st s).2 p with
      | timeout => rw [ho] at h; simp at h
      | panic => rw [ho] at h; simp at h
      | ret o1 x1 => exact .cons ⟨hrr, rfl, match_push hm _ _ _, _, _, ho⟩ .nil

include hL hQ hrefs hev hev' in
theorem fastSelect_follows {t rs rs' tl id st st' s s' p o x} (hrs : TabledL refs n Q rs rs') (hm : Match EE st s st' s')
    (h : evalFastSelect ev t rs tl id st s p = .ret o x) :
    Follows (CallRel L refs align tab n Q ev) (fastSelectCalls ev t rs tl st s p) (fastSelectCalls ev' t rs' tl st' s' p) := by
  obtain ⟨src, off⟩ := p
  cases src with
  | nil => exact .nil
  | cons ch cs =>
    simp only [evalFastSelect] at h
    simp only [fastSelectCalls]
    have hlast : tl = true → ∀ {st st' oe}, Match EE st s st' s' →
        (match rs.getLast? with
          | none => Out.panic
          | some sub =>
            match ev sub st s ⟨ch :: cs, off⟩ with
            | .ret (.ok range s' err) st' => .ret (.ok (Pos.peek ⟨ch :: cs, off⟩ range.length) s' (errUpdate err oe)) st'
            | .ret (.err e) st' => .ret (.err (retErr e oe)) st'
            | .timeout => .timeout
            | .panic => .panic) = .ret o x →
        Follows (CallRel L refs align tab n Q ev)
          (match rs.getLast? with
            | none => []
            | some sub => [⟨sub, st, s, ⟨ch :: cs, off⟩⟩])
          (match rs'.getLast? with
            | none => []
            | some sub => [⟨sub, st', s', ⟨ch :: cs, off⟩⟩]) := by
      intro _ st st' oe hm h
      cases hl' : rs'.getLast? with
      | none => exact .nil
      | some b' =>
        obtain ⟨b, hl, hb⟩ := hrs.last hl'
        rw [hl] at h ⊢
        simp only at h ⊢
        cases ho : ev b st s ⟨ch :: cs, off⟩ with
        | timeout => rw [ho] at h; simp at h
        | panic => rw [ho] at h; simp at h
        | ret o1 x1 => exact .cons ⟨hb, rfl, hm, _, _, ho⟩ .nil
    by_cases hi : t (firstByte ch) ≠ 255
    · simp only [if_pos hi] at h ⊢
      cases hk : rs[(t (firstByte ch)).toNat]? with
      | none =>
        rw [hk] at h
        simp at h
      | some a =>
        obtain ⟨a', hk', ha⟩ := hrs.get' _ _ hk
        rw [hk] at h
        rw [hk']
        simp only at h ⊢
        cases ho : ev a st s ⟨ch :: cs, off⟩ with
        | timeout => rw [ho] at h; simp at h
        | panic => rw [ho] at h; simp at h
        | ret o1 x1 =>
          refine .cons ⟨ha, rfl, hm, _, _, ho⟩ ?_
          cases ho' : ev' a' st' s' ⟨ch :: cs, off⟩ with
          | timeout => exact .nil
          | panic => exact .nil
          | ret o1' x1' =>
            rcases calls_agree hL hQ hrefs hev hev' ha hm ho ho' with ⟨e, e', rfl, rfl, hm'⟩ |
              ⟨range, s1, oe1, range', s1', oe1', rfl, rfl, -, -⟩
            · cases tl with
              | false => simp; exact .nil
              | true =>
                rw [ho] at h
                simp only [if_true] at h ⊢
                exact hlast rfl hm' h
            · exact .nil
    · simp only [if_neg hi] at h ⊢
      cases tl with
      | false => simp; exact .nil
      | true =>
        simp only [if_true] at h ⊢
        exact hlast rfl hm h

include hev in
/-- The alternatives that are refused cost a call each. -/
theorem select_skip {id s s' p st'} : ∀ {A B : List Rule} {oe st o x}, (∀ a ∈ A, ∃ b, Refusing EE b a ∧ NotFirst b p.src) →
    Match EE st s st' s' → evalSelect ev id s p (A ++ B) oe st = .ret o x →
    ∃ l oe1 st1, selectCalls ev s p (A ++ B) st = l ++ selectCalls ev s p B st1 ∧ l.length = A.length ∧
      (∀ c ∈ l, ∃ o x, c.run ev = .ret o x) ∧ Match EE st1 s st' s' ∧ evalSelect ev id s p B oe1 st1 = .ret o x
  | [], B, oe, st, o, x, _, hm, h => ⟨[], oe, st, rfl, rfl, by simp, hm, h⟩
  | a :: A, B, oe, st, o, x, hA, hm, h => by
    obtain ⟨b, hb, hnf⟩ := hA a (by simp)
    simp only [List.cons_append, evalSelect] at h
    simp only [List.cons_append, selectCalls]
    obtain ⟨toks, ind⟩ := st
    obtain ⟨⟨i, hi, hi'⟩, hs, hs'⟩ := hm
    simp only at hi hs
    subst hi
    have hg := hev a i toks s p hs
    obtain ⟨tr, hrun, -⟩ := hb p i hnf
    cases ho : ev a ⟨toks, Env.ind EE i⟩ s p with
    | timeout => rw [ho] at h; simp at h
    | panic => rw [ho] at h; simp at h
    | ret o1 x1 =>
      rw [ho] at h hg
      cases o1 with
      | ok range s1 oe1 =>
        obtain ⟨m, ts, j, tr2, hrun2, -⟩ := hg
        have := (hrun.det hrun2).1
        simp at this
      | err e =>
        obtain ⟨j, tr2, hrun2, h1, -, h2, -⟩ := hg
        obtain ⟨-, rfl, -⟩ := hrun.det hrun2
        obtain ⟨l, oe1, st1, h3, h4, h5, h6, h7⟩ := select_skip (A := A) (fun a ha => hA a (by simp [ha]))
          (⟨⟨_, h2, hi'⟩, h1, hs'⟩ : Match EE x1 s st' s') h
        refine ⟨⟨a, ⟨toks, Env.ind EE i⟩, s, p⟩ :: l, oe1, st1, ?_, by simp [h4], ?_, h6, h7⟩
        · simp [h3]
        · intro c hc
          rcases List.mem_cons.1 hc with rfl | hc
          · exact ⟨_, _, ho⟩
          · exact h5 c hc

theorem sum_ge_length {f : Call → Nat} : ∀ {l : List Call}, (∀ c ∈ l, 1 ≤ f c) → l.length ≤ (l.map f).sum
  | [], _ => by simp
  | c :: l, h => by
    have h1 := h c (by simp)
    have h2 := sum_ge_length (l := l) (fun c hc => h c (by simp [hc]))
    simp only [List.map_cons, List.sum_cons, List.length_cons]
    omega

theorem foldr_max_append {f : Call → Nat} : ∀ (l m : List Call),
    ((l ++ m).map f).foldr max 0 = max ((l.map f).foldr max 0) ((m.map f).foldr max 0)
  | [], m => by simp
  | c :: l, m => by simp only [List.cons_append, List.map_cons, List.foldr_cons, foldr_max_append l m]; omega

/-- The second list costs at most as much as the first, and is less than twice as deep. -/
def Cheaper (f g f' g' : Call → Nat) (l l' : List Call) : Prop :=
  (l'.map f').sum ≤ (l.map f).sum ∧ (l'.map g').foldr max 0 ≤ 2 * (l.map g).foldr max 0 - 1

theorem Follows.cheaper {R : Call → Call → Prop} {l l' : List Call} {f g f' g' : Call → Nat} (h : Follows R l l')
    (hR : ∀ c c', R c c' → f' c' ≤ f c ∧ g' c' ≤ 2 * g c - 1) : Cheaper f g f' g' l l' :=
  ⟨h.sum fun c c' hc => (hR c c' hc).1, h.max fun c c' hc => (hR c c' hc).2⟩

theorem callCount_pos {L : Lexer} {refs : List Rule} {m : Nat} {c : Call} {o x}
    (h : c.run (eval L refs m) = .ret o x) : 1 ≤ callCount L refs m c := by
  cases m with
  | zero => simp [Call.run, eval] at h
  | succ m => simp only [callCount]; omega

theorem callDepth_pos {L : Lexer} {refs : List Rule} {m : Nat} {c : Call} {o x}
    (h : c.run (eval L refs m) = .ret o x) : 1 ≤ callDepth L refs m c := by
  cases m with
  | zero => simp [Call.run, eval] at h
  | succ m => simp only [callDepth]; omega

theorem max_pos {f : Call → Nat} {l : List Call} (h : 0 < l.length) (hf : ∀ c ∈ l, 1 ≤ f c) : 1 ≤ (l.map f).foldr max 0 := by
  cases l with
  | nil => simp at h
  | cons c l =>
    have := hf c (by simp)
    simp only [List.map_cons, List.foldr_cons]
    omega

include hL hQ hrefs in
/-- One level: what is called by the optimized rule is cheaper. -/
theorem subcalls_cheaper {m : Nat} (ih : ∀ c c' m', CallRel L refs align tab n Q (eval L refs m) c c' →
      callCount L refs' m' c' ≤ callCount L refs m c ∧ callDepth L refs' m' c' ≤ 2 * callDepth L refs m c - 1)
    {c c' : Call} (h : CallRel L refs align tab n Q (eval L refs (m + 1)) c c') (m' : Nat) :
    ((subcalls L refs' (eval L refs' m') m' c').map (callCount L refs' m')).sum ≤
        ((subcalls L refs (eval L refs m) m c).map (callCount L refs m)).sum ∧
      ((subcalls L refs' (eval L refs' m') m' c').map (callDepth L refs' m')).foldr max 0 ≤
        2 * ((subcalls L refs (eval L refs m) m c).map (callDepth L refs m)).foldr max 0 := by
  have hev : EvSound EE (eval L refs m) := eval_sound EE m
  have hev' : ∀ k, EvSound EO (eval L refs' k) := fun k => eval_sound EO k
  have fin : ∀ {k l l'}, Follows (CallRel L refs align tab n Q (eval L refs m)) l l' →
      Cheaper (callCount L refs m) (callDepth L refs m) (callCount L refs' k) (callDepth L refs' k) l l' :=
    fun hf => hf.cheaper fun c c' hc => ih c c' _ hc
  have weak : ∀ {k l l'}, Cheaper (callCount L refs m) (callDepth L refs m) (callCount L refs' k) (callDepth L refs' k) l l' →
      (l'.map (callCount L refs' k)).sum ≤ (l.map (callCount L refs m)).sum ∧
        (l'.map (callDepth L refs' k)).foldr max 0 ≤ 2 * (l.map (callDepth L refs m)).foldr max 0 :=
    fun hc => ⟨hc.1, by have := hc.2; omega⟩
  obtain ⟨r, st, s, p⟩ := c
  obtain ⟨r', st', s', p'⟩ := c'
  obtain ⟨hr, hp, hm, o, x, h⟩ := h
  simp only at hr hp hm
  subst hp
  simp only [Call.run, eval] at h
  cases hr with
  | whitespace => simp [subcalls]
  | tag => simp [subcalls]
  | untilAny => simp [subcalls]
  | untilAnyOrWs => simp [subcalls]
  | text => simp [subcalls]
  | number => simp [subcalls]
  | node => exact weak (fin (node_follows hrefs hm h))
  | fastSelect hrs => exact weak (fin (fastSelect_follows hL hQ hrefs hev (hev' _) hrs hm h))
  | select hrs => exact weak (fin (select_follows hL hQ hrefs hev (hev' _) hrs hm h))
  | sequence hrs => exact weak (fin (sequence_follows hL hQ hrefs hev (hev' _) hrs hm h))
  | separateBy hr hb => exact weak (fin (separateBy_follows hL hQ hrefs hev (hev' _) hr hb hm h))
  | repeat_ hr => exact weak (fin (repeat_follows hL hQ hrefs hev (hev' _) hr hm h))
  | @lines r r' indent id hr =>
    refine weak (fin ?_)
    cases indent with
    | false =>
      exact lines_follows (E := EE) (cl := lineClosure (eval L refs m) r) (cl' := lineClosure (eval L refs' m') r')
        (fun _ _ _ _ _ hx ho => lineClosure_follows hL hQ hrefs hev (hev' _) hr hx ho)
        (x := ⟨s, none, true, st⟩) (x' := ⟨s', none, true, st'⟩) ⟨hm, fun _ => rfl⟩ h
    | true =>
      exact lines_follows (E := EE) (cl := lineClosureIndent (eval L refs m) r) (cl' := lineClosureIndent (eval L refs' m') r')
        (fun _ _ _ _ _ hx ho => lineClosureIndent_follows hL hQ hrefs hev (hev' _) hr hx ho)
        (x := ⟨s, none, true, st⟩) (x' := ⟨s', none, true, st'⟩) ⟨hm, fun _ => rfl⟩ h
  | @optional r r' id hr =>
    refine weak (fin ?_)
    simp only [step, evalOptional] at h
    cases ho : eval L refs m r st s p' with
    | timeout => rw [ho] at h; simp at h
    | panic => rw [ho] at h; simp at h
    | ret o1 x1 => exact .cons ⟨hr, rfl, hm, _, _, ho⟩ .nil
  | @not r r' id hr =>
    refine weak (fin ?_)
    simp only [step, evalNot] at h
    cases ho : eval L refs m r st s p' with
    | timeout => rw [ho] at h; simp at h
    | panic => rw [ho] at h; simp at h
    | ret o1 x1 => exact .cons ⟨hr, rfl, hm, _, _, ho⟩ .nil
  | @fast rs rs' id t ht hne hrs =>
    have hfit := tableFits_of_spec (E' := EE) hL (SimL.refl (n := n) (Q := Q) refs) (uniqueTable_spec ht).1
      (SimL.refl rs)
    rw [List.take_length] at hfit
    simp only [step] at h
    simp only [subcalls, fastSelectCalls]
    split
    · simp
    · rename_i ch cs hsrc
      simp only [Bool.false_eq_true, if_false]
      split
      · rename_i hi
        split
        · simp
        · rename_i a' ha'
          obtain ⟨a, ha, haa⟩ := hrs.get _ _ ha'
          have hhit := fits_hit hfit hsrc
          have hsp := split_at ha
          rw [hsp] at h
          obtain ⟨l, oe1, st1, h1, h2, h3, h4, h5⟩ := select_skip hev
            (fun b hb => by obtain ⟨k, hk, hk'⟩ := mem_take_ne hb; exact hhit k b hk hk') hm h
          rw [hsp, h1]
          simp only [evalSelect] at h5
          simp only [selectCalls]
          cases ho : eval L refs m a st1 s p' with
          | timeout => rw [ho] at h5; simp at h5
          | panic => rw [ho] at h5; simp at h5
          | ret o1 x1 =>
            obtain ⟨hc, hd⟩ := ih ⟨a, st1, s, p'⟩ ⟨a', st', s', p'⟩ m' ⟨haa, rfl, h4, _, _, ho⟩
            have hone : ∀ (rest l' : List Call), l' = [] →
                ((⟨a', st', s', p'⟩ :: l').map (callCount L refs' m')).sum ≤
                    ((l ++ ⟨a, st1, s, p'⟩ :: rest).map (callCount L refs m)).sum ∧
                  ((⟨a', st', s', p'⟩ :: l').map (callDepth L refs' m')).foldr max 0 ≤
                    2 * ((l ++ ⟨a, st1, s, p'⟩ :: rest).map (callDepth L refs m)).foldr max 0 := by
              rintro rest _ rfl
              refine ⟨?_, ?_⟩
              · simp only [List.map_append, List.map_cons, List.sum_append, List.sum_cons, List.map_nil, List.sum_nil]
                omega
              · rw [foldr_max_append]
                simp only [List.map_cons, List.map_nil, List.foldr_cons, List.foldr_nil]
                omega
            refine hone _ _ ?_
            split <;> rfl
      · simp
  | @tail rs rs' id t u ht h2u hu hq hrs =>
    have hfit := tableFits_of_spec (E' := EE) hL (SimL.refl (n := n) (Q := Q) refs) (uniqueTable_spec ht).1
      (SimL.refl rs)
    have hlen : (rs.take u).length = u := by rw [List.length_take]; omega
    have hlen' : (rs'.take u).length = u := by rw [List.length_take, ← hrs.length]; omega
    simp only [step] at h
    simp only [subcalls, fastSelectCalls]
    -- the select over the rest, called with what is left of the original
    have hrest : ∀ {st1 oe1 st2 s}, Match EE st1 s st2 s' →
        evalSelect (eval L refs m) id s p' (rs.drop u) oe1 st1 = .ret o x →
        callCount L refs' m' ⟨.select (rs'.drop u) id, st2, s', p'⟩ ≤
            1 + ((selectCalls (eval L refs m) s p' (rs.drop u) st1).map (callCount L refs m)).sum ∧
          callDepth L refs' m' ⟨.select (rs'.drop u) id, st2, s', p'⟩ ≤
            1 + (2 * ((selectCalls (eval L refs m) s p' (rs.drop u) st1).map (callDepth L refs m)).foldr max 0 - 1) := by
      intro st1 oe1 st2 s hm1 h1
      cases m' with
      | zero => simp [callCount, callDepth]
      | succ k =>
        obtain ⟨h3, h4⟩ := fin (k := k) (select_follows hL hQ hrefs hev (hev' k) (hrs.drop u) hm1 h1)
        simp only [callCount, callDepth, subcalls]
        omega
    split
    · simp
    · rename_i ch cs hsrc
      simp only [if_true, List.getLast?_append, List.getLast?_singleton, Option.some_or]
      split
      · rename_i hi
        have hk : (t (firstByte ch)).toNat < u := by rw [← hlen]; exact hfit.only _ hi
        rw [List.getElem?_append_left (by rw [hlen']; exact hk)]
        split
        · simp
        · rename_i a' ha'
          rw [List.getElem?_take_of_lt hk] at ha'
          obtain ⟨a, ha, haa⟩ := hrs.get _ _ ha'
          have ha2 : (rs.take u)[(t (firstByte ch)).toNat]? = some a := by rw [List.getElem?_take_of_lt hk]; exact ha
          have hhit := fits_hit hfit hsrc
          have hsp : rs = (rs.take u).take (t (firstByte ch)).toNat ++
              (a :: ((rs.take u).drop ((t (firstByte ch)).toNat + 1) ++ rs.drop u)) := by
            rw [← List.cons_append, ← List.append_assoc, ← split_at ha2, List.take_append_drop]
          have hl1 : ((rs.take u).take (t (firstByte ch)).toNat).length = (t (firstByte ch)).toNat := by
            rw [List.length_take, hlen]; omega
          have hl2 : ((rs.take u).drop ((t (firstByte ch)).toNat + 1)).length = u - ((t (firstByte ch)).toNat + 1) := by
            rw [List.length_drop, hlen]
          generalize hA1 : (rs.take u).take (t (firstByte ch)).toNat = A1 at hsp hl1
          generalize hA2 : (rs.take u).drop ((t (firstByte ch)).toNat + 1) = A2 at hsp hl2
          generalize hB : rs.drop u = B at hsp hrest
          rw [hsp] at h
          obtain ⟨l, oe1, st1, h1, h2, h3, h4, h5⟩ := select_skip hev
            (fun b hb => by rw [← hA1] at hb; obtain ⟨k, hk, hk'⟩ := mem_take_ne hb; exact hhit k b hk hk') hm h
          rw [hsp, h1]
          simp only [evalSelect] at h5
          simp only [selectCalls]
          have hp1 := sum_ge_length (f := callCount L refs m) (l := l)
            (fun c hc => by obtain ⟨o, x, h⟩ := h3 c hc; exact callCount_pos h)
          cases ho : eval L refs m a st1 s p' with
          | timeout => rw [ho] at h5; simp at h5
          | panic => rw [ho] at h5; simp at h5
          | ret o1 x1 =>
            obtain ⟨hc, hd⟩ := ih ⟨a, st1, s, p'⟩ ⟨a', st', s', p'⟩ m' ⟨haa, rfl, h4, _, _, ho⟩
            have hd1 : 1 ≤ callDepth L refs m ⟨a, st1, s, p'⟩ := callDepth_pos ho
            rw [ho] at h5
            cases ho' : eval L refs' m' a' st' s' p' with
            | timeout =>
              simp only [List.map_append, List.map_cons, List.sum_append, List.sum_cons, List.map_nil, List.sum_nil,
                List.foldr_cons, List.foldr_nil]
              refine ⟨by omega, ?_⟩
              rw [← List.map_cons, ← List.map_append, foldr_max_append, List.map_cons, List.foldr_cons]
              omega
            | panic =>
              simp only [List.map_append, List.map_cons, List.sum_append, List.sum_cons, List.map_nil, List.sum_nil,
                List.foldr_cons, List.foldr_nil]
              refine ⟨by omega, ?_⟩
              rw [← List.map_cons, ← List.map_append, foldr_max_append, List.map_cons, List.foldr_cons]
              omega
            | ret o1' x1' =>
              rcases calls_agree hL hQ hrefs hev (hev' m') haa h4 ho ho' with ⟨e, e', rfl, rfl, hm'⟩ |
                ⟨range, s1, oe2, range', s1', oe2', rfl, rfl, -, -⟩
              · simp only at h5
                obtain ⟨l2, oe3, st3, g1, g2, g3, g4, g5⟩ := select_skip hev
                  (fun b hb => by rw [← hA2] at hb; obtain ⟨k, hk, hk'⟩ := mem_drop_ne hb; exact hhit k b hk hk') hm' h5
                have hp2 := sum_ge_length (f := callCount L refs m) (l := l2)
                  (fun c hc => by obtain ⟨o, x, h⟩ := g3 c hc; exact callCount_pos h)
                obtain ⟨hrc, hrd⟩ := hrest g4 g5
                simp only [g1]
                refine ⟨?_, ?_⟩
                · simp only [List.map_append, List.map_cons, List.sum_append, List.sum_cons, List.map_nil, List.sum_nil]
                  omega
                · rw [foldr_max_append]
                  simp only [List.map_cons, List.map_nil, List.foldr_cons, List.foldr_nil, foldr_max_append]
                  omega
              · refine ⟨?_, ?_⟩
                · simp only [List.map_append, List.map_cons, List.sum_append, List.sum_cons, List.map_nil, List.sum_nil]
                  omega
                · rw [foldr_max_append]
                  simp only [List.map_cons, List.map_nil, List.foldr_cons, List.foldr_nil]
                  omega
      · rename_i hi
        have hi : t (firstByte ch) = 255 := by simpa using hi
        rw [← List.take_append_drop u rs] at h
        obtain ⟨l, oe1, st1, h1, h2, h3, h4, h5⟩ := select_skip hev (fits_miss hfit hsrc hi) hm h
        rw [List.take_append_drop] at h1
        have hp1 := sum_ge_length (f := callCount L refs m) (l := l)
          (fun c hc => by obtain ⟨o, x, h⟩ := h3 c hc; exact callCount_pos h)
        have hp2 := max_pos (f := callDepth L refs m) (l := l) (by omega)
          (fun c hc => by obtain ⟨o, x, h⟩ := h3 c hc; exact callDepth_pos h)
        obtain ⟨hrc, hrd⟩ := hrest h4 h5
        rw [h1]
        refine ⟨?_, ?_⟩
        · simp only [List.map_append, List.map_cons, List.sum_append, List.sum_cons, List.map_nil, List.sum_nil]
          omega
        · rw [foldr_max_append]
          simp only [List.map_cons, List.map_nil, List.foldr_cons, List.foldr_nil]
          omega

include hL hQ hrefs in
/-- The optimized call needs no more calls, and is less than twice as deep. -/
theorem calls_cheaper : ∀ (m : Nat) (c c' : Call) (m' : Nat), CallRel L refs align tab n Q (eval L refs m) c c' →
    callCount L refs' m' c' ≤ callCount L refs m c ∧ callDepth L refs' m' c' ≤ 2 * callDepth L refs m c - 1
  | 0, c, c', m', h => by obtain ⟨o, x, h⟩ := h.ret; simp [Call.run, eval] at h
  | m + 1, c, c', 0, h => by simp [callCount, callDepth]
  | m + 1, c, c', m' + 1, h => by
    obtain ⟨h1, h2⟩ := subcalls_cheaper hL hQ hrefs (calls_cheaper m) h m'
    simp only [callCount, callDepth]
    omega

end

end Verif
