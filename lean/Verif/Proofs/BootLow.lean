import Verif.Proofs.BootDoc
/-
What comments cost at least.
-/
namespace Verif
open Spec

/-- Nowhere does a comment seem to begin with the slash that ends another. -/
def Sober (s : Str) : Prop := ¬ c!"*/*" <:+: s

theorem Sober.suffix {s t : Str} (h : Sober t) (hs : s <:+ t) : Sober s := fun hi => h (hi.trans hs.isInfix)

theorem Sober.drop {s : Str} (h : Sober s) (k : Nat) : Sober (s.drop k) := h.suffix (List.drop_suffix k s)

theorem unclosed_cons {c : Char} {t : Str} (h : ¬ Unclosed (c :: t)) : unclosed (c :: t) = unclosed t := by
  rw [unclosed, if_neg h, Nat.zero_add]

theorem unclosed_other {c : Char} {t : Str} (h : c ≠ '/') : unclosed (c :: t) = unclosed t :=
  unclosed_cons (by rintro ⟨u, e, -⟩; cases e; exact h rfl)

theorem unclosed_here {t : Str} (h : CommentBody t []) : unclosed ('/' :: '*' :: t) = unclosed t + 1 := by
  rw [unclosed, if_pos ⟨t, rfl, h⟩, unclosed_other (by decide), Nat.add_comm]

theorem unclosed_plain {p : Str} (hp : Boot.Plain p) (s : Str) : unclosed (p ++ s) = unclosed s := by
  induction p with
  | nil => rfl
  | cons c p ih =>
    have hc := hp c (by simp)
    simp only [List.mem_cons, List.not_mem_nil, or_false, not_or] at hc
    rw [List.cons_append, unclosed_other hc.2]
    exact ih fun x hx => hp x (by simp [hx])

/-- After the end of a comment. -/
theorem unclosed_end {r : Str} (h : Sober ('*' :: '/' :: r)) : unclosed ('*' :: '/' :: r) = unclosed r := by
  rw [unclosed_other (by decide)]
  refine unclosed_cons ?_
  rintro ⟨u, e, -⟩
  cases e
  exact h ⟨[], u, by simp⟩

/-- A comment that is closed does not go on to the end. -/
theorem closed_not_unclosed (L : Lexer) {b rest : Str} (h : CommentBody b ('*' :: '/' :: rest)) :
    ¬ Unclosed ('/' :: '*' :: (b ++ '*' :: '/' :: rest)) := by
  rintro ⟨t, e, h'⟩
  obtain rfl : b ++ '*' :: '/' :: rest = t := by simpa using e
  let E : Env := ⟨L, Boot.refs, false, 0⟩
  obtain ⟨p, b', rfl, hp, hs, hr⟩ := Boot.body_reads (E := E) (pl := true) rfl h (.inr ⟨_, rfl⟩)
  obtain ⟨q, c, e', hq, ht, hr'⟩ := Boot.body_reads (E := E) (pl := true) rfl h' (.inl rfl)
  obtain ⟨ts, tr, h1, _⟩ := Boot.nested_reads hp hs hr 0 0
  obtain ⟨tr', h2⟩ := Boot.unclosed_refuses hq ht hr' 0 0
  have e2 : '/' :: '*' :: (p ++ (b' ++ ['*', '/'])) ++ rest = '/' :: '*' :: (q ++ c) := by
    rw [← e']; simp
  rw [e2] at h1
  have := Run.det h1 h2
  cases this.1

/-- What the unclosed comments up to here cost at least. -/
def LowQ : Quo := fun s o c => Sober s →
  (o = none → Unclosed s → 2 ^ unclosed s ≤ 2 * c) ∧ ∀ k, o = some k → 2 ^ unclosed s ≤ c + 2 ^ unclosed (s.drop k)

section
variable {L : Lexer} {refs : List Rule} {n : Nat}

theorem below_partLow (hr : refs[0]? = some Boot.multiLineComment)
    (h : ∀ name prop id, Below L refs n (.node name prop (some 0) id) LowQ) :
    Below L refs n commentPart (fun s o c => Sober s → Boot.Stopped s → ∀ k, o = some k → 2 ^ unclosed s ≤ c + 2 ^ unclosed (s.drop k)) := by
  have hi : Below L refs n commentInner (fun s o c => Sober s →
      (o = none → (c!"/*").isPrefixOf s = false ∨ (Unclosed s ∧ 2 ^ unclosed s ≤ 2 * c)) ∧
      ∀ k, o = some k → 2 ^ unclosed s ≤ c + 2 ^ unclosed (s.drop k)) := by
    refine Below.weaken (Below.mono (below_sequence (.cons ((h _ _ _).and (below_commentR hr n _ _ _)) (.cons below_skipR .nil)))
      (Nat.le_succ n)) ?_
    rintro s o c ⟨c', ⟨⟨h1, h2⟩, rfl⟩ | ⟨k, c1, o', c2, ⟨h1, h2⟩, h3, rfl, rfl⟩, rfl⟩ hs
    · refine ⟨fun _ => ?_, fun k hk => (by cases hk)⟩
      rcases h2 with ⟨_, h2 | h2⟩ | ⟨_, _, _, _, h2⟩
      · exact .inl h2
      · have := (h1 hs).1 rfl h2
        exact .inr ⟨h2, by omega⟩
      · cases h2
    · obtain ⟨p, s', h4, rfl, h5, h6⟩ := seqQ_skip h3
      refine ⟨fun h => (by cases h), fun j hj => ?_⟩
      simp only [Option.map_some, Option.some.injEq] at hj
      subst hj
      have h7 := (h1 hs).2 k rfl
      rw [← List.drop_drop, h4, List.drop_left]
      rw [h4, unclosed_plain h5] at h7
      omega
  refine Below.weaken (Below.mono (below_select (.cons below_starR (.cons hi (.cons below_slashR .nil)))) (Nat.le_succ n)) ?_
  rintro s o c ⟨c', ⟨k, h1, rfl⟩ | ⟨c1, c2, h1, ⟨k, h2, rfl⟩ | ⟨c3, c4, h2, ⟨k, h3, rfl⟩ | ⟨h3, h4, h5⟩, rfl⟩, rfl⟩, rfl⟩ hs hst j hj
  · cases hj
    rcases h1 with ⟨h1, _⟩ | ⟨p, s', rfl, h2, h3, h4, h5⟩
    · cases h1
    · cases h2
      rw [unclosed_other (by decide), unclosed_plain h3, List.length_cons, List.drop_succ_cons, List.drop_left]
      omega
  · cases hj
    have := (h2 hs).2 k rfl
    omega
  · cases hj
    rcases h3 with ⟨h3, _⟩ | ⟨p, s', rfl, h3, h4, h5⟩
    · cases h3
    · cases h3
      rw [List.length_cons, List.drop_succ_cons, List.drop_left]
      rcases (h2 hs).1 rfl with h6 | ⟨⟨t, h6, h7⟩, h8⟩
      · rw [unclosed_cons, unclosed_plain h4]
        · omega
        · rintro ⟨u, e, -⟩
          rw [e] at h6
          simp [List.isPrefixOf] at h6
      · have h9 : p ++ s' = '*' :: t := by simpa using h6
        have h10 := unclosed_plain h4 s'
        rw [h9, unclosed_other (by decide)] at h10
        rw [h6, unclosed_here h7, Nat.pow_succ] at h8 ⊢
        rw [← h10]
        omega
  · obtain ⟨_, ⟨rfl, _⟩, _⟩ := h5
    cases hj

theorem below_low (hr : refs[0]? = some Boot.multiLineComment) :
    ∀ n name prop id, Below L refs n (.node name prop (some 0) id) LowQ := by
  intro n
  induction n with
  | zero => intro _ _ _ m hm; exact absurd hm (Nat.not_lt_zero m)
  | succ n ih =>
    intro name prop id
    have hbody : Below L refs n commentBody (fun s o c => Sober s → Boot.Stopped s →
        ∃ k, o = some k ∧ Boot.Closed (s.drop k) ∧ 2 ^ unclosed s ≤ c + 2 ^ unclosed (s.drop k)) := by
      refine Below.weaken (Below.mono (below_repeat ((below_partLow hr ih).and (below_partR (below_commentR hr n)))
        (I := fun s k c => Sober s → Boot.Stopped s → Boot.Closed (s.drop k) ∧ 2 ^ unclosed s ≤ c + 2 ^ unclosed (s.drop k)) ?_ ?_)
        (Nat.le_succ n)) ?_
      · rintro s c ⟨_, h⟩ _ hst
        rw [List.drop_zero]
        rcases h hst with ⟨_, h⟩ | ⟨_, _, _, h, _⟩
        · exact ⟨h, by omega⟩
        · cases h
      · rintro s k c k' c' ⟨h1, h2⟩ h3 hs hst
        rcases h2 hst with ⟨h2, _⟩ | ⟨a, s', rfl, h2, h4, _⟩
        · cases h2
        · cases h2
          have h5 := h1 hs hst _ rfl
          rw [List.drop_left] at h3 h5
          have h6 := h3 (hs.suffix (List.suffix_append a s')) h4
          rw [← List.drop_drop, List.drop_left]
          exact ⟨h6.1, by omega⟩
      · rintro s o c ⟨k, c', rfl, h, rfl⟩ hs hst
        have := h hs hst
        exact ⟨k, rfl, this.1, by omega⟩
    refine Below.weaken (Below.and (Below.mono (below_node hr (below_sequence (.cons below_tag (.cons below_skipR (.cons hbody
      (.cons below_tag .nil)))))) (Nat.le_succ _)) (below_commentR hr (n + 1) name prop id)) ?_
    rintro s o c ⟨⟨c', ⟨c'', ⟨⟨h1, ⟨_, h2⟩ | ⟨h2, _⟩⟩, rfl⟩ | ⟨k, c1, o', c2, ⟨h1, ⟨h2, h3⟩ | ⟨_, h3⟩⟩, h4, rfl, rfl⟩, rfl⟩, rfl⟩, hR⟩ hs
    · cases h2
    · refine ⟨?_, fun k hk => (by cases hk)⟩
      rintro _ ⟨t, rfl, _⟩
      simp [List.isPrefixOf] at h2
    · cases h3
      obtain ⟨s₁, rfl, h5⟩ := prefix_cons h2
      obtain ⟨t, rfl, -⟩ := prefix_cons h5
      simp only [List.length_cons, List.length_nil, List.drop_succ_cons, List.drop_zero] at h4
      rcases h4 with ⟨⟨_, _, _, h4, _⟩, _⟩ | ⟨k, c3, o', c4, ⟨p, s', rfl, h5, h6, h7⟩, h8, rfl, rfl⟩
      · cases h4
      · cases h5
        have hs' : Sober s' := hs.suffix ⟨'/' :: '*' :: p, by simp⟩
        have hu := unclosed_plain h6 s'
        rw [List.drop_left] at h8
        rcases h8 with ⟨h8, _⟩ | ⟨k', c5, o', c6, h8, h9, rfl, rfl⟩
        · obtain ⟨_, h, _⟩ := h8 hs' h7
          cases h
        · obtain ⟨j, h10, h11, h12⟩ := h8 hs' h7
          cases h10
          rcases h9 with ⟨⟨_, ⟨_, h9⟩ | ⟨h9, _⟩⟩, rfl⟩ | ⟨_, _, _, _, ⟨_, ⟨h9, h13⟩ | ⟨_, h13⟩⟩, ⟨rfl, rfl⟩, rfl, rfl⟩
          · cases h9
          · refine ⟨?_, fun k hk => (by cases hk)⟩
            rintro _ ⟨t, e, ht⟩
            obtain rfl : p ++ s' = t := by simpa using e
            rcases h11 with h11 | ⟨u, h11⟩
            · rw [h11] at h12
              simp only [unclosed, Nat.pow_zero] at h12
              rw [unclosed_here ht, hu, Nat.pow_succ]
              omega
            · rw [h11] at h9
              simp [List.isPrefixOf] at h9
          · cases h13
            refine ⟨fun h => (by cases h), fun i hi => ?_⟩
            have hn : ¬ Unclosed ('/' :: '*' :: (p ++ s')) := by
              rcases hR with ⟨hR, _⟩ | ⟨b, rest, e, hb, _⟩
              · cases hR
              · rw [e]; exact closed_not_unclosed L hb
            simp only [Option.map_some, Option.some.injEq, List.length_cons, List.length_nil] at hi
            have hi' : i = p.length + (k' + 2) + 1 + 1 := by omega
            obtain ⟨u, hu1, hu2⟩ := prefix_cons h9
            obtain ⟨r, hu3, -⟩ := prefix_cons hu2
            subst hu3
            have h14 : List.drop (k' + 2) s' = r := by
              rw [← List.drop_drop, hu1]; rfl
            have h15 := unclosed_end (r := r) (hu1 ▸ hs'.drop k')
            rw [unclosed_cons hn, unclosed_other (by decide), hu, hi', List.drop_succ_cons, List.drop_succ_cons,
              ← List.drop_drop, List.drop_left, h14]
            rw [hu1, h15] at h12
            omega
          · cases h13
    · cases h3

/-! ### The document -/

/-- Where a block of comments begins. -/
def StartQ : Quo := fun s o c => Sober s → ∀ t, s = '/' :: '*' :: t →
  (o = none ∧ Unclosed s ∧ 2 ^ unclosed s ≤ 2 * c) ∨ ¬ Unclosed s ∧ ∃ k, o = some k ∧ 4 ≤ k ∧ 2 ^ unclosed s ≤ c + 2 ^ unclosed (s.drop k)

/-- The rules that comments are made of are the hard-coded ones, and so are those that are tried before them. -/
structure HasComments (refs : List Rule) : Prop where
  r0 : refs[0]? = some Boot.multiLineComment
  r1 : refs[1]? = some Boot.comment
  r2 : refs[2]? = some Boot.string
  r3 : ∃ id rs id', refs[3]? = some (.sequence (.number (some c!"id") false id :: rs) id')

theorem below_start (h : HasComments refs) {name prop id} : Below L refs n (.node name prop (some 1) id) StartQ := by
  refine Below.weaken (Below.mono (below_node (r := Boot.comment) h.r1 (below_select (.cons
    ((below_low h.r0 n _ _ _).and (below_commentR h.r0 n _ _ _)) (.cons guard_lead .nil)))) (by omega)) ?_
  rintro _ o c ⟨c', ⟨c'', h1, rfl⟩, rfl⟩ hs t rfl
  rcases h1 with ⟨k, ⟨h1, h2⟩, rfl⟩ | ⟨c1, c2, ⟨h1, h2⟩, h3, rfl⟩
  · have h3 := (h1 hs).2 k rfl
    rcases h2 with ⟨h2, _⟩ | ⟨b, rest, hb, hb', h2⟩
    · cases h2
    · cases h2
      exact .inr ⟨by rw [hb]; exact closed_not_unclosed L hb', _, rfl, by omega, by omega⟩
  · have h4 : o = none := by
      rcases h3 with ⟨k, h3, rfl⟩ | ⟨_, _, _, h3, _⟩
      · exact h3 (by simp [List.isPrefixOf])
      · exact h3.1
    rcases h2 with ⟨_, h2 | h2⟩ | ⟨_, _, _, _, h2⟩
    · simp [List.isPrefixOf] at h2
    · have := (h1 hs).1 rfl h2
      exact .inl ⟨h4, h2, by omega⟩
    · cases h2

/-- What is refused before a slash. -/
def NoSlashQ : Quo := fun s o _ => s.head? = some '/' → o = none

theorem below_string_slash (h : HasComments refs) {name prop id} : Below L refs n (.node name prop (some 2) id) NoSlashQ := by
  refine Below.weaken (Below.mono (guard_node (n := n) (r := Boot.string) h.r2 guard_lead) (Nat.le_succ n)) ?_
  intro s o c h hs
  apply h
  cases s with
  | nil => rfl
  | cons x t => cases hs; simp [List.isPrefixOf]

theorem below_node_slash (hL : L.Lawful) (hX : L.Exact) (h : HasComments refs) {name prop id} :
    Below L refs n (.node name prop (some 3) id) NoSlashQ := by
  obtain ⟨i, rs, i', h3⟩ := h.r3
  refine Below.weaken (Below.mono (below_node h3 (below_sequence (n := n) (BelowL.cons (below_number hL hX) (belowL_any rs)))) (by omega)) ?_
  rintro s o c ⟨c', ⟨c'', ⟨_, rfl⟩ | ⟨k, c1, o', c2, ⟨_, h2⟩, _⟩, rfl⟩, rfl⟩ hs
  · rfl
  · exact absurd hs (h2 k rfl).2.2

theorem below_ws {id} : Below L refs n (.whitespace true id) (fun s o _ => s.head? = some '/' → o = some 0) := by
  refine Below.mono (n := n + 1) (below_succ fun m hm st s p o st' ho => ?_) (by omega)
  intro hp
  simp only [step, evalWhitespace] at ho
  rw [if_neg (by simp)] at ho
  simp only [Out.ret.injEq] at ho
  rw [← ho.1]
  cases hc : p.src with
  | nil => rw [hc] at hp; cases hp
  | cons x t =>
    rw [hc] at hp
    cases hp
    simp only [Res.taken, Pos.whitespace, hc, List.takeWhile_cons]
    rfl

theorem below_startItem {a b : Rule} (ha : Below L refs n a NoSlashQ) (hb : Below L refs n b StartQ) {id id' id''} :
    Below L refs n (.sequence [.whitespace true id, .select [a, b] id'] id'') StartQ := by
  refine Below.weaken (Below.mono (below_sequence (.cons below_ws (.cons (Below.mono (below_select (.cons ha (.cons hb .nil)))
    (Nat.le_succ n)) .nil))) (Nat.le_succ n)) ?_
  rintro _ o c ⟨c', ⟨h1, _⟩ | ⟨k, c1, o', c2, h1, h2, rfl, rfl⟩, rfl⟩ hs t rfl
  · cases h1 rfl
  · cases h1 rfl
    rw [List.drop_zero] at h2
    have key : ∀ o c, (∃ c', selQ [NoSlashQ, StartQ] ('/' :: '*' :: t) o c' ∧ c = 1 + c') →
        (o = none ∧ Unclosed ('/' :: '*' :: t) ∧ 2 ^ unclosed ('/' :: '*' :: t) ≤ 2 * c) ∨
          ¬ Unclosed ('/' :: '*' :: t) ∧ ∃ k, o = some k ∧ 4 ≤ k ∧ 2 ^ unclosed ('/' :: '*' :: t) ≤ c + 2 ^ unclosed (('/' :: '*' :: t).drop k) := by
      rintro o c ⟨c', ⟨k, h1, rfl⟩ | ⟨c1, c2, _, ⟨k, h2, rfl⟩ | ⟨c3, c4, h2, ⟨rfl, rfl⟩, rfl⟩, rfl⟩, rfl⟩
      · cases h1 rfl
      · rcases h2 hs t rfl with ⟨h2, _⟩ | ⟨hn, k', h2, h3, h4⟩
        · cases h2
        · cases h2
          exact .inr ⟨hn, k, rfl, h3, by omega⟩
      · rcases h2 hs t rfl with ⟨_, h3, h4⟩ | ⟨_, k', h2, _⟩
        · exact .inl ⟨rfl, h3, by omega⟩
        · cases h2
    rcases h2 with ⟨h2, rfl⟩ | ⟨j, c3, o', c4, h2, ⟨rfl, rfl⟩, rfl, rfl⟩
    · rcases key _ _ h2 with ⟨_, h3, h4⟩ | ⟨_, _, h3, _⟩
      · exact .inl ⟨rfl, h3, by omega⟩
      · cases h3
    · rcases key _ _ h2 with ⟨h3, _⟩ | ⟨hn, _, h3, h4, h5⟩
      · cases h3
      · cases h3
        exact .inr ⟨hn, j, by simp, h4, by omega⟩

/-- Where a comment stands first on a line, the item begins there. -/
theorem lineNext_slash (hL : L.Lawful) {i t : Str} {k : Nat} (h : L.lineNext true i ('/' :: t) = .call k) : k = 0 := by
  obtain ⟨-, h1, -⟩ := hL.line_call h
  cases k with
  | zero => rfl
  | succ k => exact absurd (h1 '/' (by simp)) (by decide)

theorem below_startBlock (hL : L.Lawful) {r : Rule} (h : Below L refs n r StartQ) {id} :
    Below L refs n (.lines r false id) (fun s o c => Sober s → ∀ t, s = '/' :: '*' :: t →
      (o = some 0 ∧ Unclosed s ∧ 2 ^ unclosed s ≤ 2 * c) ∨ ¬ Unclosed s ∧ ∃ k, 4 ≤ k ∧ 2 ^ unclosed s ≤ c + 2 ^ unclosed (s.drop k)) := by
  refine Below.weaken (Below.mono (below_lines h (J := fun f s o c => f = true → Sober s → ∀ t, s = '/' :: '*' :: t →
      (o = some 0 ∧ Unclosed s ∧ 2 ^ unclosed s ≤ 2 * c) ∨ ¬ Unclosed s ∧ ∃ k, 4 ≤ k ∧ 2 ^ unclosed s ≤ c + 2 ^ unclosed (s.drop k))
      ?_ ?_ ?_ ?_) (Nat.le_succ n)) ?_
  · rintro f _ k ⟨i, h1⟩ rfl hs t rfl
    exact absurd ((hL.line_done h1).2 '/' (by simp)) (by decide)
  · rintro f _ k ⟨i, h1⟩ rfl hs t rfl
    cases (hL.line_fail h1).1
  · rintro f _ k c ⟨i, h1⟩ h2 rfl hs t rfl
    cases lineNext_slash hL h1
    rw [List.drop_zero] at h2
    rcases h2 hs t rfl with ⟨_, h3, h4⟩ | ⟨_, _, h3, _⟩
    · exact .inl ⟨rfl, h3, h4⟩
    · cases h3
  · rintro f _ k k' c o c' ⟨i, h1⟩ h2 _ rfl hs t rfl
    cases lineNext_slash hL h1
    rw [List.drop_zero] at h2
    rcases h2 hs t rfl with ⟨h3, _⟩ | ⟨hn, _, h3, h4, h5⟩
    · cases h3
    · exact .inr ⟨hn, _, h4, by omega⟩
  · rintro s o c ⟨c', h1, rfl⟩ hs t ht
    rcases h1 rfl hs t ht with ⟨h1, h2, h3⟩ | ⟨hn, k, h1, h2⟩
    · exact .inl ⟨h1, h2, by omega⟩
    · exact .inr ⟨hn, k, h1, by omega⟩

/-- A document that begins with a comment. -/
theorem below_docLow (hL : L.Lawful) (hX : L.Exact) (hr : HasComments refs) : Below L refs n Boot.document (fun s _ c => Sober s → ∀ t, s = '/' :: '*' :: t →
    (Unclosed s ∧ 2 ^ unclosed s ≤ c) ∨ ¬ Unclosed s ∧ ∃ k, 4 ≤ k ∧ 2 ^ unclosed s ≤ c + 2 ^ unclosed (s.drop k)) := by
  refine Below.weaken (Below.mono (below_sequence (.cons (below_startBlock hL (below_startItem (below_string_slash hr) (below_start hr)))
    (.cons (below_startBlock hL (below_startItem (below_node_slash hL hX hr) (below_start hr))) (.cons (below_any _) .nil)))) (Nat.le_succ n)) ?_
  rintro s o c ⟨c', ⟨h1, _⟩ | ⟨k, c1, o', c2, h1, h2, _, rfl⟩, rfl⟩ hs t ht
  · rcases h1 hs t ht with ⟨h1, _⟩ | ⟨hn, k, h2, h3⟩
    · cases h1
    · exact .inr ⟨hn, k, h2, by omega⟩
  · rcases h1 hs t ht with ⟨h1, h3, h4⟩ | ⟨hn, k, h3, h4⟩
    · cases h1
      rw [List.drop_zero] at h2
      rcases h2 with ⟨h2, _⟩ | ⟨k, c3, o', c4, h2, h5, _, rfl⟩
      · rcases h2 hs t ht with ⟨h1, _⟩ | ⟨hn, k, h2, h3⟩
        · cases h1
        · exact .inr ⟨hn, k, h2, by omega⟩
      · rcases h2 hs t ht with ⟨_, _, h2⟩ | ⟨hn, k, h2, h3⟩
        · exact .inl ⟨h3, by omega⟩
        · exact .inr ⟨hn, k, h2, by omega⟩
    · exact .inr ⟨hn, k, h3, by omega⟩

end
end Verif
