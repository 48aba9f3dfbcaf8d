import Verif.Proofs.BootRule
import Verif.Proofs.OpenComments
import Verif.Proofs.NotationDoc
import Verif.Spec.Unclosed
/-
What comments and the whole document cost.
-/
namespace Verif
open Spec

/-- The estimate: so many calls pay for what is ahead. -/
noncomputable def pot (s : Str) : Nat := 1000 * ((s.length + 1) * 2 ^ unclosed s)

theorem unclosed_drop (k : Nat) : ∀ s : Str, unclosed (s.drop k) ≤ unclosed s := by
  induction k with
  | zero => intro s; simp
  | succ k ih =>
    intro s
    cases s with
    | nil => simp
    | cons c t =>
      simp only [List.drop_succ_cons, unclosed]
      have := ih t
      omega

theorem pot_drop {s : Str} {k : Nat} (hk : k ≤ s.length) : pot (s.drop k) + 1000 * k ≤ pot s := by
  simp only [pot, List.length_drop]
  have h1 : 2 ^ unclosed (s.drop k) ≤ 2 ^ unclosed s := Nat.pow_le_pow_right (by omega) (unclosed_drop k s)
  have h2 : 1 ≤ 2 ^ unclosed s := Nat.one_le_two_pow
  have h3 : (s.length - k + 1) * 2 ^ unclosed (s.drop k) ≤ (s.length - k + 1) * 2 ^ unclosed s := Nat.mul_le_mul_left _ h1
  have h4 : k ≤ k * 2 ^ unclosed s := Nat.le_mul_of_pos_right _ h2
  have h5 : (s.length + 1) * 2 ^ unclosed s = (s.length - k + 1) * 2 ^ unclosed s + k * 2 ^ unclosed s := by
    rw [← Nat.add_mul]; congr 1; omega
  omega

theorem pot_len (s : Str) : 1000 * s.length + 1000 ≤ pot s := by
  have h2 : 1 ≤ 2 ^ unclosed s := Nat.one_le_two_pow
  have := Nat.mul_le_mul_left (s.length + 1) h2
  simp only [pot]
  omega

theorem pot_drop_le (s : Str) (k : Nat) : pot (s.drop k) ≤ pot s := by
  by_cases h : k ≤ s.length
  · have := pot_drop h; omega
  · rw [List.drop_eq_nil_of_le (by omega)]
    have := pot_len s
    have h2 : pot [] = 1000 := rfl
    omega

/-- Where a comment is opened and not closed, there is enough for reading the rest twice. -/
theorem pot_open {t : Str} (h : CommentBody t []) : pot t + pot ('*' :: t) + 1000 ≤ pot ('/' :: '*' :: t) := by
  have h1 : unclosed ('*' :: t) = unclosed t := by
    rw [unclosed, if_neg (by rintro ⟨u, h, -⟩; cases h), Nat.zero_add]
  have h2 : unclosed ('/' :: '*' :: t) = unclosed t + 1 := by
    rw [unclosed, if_pos ⟨t, rfl, h⟩, h1, Nat.add_comm]
  have h3 : 1 ≤ 2 ^ unclosed t := Nat.one_le_two_pow
  simp only [pot, h1, h2, List.length_cons, Nat.pow_succ]
  have h4 : (t.length + 1 + 1 + 1) * (2 ^ unclosed t * 2) = (t.length + 1) * 2 ^ unclosed t + (t.length + 1 + 1) * 2 ^ unclosed t + 3 * 2 ^ unclosed t := by
    rw [← Nat.add_mul, ← Nat.add_mul, Nat.mul_comm _ 2, ← Nat.mul_assoc]; congr 1; omega
  omega

theorem pot_slash (t : Str) : pot t + 2000 ≤ pot ('/' :: '*' :: t) := by
  have := pot_drop (s := '/' :: '*' :: t) (k := 2) (by simp)
  simpa using this

section
variable {L : Lexer} {refs : List Rule} {n : Nat}

/-! ### What is a comment -/

/-- `..."*/"?`. -/
def SkipR : Quo := fun s o _ => ∃ p s', s = p ++ s' ∧ o = some p.length ∧ Boot.Plain p ∧ Boot.Stopped s'

theorem below_skipR {prop id} : Below L refs n (.untilAny c!"*/" true prop id) SkipR := by
  refine Below.mono (n := n + 1) (below_succ fun m hm st s p o st' ho => ?_) (by omega)
  simp only [step, evalUntilAny] at ho
  rw [if_neg (by simp)] at ho
  refine ⟨p.src.takeWhile (fun c => !(c!"*/").contains c), p.src.dropWhile (fun c => !(c!"*/").contains c),
    (List.takeWhile_append_dropWhile ..).symm, taken_emitOpt ho, ?_, ?_⟩
  · intro c hc hx
    have := List.all_eq_true.1 (List.all_takeWhile (l := p.src) (p := fun c => !(c!"*/").contains c)) c hc
    simp only [Bool.not_eq_true', List.contains_eq_mem, decide_eq_false_iff_not] at this
    exact this hx
  · intro c hc
    have := List.head?_dropWhile_not (fun c => !(c!"*/").contains c) p.src
    rw [hc] at this
    by_cases h1 : c = '*'
    · simp [h1]
    · simp [h1] at this
      simp [this]

/-- `multi_line_comment` is what the notation calls a comment. -/
def CommentR : Quo := fun s o _ =>
  (o = none ∧ ((c!"/*").isPrefixOf s = false ∨ Unclosed s)) ∨
    ∃ b rest, s = '/' :: '*' :: (b ++ '*' :: '/' :: rest) ∧ CommentBody b ('*' :: '/' :: rest) ∧ o = some (b.length + 4)

/-- What is repeated in a comment. -/
def PartR : Quo := fun s o _ => Boot.Stopped s →
  (o = none ∧ Boot.Closed s) ∨
    ∃ a s', s = a ++ s' ∧ o = some a.length ∧ Boot.Stopped s' ∧
      ∀ b rest, s' = b ++ rest → CommentBody b rest → CommentBody (a ++ b) rest

theorem plain_body' {p : Str} (hp : Boot.Plain p) {b rest : Str} (h : CommentBody b rest) : CommentBody (p ++ b) rest := by
  induction p with
  | nil => exact h
  | cons c p ih =>
    have hc := hp c (by simp)
    simp only [List.mem_cons, List.not_mem_nil, or_false, not_or] at hc
    exact .plain hc.1 hc.2 (ih fun x hx => hp x (by simp [hx]))

/-- A sequence that ends with `..."*/"?`. -/
theorem seqQ_skip {s o c} (h : seqQ [SkipR] s o c) :
    ∃ p s', s = p ++ s' ∧ o = some p.length ∧ Boot.Plain p ∧ Boot.Stopped s' := by
  rcases h with ⟨⟨p, s', _, h, _⟩, _⟩ | ⟨k, c1, o', c2, ⟨p, s', h1, h2, h3⟩, ⟨rfl, rfl⟩, rfl, _⟩
  · cases h
  · cases h2
    exact ⟨p, s', h1, by simp, h3⟩

theorem below_starR : Below L refs n commentStar (fun s o _ =>
    (o = none ∧ ∀ t, s = '*' :: t → t.head? = some '/') ∨ ∃ p s', s = '*' :: (p ++ s') ∧ o = some ('*' :: p).length ∧ Boot.Plain p ∧
      Boot.Stopped s' ∧ (p ++ s').head? ≠ some '/') := by
  refine Below.weaken (Below.mono (below_sequence (.cons below_noTag (.cons below_tag (.cons below_skipR .nil)))) (Nat.le_succ n)) ?_
  rintro s o c ⟨c', ⟨⟨h1, ⟨h2, _⟩ | ⟨_, h2⟩⟩, rfl⟩ | ⟨k, c1, o', c2, ⟨h1, ⟨_, h2⟩ | ⟨h3, h2⟩⟩, h4, rfl, rfl⟩, rfl⟩
  · refine .inl ⟨rfl, ?_⟩
    rintro t rfl
    obtain ⟨s₁, h3, h4⟩ := prefix_cons h2
    cases h3
    obtain ⟨s₂, rfl, -⟩ := prefix_cons h4
    rfl
  · cases h2
  · cases h2
  · cases h2
    rw [List.drop_zero] at h4
    rcases h4 with ⟨⟨_, ⟨_, h4⟩ | ⟨h4, _⟩⟩, rfl⟩ | ⟨k, c1, o', c2, ⟨_, ⟨h5, h4⟩ | ⟨_, h4⟩⟩, h6, rfl, rfl⟩
    · cases h4
    · refine .inl ⟨rfl, ?_⟩
      rintro t rfl
      simp [List.isPrefixOf] at h4
    · cases h4
      obtain ⟨s₁, rfl, -⟩ := prefix_cons h5
      obtain ⟨p, s', h9, rfl, h7, h8⟩ := seqQ_skip h6
      simp only [List.drop_succ_cons, List.length_cons, List.length_nil, List.drop_zero] at h9
      subst h9
      refine .inr ⟨p, s', rfl, by simp; omega, h7, h8, ?_⟩
      intro h
      cases hs : p ++ s' with
      | nil => rw [hs] at h; cases h
      | cons x t =>
        rw [hs] at h
        cases h
        rw [hs] at h3
        simp [List.isPrefixOf] at h3
    · cases h4

theorem below_slashR : Below L refs n commentSlash (fun s o _ =>
    (o = none ∧ s.head? ≠ some '/') ∨ ∃ p s', s = '/' :: (p ++ s') ∧ o = some ('/' :: p).length ∧ Boot.Plain p ∧ Boot.Stopped s') := by
  refine Below.weaken (Below.mono (below_sequence (.cons below_tag (.cons below_skipR .nil))) (Nat.le_succ n)) ?_
  rintro s o c ⟨c', ⟨⟨h1, ⟨_, h2⟩ | ⟨h2, _⟩⟩, rfl⟩ | ⟨k, c1, o', c2, ⟨h1, ⟨h2, h3⟩ | ⟨_, h3⟩⟩, h4, rfl, rfl⟩, rfl⟩
  · cases h2
  · refine .inl ⟨rfl, ?_⟩
    intro h
    cases s with
    | nil => cases h
    | cons x t => cases h; simp [List.isPrefixOf] at h2
  · cases h3
    obtain ⟨s₁, rfl, -⟩ := prefix_cons h2
    obtain ⟨p, s', h5, rfl, h7, h8⟩ := seqQ_skip h4
    simp only [List.drop_succ_cons, List.length_cons, List.length_nil, List.drop_zero] at h5
    subst h5
    exact .inr ⟨p, s', rfl, by simp; omega, h7, h8⟩
  · cases h3

theorem below_innerR (h : ∀ name prop id, Below L refs n (.node name prop (some 0) id) CommentR) :
    Below L refs n commentInner (fun s o _ => (o = none ∧ ((c!"/*").isPrefixOf s = false ∨ Unclosed s)) ∨
      ∃ b p s', s = '/' :: '*' :: (b ++ '*' :: '/' :: (p ++ s')) ∧ CommentBody b ('*' :: '/' :: (p ++ s')) ∧
        o = some ('/' :: '*' :: (b ++ '*' :: '/' :: p)).length ∧ Boot.Plain p ∧ Boot.Stopped s') := by
  refine Below.weaken (Below.mono (below_sequence (.cons (h _ _ _) (.cons below_skipR .nil))) (Nat.le_succ n)) ?_
  rintro s o c ⟨c', ⟨⟨_, h1⟩ | ⟨b, rest, _, _, h1⟩, rfl⟩ | ⟨k, c1, o', c2, ⟨h1, _⟩ | ⟨b, rest, rfl, h1, h2⟩, h3, rfl, rfl⟩, rfl⟩
  · exact .inl ⟨rfl, h1⟩
  · cases h1
  · cases h1
  · cases h2
    obtain ⟨p, s', h5, rfl, h7, h8⟩ := seqQ_skip h3
    have h6 : List.drop (b.length + 4) ('/' :: '*' :: (b ++ '*' :: '/' :: rest)) = rest := by
      rw [List.drop_succ_cons, List.drop_succ_cons, ← List.drop_drop, List.drop_left]; rfl
    rw [h6] at h5
    subst h5
    exact .inr ⟨b, p, s', rfl, h1, by simp; omega, h7, h8⟩

theorem below_partR (h : ∀ name prop id, Below L refs n (.node name prop (some 0) id) CommentR) :
    Below L refs n commentPart PartR := by
  refine Below.weaken (Below.mono (below_select (.cons below_starR (.cons (below_innerR h) (.cons below_slashR .nil)))) (Nat.le_succ n)) ?_
  rintro s o c ⟨c', ⟨k, h1, rfl⟩ | ⟨c1, c2, h1, ⟨k, h2, rfl⟩ | ⟨c3, c4, h2, ⟨k, h3, rfl⟩ | ⟨c5, c6, h3, ⟨rfl, rfl⟩, rfl⟩, rfl⟩, rfl⟩, rfl⟩ hs
  · rcases h1 with ⟨h1, _⟩ | ⟨p, s', rfl, h2, h3, h4, h5⟩
    · cases h1
    · refine .inr ⟨'*' :: p, s', rfl, h2, h4, ?_⟩
      rintro b rest rfl hb
      exact .star (b := p ++ b) (by rwa [List.append_assoc]) (plain_body' h3 hb)
  · rcases h2 with ⟨h2, _⟩ | ⟨b, p, s', rfl, h2, h3, h4, h5⟩
    · cases h2
    · refine .inr ⟨_, s', by simp, h3, h5, ?_⟩
      rintro b' rest rfl hb
      have := CommentBody.nested (b := b) (b' := p ++ b') (rest := rest) (by simpa using h2) (plain_body' h4 hb)
      simpa using this
  · rcases h3 with ⟨h3, _⟩ | ⟨p, s', rfl, h3, h4, h5⟩
    · cases h3
    · refine .inr ⟨'/' :: p, s', rfl, h3, h5, ?_⟩
      rintro b rest rfl hb
      rcases h2 with ⟨_, h2 | ⟨t, h2, h6⟩⟩ | ⟨_, _, _, _, _, h2, _⟩
      · refine .slash (b := p ++ b) ?_ (plain_body' h4 hb)
        intro h
        rw [List.append_assoc] at h
        cases hx : p ++ (b ++ rest) with
        | nil => rw [hx] at h; cases h
        | cons x t =>
          rw [hx] at h h2
          cases h
          simp [List.isPrefixOf] at h2
      · exact .unclosed (b := p ++ b) (t := t) (by simpa using h2) h6 (plain_body' h4 hb)
      · cases h2
  · refine .inl ⟨rfl, ?_⟩
    rcases h3 with ⟨_, h3⟩ | ⟨_, _, _, h3, _⟩
    · cases s with
      | nil => exact .inl rfl
      | cons x t =>
        have hx := hs x rfl
        simp only [List.mem_cons, List.not_mem_nil, or_false] at hx
        rcases hx with rfl | rfl
        · rcases h1 with ⟨_, h1⟩ | ⟨_, _, _, h1, _⟩
          · have := h1 t rfl
            cases t with
            | nil => cases this
            | cons y t => cases this; exact .inr ⟨t, rfl⟩
          · cases h1
        · exact absurd rfl h3
    · cases h3

theorem below_commentR (hr : refs[0]? = some Boot.multiLineComment) :
    ∀ n name prop id, Below L refs n (.node name prop (some 0) id) CommentR := by
  intro n
  induction n with
  | zero => intro _ _ _ m hm; exact absurd hm (Nat.not_lt_zero m)
  | succ n ih =>
    intro name prop id
    have hbody : Below L refs n commentBody (fun s o _ => Boot.Stopped s →
        ∃ b rest, s = b ++ rest ∧ o = some b.length ∧ Boot.Closed rest ∧ CommentBody b rest) := by
      refine Below.weaken (Below.mono (below_repeat (below_partR ih) (I := fun s k _ => Boot.Stopped s →
        ∃ b rest, s = b ++ rest ∧ k = b.length ∧ Boot.Closed rest ∧ CommentBody b rest) ?_ ?_) (Nat.le_succ n)) ?_
      · intro s c h hs
        rcases h hs with ⟨_, h⟩ | ⟨_, _, _, h, _⟩
        · exact ⟨[], s, rfl, rfl, h, .nil⟩
        · cases h
      · intro s k c k' c' h h' hs
        rcases h hs with ⟨h, _⟩ | ⟨a, s', rfl, h, h1, h2⟩
        · cases h
        · cases h
          rw [List.drop_left] at h'
          obtain ⟨b, rest, rfl, rfl, h3, h4⟩ := h' h1
          exact ⟨a ++ b, rest, by simp, by simp, h3, h2 b rest rfl h4⟩
      · rintro s o c ⟨k, c', rfl, h, _⟩ hs
        obtain ⟨b, rest, h1, rfl, h2⟩ := h hs
        exact ⟨b, rest, h1, rfl, h2⟩
    refine Below.weaken (Below.mono (below_node hr (below_sequence (.cons below_tag (.cons below_skipR (.cons hbody (.cons below_tag .nil))))))
      (Nat.le_succ _)) ?_
    rintro s o c ⟨c', ⟨c'', ⟨⟨_, ⟨_, h2⟩ | ⟨h1, _⟩⟩, rfl⟩ | ⟨k, c1, o', c2, ⟨h1, ⟨h2, h3⟩ | ⟨_, h3⟩⟩, h4, rfl, rfl⟩, rfl⟩, rfl⟩
    · cases h2
    · exact .inl ⟨rfl, .inl h1⟩
    · cases h3
      obtain ⟨s₁, rfl, h5⟩ := prefix_cons h2
      obtain ⟨t, rfl, -⟩ := prefix_cons h5
      simp only [List.length_cons, List.length_nil, List.drop_succ_cons, List.drop_zero] at h4
      rcases h4 with ⟨⟨_, _, _, h4, _⟩, _⟩ | ⟨k, c3, o', c4, ⟨p, s', rfl, h5, h6, h7⟩, h8, rfl, rfl⟩
      · cases h4
      · cases h5
        rw [List.drop_left] at h8
        rcases h8 with ⟨h8, _⟩ | ⟨k', c5, o', c6, h8, h9, rfl, rfl⟩
        · obtain ⟨_, _, _, h, _⟩ := h8 h7
          cases h
        · obtain ⟨b, rest, rfl, h10, h11, h12⟩ := h8 h7
          cases h10
          rw [List.drop_left] at h9
          rcases h11 with rfl | ⟨u, rfl⟩
          · rcases h9 with ⟨_, rfl⟩ | ⟨_, _, _, _, ⟨_, ⟨h9, _⟩ | ⟨_, h9⟩⟩, _⟩
            · refine .inl ⟨rfl, .inr ⟨_, rfl, ?_⟩⟩
              rw [List.append_nil]
              exact plain_body' h6 h12
            · simp at h9
            · cases h9
          · rcases h9 with ⟨⟨_, ⟨_, h9⟩ | ⟨h9, _⟩⟩, _⟩ | ⟨_, _, _, _, ⟨_, ⟨_, h9⟩ | ⟨h9, _⟩⟩, ⟨rfl, rfl⟩, rfl, rfl⟩
            · cases h9
            · simp [List.isPrefixOf] at h9
            · cases h9
              refine .inr ⟨p ++ b, u, by simp, plain_body' h6 h12, by simp; omega⟩
            · simp [List.isPrefixOf] at h9
    · cases h3

/-! ### What it costs -/

/-- `multi_line_comment`. -/
def CommentQ : Quo := fun s o c =>
  (o = none ∧ c ≤ 3) ∨ ∃ t, s = '/' :: '*' :: t ∧
    ((o = none ∧ CommentBody t [] ∧ c ≤ pot t + 17) ∨ ∃ k, o = some k ∧ 2 ≤ k ∧ k ≤ s.length ∧ c + pot (s.drop k) ≤ pot t + 17)

/-- What is repeated in a comment. -/
def PartQ : Quo := fun s o c =>
  (o = none ∧ c ≤ 11) ∨ ∃ k, o = some k ∧ 1 ≤ k ∧ k ≤ s.length ∧ c + pot (s.drop k) ≤ pot s

/-- Takes anything, and does not fail. -/
def SkipQ : Quo := fun s o c => c = 1 ∧ ∃ k, o = some k ∧ k ≤ s.length

theorem below_skip {any prop id} : Below L refs n (.untilAny any true prop id) SkipQ := by
  refine Below.mono (n := n + 1) (below_succ fun m hm st s p o st' ho => ⟨by simp [subcalls], ?_⟩) (by omega)
  simp only [step, evalUntilAny] at ho
  rw [if_neg (by simp)] at ho
  exact ⟨_, taken_emitOpt ho, takeWhile_length_le _ _⟩

theorem below_skipWs {id} : Below L refs n (.whitespace true id) SkipQ := by
  refine Below.mono (n := n + 1) (below_succ fun m hm st s p o st' ho => ⟨by simp [subcalls], ?_⟩) (by omega)
  simp only [step, evalWhitespace] at ho
  rw [if_neg (by simp)] at ho
  simp only [Out.ret.injEq] at ho
  rw [← ho.1]
  exact ⟨_, rfl, takeWhile_length_le _ _⟩

theorem below_star : Below L refs n commentStar (Cheap 1 4) := by
  refine Below.weaken (Below.mono (below_sequence (.cons below_noTag (.cons below_tag (.cons below_skip .nil)))) (Nat.le_succ n)) ?_
  rintro s o c ⟨c', ⟨⟨h1, _⟩, rfl⟩ | ⟨k, c1, o', c2, ⟨h1, ⟨_, h2⟩ | ⟨_, h2⟩⟩, h4, rfl, rfl⟩, rfl⟩
  · exact ⟨by omega, fun k hk => by cases hk⟩
  · cases h2
  · cases h2
    rw [List.drop_zero] at h4
    rcases h4 with ⟨⟨h3, _⟩, rfl⟩ | ⟨k, c1, o', c2, ⟨h3, ⟨h5, h4⟩ | ⟨_, h4⟩⟩, h6, rfl, rfl⟩
    · exact ⟨by omega, fun k hk => by cases hk⟩
    · cases h4
      have h5 := isPrefixOf_length h5
      rcases h6 with ⟨⟨_, k, h4, _⟩, rfl⟩ | ⟨k, c1, o', c2, ⟨h3, k', h4, h7⟩, ⟨rfl, rfl⟩, rfl, rfl⟩
      · cases h4
      · cases h4
        refine ⟨by omega, fun j hj => ?_⟩
        simp only [List.length_drop, List.length_singleton, Option.map_some, Option.some.injEq] at hj h5 h7
        omega
    · cases h4

theorem below_slash : Below L refs n commentSlash (fun s o c =>
    (o = none ∧ c ≤ 2 ∧ (c!"/").isPrefixOf s = false) ∨ ∃ k, o = some k ∧ 1 ≤ k ∧ k ≤ s.length ∧ c ≤ 3) := by
  refine Below.weaken (Below.mono (below_sequence (.cons below_tag (.cons below_skip .nil))) (Nat.le_succ n)) ?_
  rintro s o c ⟨c', ⟨⟨h1, ⟨_, h2⟩ | ⟨h2, _⟩⟩, rfl⟩ | ⟨k, c1, o', c2, ⟨h1, ⟨h2, h3⟩ | ⟨_, h3⟩⟩, h4, rfl, rfl⟩, rfl⟩
  · cases h2
  · exact .inl ⟨rfl, by omega, h2⟩
  · cases h3
    have h5 := isPrefixOf_length h2
    rcases h4 with ⟨⟨_, k, h4, _⟩, rfl⟩ | ⟨k, c1, o', c2, ⟨h3, k', h4, h6⟩, ⟨rfl, rfl⟩, rfl, rfl⟩
    · cases h4
    · cases h4
      simp only [List.length_drop, List.length_singleton] at h5 h6
      exact .inr ⟨1 + k, by simp, by omega, by omega, by omega⟩
  · cases h3

theorem below_inner (h : ∀ name prop id, Below L refs n (.node name prop (some 0) id) CommentQ) :
    Below L refs n commentInner (fun s o c =>
      (o = none ∧ c ≤ 4) ∨ ∃ t, s = '/' :: '*' :: t ∧
        ((o = none ∧ CommentBody t [] ∧ c ≤ pot t + 19) ∨ ∃ k, o = some k ∧ 2 ≤ k ∧ k ≤ s.length ∧ c + pot (s.drop k) ≤ pot t + 19)) := by
  refine Below.weaken (Below.mono (below_sequence (.cons (h _ _ _) (.cons below_skip .nil))) (Nat.le_succ n)) ?_
  rintro s o c ⟨c', ⟨h1, rfl⟩ | ⟨k, c1, o', c2, h1, h2, rfl, rfl⟩, rfl⟩
  · rcases h1 with ⟨_, h1⟩ | ⟨t, rfl, ⟨_, h0, h1⟩ | ⟨k, h1, _⟩⟩
    · exact .inl ⟨rfl, by omega⟩
    · exact .inr ⟨t, rfl, .inl ⟨rfl, h0, by omega⟩⟩
    · cases h1
  · rcases h1 with ⟨h1, _⟩ | ⟨t, hs, ⟨h1, _⟩ | ⟨k', h1, h3, h4, h5⟩⟩
    · cases h1
    · cases h1
    · cases h1
      rcases h2 with ⟨⟨_, k, h6, _⟩, rfl⟩ | ⟨j, c3, o', c4, ⟨h6, j', h7, h8⟩, ⟨rfl, rfl⟩, rfl, rfl⟩
      · cases h6
      · cases h7
        have h9 := pot_drop h8
        rw [List.drop_drop] at h9
        simp only [List.length_drop] at h8
        exact .inr ⟨t, hs, .inr ⟨k + j, by simp, by omega, by omega, by omega⟩⟩

theorem below_part (h : ∀ name prop id, Below L refs n (.node name prop (some 0) id) CommentQ) :
    Below L refs n commentPart PartQ := by
  refine Below.weaken (Below.mono (below_select (.cons below_star (.cons (below_inner h) (.cons below_slash .nil)))) (Nat.le_succ n)) ?_
  rintro s o c ⟨c', ⟨k, h1, rfl⟩ | ⟨c1, c2, h1, ⟨k, h2, rfl⟩ | ⟨c3, c4, h2, ⟨k, h3, rfl⟩ | ⟨c5, c6, h3, ⟨rfl, rfl⟩, rfl⟩, rfl⟩, rfl⟩, rfl⟩
  · have h2 := h1.2 k rfl
    have h3 := pot_drop h2.2
    have := h1.1
    exact .inr ⟨k, rfl, h2.1, h2.2, by omega⟩
  · have h3 := h1.1
    rcases h2 with ⟨h2, _⟩ | ⟨t, rfl, ⟨h2, _⟩ | ⟨k', h2, h4, h5, h6⟩⟩
    · cases h2
    · cases h2
    · cases h2
      have := pot_slash t
      exact .inr ⟨k, rfl, by omega, h5, by omega⟩
  · have h4 := h1.1
    rcases h3 with ⟨h3, _⟩ | ⟨k', h3, h5, h6, h7⟩
    · cases h3
    · cases h3
      refine .inr ⟨k, rfl, h5, h6, ?_⟩
      rcases h2 with ⟨_, h2⟩ | ⟨t, rfl, ⟨_, h0, h2⟩ | ⟨k', h2, _⟩⟩
      · have := pot_drop h6
        omega
      · have h8 := pot_open h0
        obtain ⟨j, rfl⟩ : ∃ j, k = j + 1 := ⟨k - 1, by omega⟩
        rw [List.drop_succ_cons]
        have := pot_drop_le ('*' :: t) j
        omega
      · cases h2
  · have h4 := h1.1
    rcases h3 with ⟨_, h3, h5⟩ | ⟨k', h3, _⟩
    · rcases h2 with ⟨_, h2⟩ | ⟨t, rfl, _⟩
      · exact .inl ⟨rfl, by omega⟩
      · simp [List.isPrefixOf] at h5
    · cases h3

theorem below_comment0 (hr : refs[0]? = some Boot.multiLineComment) :
    ∀ n name prop id, Below L refs n (.node name prop (some 0) id) CommentQ := by
  intro n
  induction n with
  | zero => intro _ _ _ m hm; exact absurd hm (Nat.not_lt_zero m)
  | succ n ih =>
    intro name prop id
    have hbody : Below L refs n commentBody (fun s o c => ∃ k, o = some k ∧ k ≤ s.length ∧ c + pot (s.drop k) ≤ pot s + 12) := by
      refine Below.weaken (Below.mono (below_repeat (below_part ih) (I := fun s k c => k ≤ s.length ∧ c + pot (s.drop k) ≤ pot s + 11)
        ?_ ?_) (Nat.le_succ n)) ?_
      · rintro s c (⟨_, h⟩ | ⟨k, h, _⟩)
        · exact ⟨Nat.zero_le _, by rw [List.drop_zero]; omega⟩
        · cases h
      · rintro s k c k' c' (⟨h, _⟩ | ⟨j, h, h1, h2, h3⟩) ⟨h4, h5⟩
        · cases h
        · cases h
          rw [List.drop_drop] at h5
          simp only [List.length_drop] at h4
          exact ⟨by omega, by omega⟩
      · rintro s o c ⟨k, c', h1, ⟨h2, h3⟩, rfl⟩
        exact ⟨k, h1, h2, by omega⟩
    refine Below.weaken (Below.and (Below.mono (below_node hr (below_sequence (.cons below_tag (.cons below_skip (.cons hbody
      (.cons below_tag .nil)))))) (Nat.le_succ _)) (below_commentR hr (n + 1) name prop id)) ?_
    rintro s o c ⟨⟨c', ⟨c'', ⟨⟨h1, _⟩, rfl⟩ | ⟨k, c1, o', c2, ⟨h1, ⟨h2, h3⟩ | ⟨_, h3⟩⟩, h4, rfl, rfl⟩, rfl⟩, rfl⟩, hR⟩
    · exact .inl ⟨rfl, by omega⟩
    · cases h3
      obtain ⟨s₁, rfl, h5⟩ := prefix_cons h2
      obtain ⟨t, rfl, -⟩ := prefix_cons h5
      refine .inr ⟨t, rfl, ?_⟩
      simp only [List.length_cons, List.length_nil, List.drop_succ_cons, List.drop_zero] at h4
      rcases h4 with ⟨⟨_, k, h4, _⟩, rfl⟩ | ⟨k, c3, o', c4, ⟨h4, k', h5, h6⟩, h7, rfl, rfl⟩
      · cases h4
      · cases h5
        have h8 := pot_drop h6
        rcases h7 with ⟨⟨k', h7, _⟩, rfl⟩ | ⟨k', c5, o', c6, ⟨j, h7, h9, h10⟩, h11, rfl, rfl⟩
        · cases h7
        · cases h7
          rw [List.length_drop] at h9
          rcases h11 with ⟨⟨h11, _⟩, rfl⟩ | ⟨k₂, c7, o', c8, ⟨h11, ⟨h12, h13⟩ | ⟨_, h13⟩⟩, ⟨rfl, rfl⟩, rfl, rfl⟩
          · refine .inl ⟨rfl, ?_, by omega⟩
            rcases hR with ⟨_, hR | ⟨u, hu, hR⟩⟩ | ⟨_, _, _, _, hR⟩
            · simp [List.isPrefixOf] at hR
            · cases hu; exact hR
            · cases hR
          · cases h13
            have h14 := isPrefixOf_length h12
            have h15 := pot_drop h14
            simp only [List.drop_drop, List.length_drop, List.length_cons, List.length_nil, Nat.zero_add, Nat.reduceAdd] at h10 h14 h15
            refine .inr ⟨2 + (k + (k' + 2)), by simp, by omega, by simp only [List.length_cons]; omega, ?_⟩
            have h16 : 2 + (k + (k' + 2)) = k + (k' + 2) + 1 + 1 := by omega
            rw [h16, List.drop_succ_cons, List.drop_succ_cons]
            rw [Nat.add_assoc] at h15
            omega
          · cases h13
    · cases h3

end
end Verif
