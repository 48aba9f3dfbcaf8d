import Mathlib.Computability.TuringMachine.PostTuringMachine
import Verif.Spec.Rewriting
/-
Turing machines by rewriting words.
-/
namespace Verif
open Spec Turing

theorem RewritesTo.trans {R : List (List Nat × List Nat)} {a b c : List Nat} (h : RewritesTo R a b) (h' : RewritesTo R b c) :
    RewritesTo R a c := by
  induction h with
  | refl => exact h'
  | step h _ ih => exact .step h (ih h')

section
set_option linter.unusedSectionVars false
variable {Γ Λ : Type} [Inhabited Γ] [Inhabited Λ]

/-- How symbols and states are written.  `0` and `1` stand at the ends. -/
structure Letters (S : List Λ) where
  sym : Γ → Nat
  state : Λ → Nat
  sym_inj : ∀ a b, sym a = sym b → a = b
  state_inj : ∀ p ∈ S, ∀ q ∈ S, state p = state q → p = q
  sym_even : ∀ a, sym a % 2 = 0
  sym_big : ∀ a, 2 ≤ sym a
  state_odd : ∀ q, state q % 2 = 1
  state_big : ∀ q, 3 ≤ state q

variable {S : List Λ} (C : Letters (Γ := Γ) S) (M : TM0.Machine Γ Λ) (X : List Γ)

/-- The pairs for a state and a symbol. -/
def pairsFor (q : Λ) (a : Γ) : List (List Nat × List Nat) :=
  match M q a with
  | none => []
  | some (q', .write b) => [([C.state q, C.sym a], [C.state q', C.sym b])]
  | some (q', .move .right) => [([C.state q, C.sym a], [C.sym a, C.state q'])]
  | some (q', .move .left) =>
    ([0, C.state q, C.sym a], [0, C.state q', C.sym default, C.sym a]) ::
      X.map fun b => ([C.sym b, C.state q, C.sym a], [C.state q', C.sym b, C.sym a])

/-- The machine as pairs of words. -/
def machinePairs : List (List Nat × List Nat) :=
  (S.flatMap fun q => X.flatMap fun a => pairsFor C M X q a) ++ S.map fun q => ([C.state q, 1], [C.state q, C.sym default, 1])

/-- Where the machine stops. -/
def machineEnds : List (List Nat) :=
  S.flatMap fun q => X.flatMap fun a => if (M q a).isNone then [[C.state q, C.sym a]] else []

/-- The word of a configuration: what is on the left, the state, what is on the right. -/
def Encodes (w : List Nat) (c : TM0.Cfg Γ Λ) : Prop :=
  ∃ l r : List Γ, w = 0 :: l.map C.sym ++ C.state c.q :: (r.map C.sym ++ [1]) ∧
    c.Tape = Tape.mk' (ListBlank.mk l.reverse) (ListBlank.mk r) ∧ c.q ∈ S

/-- A state. -/
def IsState (n : Nat) : Prop := n % 2 = 1 ∧ 3 ≤ n

theorem state_unique {p t p' t' : List Nat} {a b : Nat} (ha : IsState a) (hp : ∀ n ∈ p', ¬ IsState n) (ht : ∀ n ∈ t', ¬ IsState n)
    (h : p ++ a :: t = p' ++ b :: t') : p = p' ∧ a = b ∧ t = t' := by
  induction p generalizing p' with
  | nil =>
    cases p' with
    | nil => simpa using h
    | cons n p' => simp only [List.nil_append, List.cons_append, List.cons.injEq] at h; exact absurd (h.1 ▸ ha) (hp n (by simp))
  | cons m p ih =>
    cases p' with
    | nil =>
      simp only [List.nil_append, List.cons_append, List.cons.injEq] at h
      exact absurd ha (ht a (by rw [← h.2]; simp))
    | cons n p' =>
      simp only [List.cons_append, List.cons.injEq] at h
      obtain ⟨rfl, h⟩ := h
      obtain ⟨rfl, rfl, rfl⟩ := ih (fun n hn => hp n (by simp [hn])) h
      exact ⟨rfl, rfl, rfl⟩

variable {C M X}

theorem left_plain (l : List Γ) : ∀ n ∈ 0 :: l.map C.sym, ¬ IsState n := by
  rintro n hn ⟨h1, h2⟩
  rcases List.mem_cons.1 hn with rfl | hn
  · omega
  · obtain ⟨a, -, rfl⟩ := List.mem_map.1 hn
    have := C.sym_even a
    omega

theorem right_plain (r : List Γ) : ∀ n ∈ r.map C.sym ++ [1], ¬ IsState n := by
  rintro n hn ⟨h1, h2⟩
  rcases List.mem_append.1 hn with hn | hn
  · obtain ⟨a, -, rfl⟩ := List.mem_map.1 hn
    have := C.sym_even a
    omega
  · rw [List.mem_singleton.1 hn] at h2
    omega

theorem state_isState (q : Λ) : IsState (C.state q) := ⟨C.state_odd q, C.state_big q⟩

/-- Where the state stands. -/
theorem encodes_split {w : List Nat} {c : TM0.Cfg Γ Λ} (h : Encodes C w c) {p t : List Nat} {q : Λ} (hq : q ∈ S) (he : w = p ++ C.state q :: t) :
    q = c.q ∧ ∃ l r : List Γ, p = 0 :: l.map C.sym ∧ t = r.map C.sym ++ [1] ∧
      c.Tape = Tape.mk' (ListBlank.mk l.reverse) (ListBlank.mk r) := by
  obtain ⟨l, r, h1, h2, h3⟩ := h
  obtain ⟨e1, e2, e3⟩ := state_unique (state_isState q) (left_plain l) (right_plain r) (he.symm.trans h1)
  exact ⟨C.state_inj q hq _ h3 e2, l, r, e1, e3, h2⟩

theorem right_cons {r : List Γ} {a : Γ} {v : List Nat} (h : C.sym a :: v = r.map C.sym ++ [1]) : ∃ r', r = a :: r' ∧ v = r'.map C.sym ++ [1] := by
  cases r with
  | nil =>
    simp only [List.map_nil, List.nil_append, List.cons.injEq] at h
    have := C.sym_big a
    omega
  | cons b r =>
    simp only [List.map_cons, List.cons_append, List.cons.injEq] at h
    rw [C.sym_inj a b h.1]
    exact ⟨r, rfl, h.2⟩

theorem right_end {r : List Γ} {v : List Nat} (h : 1 :: v = r.map C.sym ++ [1]) : r = [] ∧ v = [] := by
  cases r with
  | nil => simpa using h
  | cons b r =>
    simp only [List.map_cons, List.cons_append, List.cons.injEq] at h
    have := C.sym_big b
    omega

theorem left_snoc {l : List Γ} {b : Γ} {u : List Nat} (h : u ++ [C.sym b] = 0 :: l.map C.sym) : ∃ l', l = l' ++ [b] ∧ u = 0 :: l'.map C.sym := by
  rcases List.eq_nil_or_concat l with rfl | ⟨l', b', rfl⟩
  · have : u = [] := by
      have := congrArg List.length h
      simp at this
      exact this
    subst this
    simp only [List.nil_append, List.map_nil, List.cons.injEq, and_true] at h
    have := C.sym_big b
    omega
  · have h' : u ++ [C.sym b] = (0 :: l'.map C.sym) ++ [C.sym b'] := by simpa using h
    obtain ⟨h1, h2⟩ := List.append_inj' h' rfl
    rw [C.sym_inj b b' (by simpa using h2)]
    exact ⟨l', by simp, h1⟩

theorem left_end {l : List Γ} {u : List Nat} (h : u ++ [0] = 0 :: l.map C.sym) : l = [] ∧ u = [] := by
  rcases List.eq_nil_or_concat l with rfl | ⟨l', b', rfl⟩
  · refine ⟨rfl, ?_⟩
    have := congrArg List.length h
    simp at this
    exact this
  · have h' : u ++ [0] = (0 :: l'.map C.sym) ++ [C.sym b'] := by simpa using h
    obtain ⟨h1, h2⟩ := List.append_inj' h' rfl
    have := C.sym_big b'
    simp at h2
    omega

theorem blank_nil : ListBlank.mk [default] = ListBlank.mk ([] : List Γ) := by
  rw [← ListBlank.cons_mk]
  have := ListBlank.cons_head_tail (ListBlank.mk ([] : List Γ))
  simpa using this

theorem mem_pairs {p : List Nat × List Nat} (h : p ∈ machinePairs C M X) :
    (∃ q ∈ S, ∃ a ∈ X, p ∈ pairsFor C M X q a) ∨ ∃ q ∈ S, p = ([C.state q, 1], [C.state q, C.sym default, 1]) := by
  rcases List.mem_append.1 h with h | h
  · obtain ⟨q, hq, h⟩ := List.mem_flatMap.1 h
    obtain ⟨a, ha, h⟩ := List.mem_flatMap.1 h
    exact .inl ⟨q, hq, a, ha, h⟩
  · obtain ⟨q, hq, rfl⟩ := List.mem_map.1 h
    exact .inr ⟨q, hq, rfl⟩

theorem step_of {c : TM0.Cfg Γ Λ} {l r : List Γ} (hT : c.Tape = Tape.mk' (ListBlank.mk l.reverse) (ListBlank.mk r)) :
    TM0.step M c = (M c.q r.headI).map fun p => ⟨p.1, match p.2 with
      | .move d => (Tape.mk' (ListBlank.mk l.reverse) (ListBlank.mk r)).move d
      | .write a => (Tape.mk' (ListBlank.mk l.reverse) (ListBlank.mk r)).write a⟩ := by
  obtain ⟨q, T⟩ := c
  dsimp only at hT
  subst hT
  simp only [TM0.step, Tape.mk'_head, ListBlank.head_mk]
  rfl

/-- A rewritten word is that of the same configuration or of the next one. -/
theorem rewrites_encodes (hM : ∀ q ∈ S, ∀ a q' s, M q a = some (q', s) → q' ∈ S) {w b : List Nat} {c : TM0.Cfg Γ Λ}
    (h : Encodes C w c) (hr : Rewrites (machinePairs C M X) w b) :
    Encodes C b c ∨ ∃ c', TM0.step M c = some c' ∧ Encodes C b c' := by
  obtain ⟨x, y, u, v, hm, rfl, rfl⟩ := hr
  rcases mem_pairs hm with ⟨q, hq, a, ha, hp⟩ | ⟨q, hq, hp⟩
  · right
    unfold pairsFor at hp
    cases hM' : M q a with
    | none => rw [hM'] at hp; simp at hp
    | some p =>
      obtain ⟨q', s⟩ := p
      rw [hM'] at hp
      cases s with
      | write b =>
        simp only [List.mem_singleton, Prod.mk.injEq] at hp
        obtain ⟨rfl, rfl⟩ := hp
        obtain ⟨rfl, l, r, rfl, ht, hT⟩ := encodes_split h hq (p := u) (t := C.sym a :: v) (by simp)
        obtain ⟨r', rfl, rfl⟩ := right_cons ht
        refine ⟨⟨q', _⟩, by rw [step_of hT, List.headI_cons, hM']; rfl, l, b :: r', by simp, ?_, hM _ hq _ _ _ hM'⟩
        simp only [← ListBlank.cons_mk, Tape.write_mk', ListBlank.tail_cons]
      | move d =>
        cases d with
        | right =>
          simp only [List.mem_singleton, Prod.mk.injEq] at hp
          obtain ⟨rfl, rfl⟩ := hp
          obtain ⟨rfl, l, r, rfl, ht, hT⟩ := encodes_split h hq (p := u) (t := C.sym a :: v) (by simp)
          obtain ⟨r', rfl, rfl⟩ := right_cons ht
          refine ⟨⟨q', _⟩, by rw [step_of hT, List.headI_cons, hM']; rfl, l ++ [a], r', by simp, ?_, hM _ hq _ _ _ hM'⟩
          simp [Tape.move_right_mk', ListBlank.cons_mk]
        | left =>
          simp only [List.mem_cons, List.mem_map, Prod.mk.injEq] at hp
          rcases hp with ⟨rfl, rfl⟩ | ⟨b, hb, rfl, rfl⟩
          · obtain ⟨rfl, l, r, hl, ht, hT⟩ := encodes_split h hq (p := u ++ [0]) (t := C.sym a :: v) (by simp)
            obtain ⟨r', rfl, rfl⟩ := right_cons ht
            obtain ⟨rfl, rfl⟩ := left_end hl
            refine ⟨⟨q', _⟩, by rw [step_of hT, List.headI_cons, hM']; rfl, [], default :: a :: r', by simp, ?_, hM _ hq _ _ _ hM'⟩
            simp [Tape.move_left_mk', ListBlank.cons_mk]
          · obtain ⟨rfl, l, r, hl, ht, hT⟩ := encodes_split h hq (p := u ++ [C.sym b]) (t := C.sym a :: v) (by simp)
            obtain ⟨r', rfl, rfl⟩ := right_cons ht
            obtain ⟨l', rfl, rfl⟩ := left_snoc hl
            refine ⟨⟨q', _⟩, by rw [step_of hT, List.headI_cons, hM']; rfl, l', b :: a :: r', by simp, ?_, hM _ hq _ _ _ hM'⟩
            simp [Tape.move_left_mk', ListBlank.cons_mk]
  · left
    simp only [Prod.mk.injEq] at hp
    obtain ⟨rfl, rfl⟩ := hp
    obtain ⟨rfl, l, r, rfl, ht, hT⟩ := encodes_split h hq (p := u) (t := 1 :: v) (by simp)
    obtain ⟨rfl, rfl⟩ := right_end ht
    exact ⟨l, [default], by simp, by rw [hT, blank_nil], hq⟩

/-- There is a symbol to the right of the state, if need be after rewriting. -/
theorem encodes_symbol {w : List Nat} {c : TM0.Cfg Γ Λ} (h : Encodes C w c) :
    ∃ (l r : List Γ) (a : Γ) (w' : List Nat), RewritesTo (machinePairs C M X) w w' ∧ w' = 0 :: l.map C.sym ++ C.state c.q :: ((a :: r).map C.sym ++ [1]) ∧
      c.Tape = Tape.mk' (ListBlank.mk l.reverse) (ListBlank.mk (a :: r)) ∧ c.q ∈ S := by
  obtain ⟨l, r, hw, hT, hq⟩ := h
  cases r with
  | cons a r => exact ⟨l, r, a, w, .refl, hw, hT, hq⟩
  | nil =>
    refine ⟨l, [], default, _, .step ⟨[C.state c.q, 1], [C.state c.q, C.sym default, 1], 0 :: l.map C.sym, [], ?_, ?_, rfl⟩ .refl,
      by simp, by rw [hT, blank_nil], hq⟩
    · exact List.mem_append_right _ (List.mem_map.2 ⟨c.q, hq, rfl⟩)
    · simp [hw]

theorem pairs_mem {q : Λ} {a : Γ} (hq : q ∈ S) (ha : a ∈ X) {p : List Nat × List Nat} (h : p ∈ pairsFor C M X q a) : p ∈ machinePairs C M X :=
  List.mem_append_left _ (List.mem_flatMap.2 ⟨q, hq, List.mem_flatMap.2 ⟨a, ha, h⟩⟩)

/-- The next configuration is reached. -/
theorem step_rewrites (hX : ∀ a, a ∈ X) (hM : ∀ q ∈ S, ∀ a q' s, M q a = some (q', s) → q' ∈ S) {w : List Nat} {c c' : TM0.Cfg Γ Λ}
    (h : Encodes C w c) (hs : TM0.step M c = some c') : ∃ b, RewritesTo (machinePairs C M X) w b ∧ Encodes C b c' := by
  obtain ⟨l, r, a, w', h1, rfl, hT, hq⟩ := encodes_symbol (M := M) (X := X) h
  rw [step_of hT, List.headI_cons] at hs
  obtain ⟨⟨q', s⟩, hM', rfl⟩ := Option.map_eq_some_iff.1 hs
  have hq' := hM _ hq _ _ _ hM'
  have key : ∀ x y u v b, (x, y) ∈ pairsFor C M X c.q a → 0 :: l.map C.sym ++ C.state c.q :: ((a :: r).map C.sym ++ [1]) = u ++ x ++ v →
      b = u ++ y ++ v → RewritesTo (machinePairs C M X) w b := by
    intro x y u v b h2 h3 h4
    exact RewritesTo.trans h1 (.step ⟨x, y, u, v, pairs_mem hq (hX a) h2, h3, h4⟩ .refl)
  cases s with
  | write b =>
    refine ⟨_, key [C.state c.q, C.sym a] [C.state q', C.sym b] (0 :: l.map C.sym) (r.map C.sym ++ [1]) _ ?_ (by simp) rfl, l, b :: r, by simp, ?_, hq'⟩
    · simp [pairsFor, hM']
    · simp only [← ListBlank.cons_mk, Tape.write_mk', ListBlank.tail_cons]
  | move d =>
    cases d with
    | right =>
      refine ⟨_, key [C.state c.q, C.sym a] [C.sym a, C.state q'] (0 :: l.map C.sym) (r.map C.sym ++ [1]) _ ?_ (by simp) rfl, l ++ [a], r, by simp, ?_, hq'⟩
      · simp [pairsFor, hM']
      · simp [Tape.move_right_mk', ListBlank.cons_mk]
    | left =>
      rcases List.eq_nil_or_concat l with rfl | ⟨l', b, rfl⟩
      · refine ⟨_, key [0, C.state c.q, C.sym a] [0, C.state q', C.sym default, C.sym a] [] (r.map C.sym ++ [1]) _ ?_ (by simp) rfl,
          [], default :: a :: r, by simp, ?_, hq'⟩
        · simp [pairsFor, hM']
        · simp [Tape.move_left_mk', ListBlank.cons_mk]
      · refine ⟨_, key [C.sym b, C.state c.q, C.sym a] [C.state q', C.sym b, C.sym a] (0 :: l'.map C.sym) (r.map C.sym ++ [1]) _ ?_ (by simp) rfl,
          l', b :: a :: r, by simp, ?_, hq'⟩
        · simp only [pairsFor, hM']
          exact List.mem_cons_of_mem _ (List.mem_map.2 ⟨b, hX b, rfl⟩)
        · simp [Tape.move_left_mk', ListBlank.cons_mk]

theorem mem_ends {f : List Nat} : f ∈ machineEnds C M X ↔ ∃ q ∈ S, ∃ a ∈ X, M q a = none ∧ f = [C.state q, C.sym a] := by
  simp only [machineEnds, List.mem_flatMap]
  constructor
  · rintro ⟨q, hq, a, ha, h⟩
    refine ⟨q, hq, a, ha, ?_⟩
    split at h
    · rename_i hn
      exact ⟨by simpa using hn, by simpa using h⟩
    · simp at h
  · rintro ⟨q, hq, a, ha, hn, rfl⟩
    exact ⟨q, hq, a, ha, by simp [hn]⟩

/-- The words that are looked for stand in the words of the configurations in which the machine stops. -/
theorem ends_stop {w : List Nat} {c : TM0.Cfg Γ Λ} (h : Encodes C w c) {f : List Nat} (hf : f ∈ machineEnds C M X) (hi : f <:+: w) :
    TM0.step M c = none := by
  obtain ⟨q, hq, a, ha, hn, rfl⟩ := mem_ends.1 hf
  obtain ⟨u, v, hw⟩ := hi
  obtain ⟨rfl, l, r, hp, ht, hT⟩ := encodes_split h hq (p := u) (t := C.sym a :: v) (by simp [← hw])
  obtain ⟨r', rfl, rfl⟩ := right_cons ht
  rw [step_of hT, List.headI_cons, hn]
  rfl

theorem stop_ends (hX : ∀ a, a ∈ X) {w : List Nat} {c : TM0.Cfg Γ Λ} (h : Encodes C w c) (hs : TM0.step M c = none) :
    ReachesWord (machinePairs C M X) (machineEnds C M X) w := by
  obtain ⟨l, r, a, w', h1, rfl, hT, hq⟩ := encodes_symbol (M := M) (X := X) h
  rw [step_of hT, List.headI_cons, Option.map_eq_none_iff] at hs
  exact ⟨_, h1, _, mem_ends.2 ⟨c.q, hq, a, hX a, hs, rfl⟩, 0 :: l.map C.sym, r.map C.sym ++ [1], by simp⟩

/-- The machine stops if and only if one of the words is reached. -/
theorem halts_reaches (hX : ∀ a, a ∈ X) (hM : ∀ q ∈ S, ∀ a q' s, M q a = some (q', s) → q' ∈ S) {w : List Nat} {c : TM0.Cfg Γ Λ}
    (h : Encodes C w c) :
    (StateTransition.eval (TM0.step M) c).Dom ↔ ReachesWord (machinePairs C M X) (machineEnds C M X) w := by
  constructor
  · intro hd
    obtain ⟨hr, hn⟩ := StateTransition.mem_eval.1 (Part.get_mem hd)
    generalize (StateTransition.eval (TM0.step M) c).get hd = d at hr hn
    clear hd
    induction hr using Relation.ReflTransGen.head_induction_on generalizing w with
    | refl => exact stop_ends hX h hn
    | head hs _ ih =>
      obtain ⟨b, hb, hb'⟩ := step_rewrites hX hM h hs
      obtain ⟨w', h1, h2⟩ := ih hb'
      exact ⟨w', RewritesTo.trans hb h1, h2⟩
  · rintro ⟨w', hr, f, hf, hi⟩
    suffices ∃ d, StateTransition.Reaches (TM0.step M) c d ∧ TM0.step M d = none by
      obtain ⟨d, h1, h2⟩ := this
      exact Part.dom_iff_mem.2 ⟨d, StateTransition.mem_eval.2 ⟨h1, h2⟩⟩
    induction hr generalizing c with
    | refl => exact ⟨c, .refl, ends_stop h hf hi⟩
    | step hs _ ih =>
      rcases rewrites_encodes hM h hs with h' | ⟨c', hc, h'⟩
      · exact ih h' hi
      · obtain ⟨d, h1, h2⟩ := ih h' hi
        exact ⟨d, .head hc h1, h2⟩

end

end Verif
