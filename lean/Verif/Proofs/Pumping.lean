import Verif.Proofs.ContextFree
/-
Pumping: long words of a context-free language have parts that may be repeated.
-/
namespace Verif.Spec

section
variable {T N : Type} {R : ContextFreeRule T N → Prop}

/-- The symbols become the word by `n` productions. -/
inductive Sprouts (R : ContextFreeRule T N → Prop) : List (Symbol T N) → List T → Nat → Prop
  | nil : Sprouts R [] [] 0
  | term {a s w n} (h : Sprouts R s w n) : Sprouts R (.terminal a :: s) (a :: w) n
  | prod {r s v w n m} (hr : R r) (h : Sprouts R r.output v n) (h' : Sprouts R s w m) : Sprouts R (.nonterminal r.input :: s) (v ++ w) (n + m + 1)

theorem Becomes.sprouts {s : List (Symbol T N)} {w : List T} (h : Becomes R s w) : ∃ n, Sprouts R s w n := by
  induction h with
  | nil => exact ⟨_, .nil⟩
  | term _ ih =>
    obtain ⟨n, h⟩ := ih
    exact ⟨_, .term h⟩
  | prod hr _ _ ih1 ih2 =>
    obtain ⟨n, h1⟩ := ih1
    obtain ⟨m, h2⟩ := ih2
    exact ⟨_, .prod hr h1 h2⟩

theorem Sprouts.becomes {s : List (Symbol T N)} {w : List T} {n : Nat} (h : Sprouts R s w n) : Becomes R s w := by
  induction h with
  | nil => exact .nil
  | term _ ih => exact .term ih
  | prod hr _ _ ih1 ih2 => exact .prod hr ih1 ih2

theorem Sprouts.append {s t : List (Symbol T N)} {v w : List T} {n m : Nat} (h : Sprouts R s v n) (h' : Sprouts R t w m) :
    Sprouts R (s ++ t) (v ++ w) (n + m) := by
  induction h with
  | nil => simpa using h'
  | term _ ih => exact .term ih
  | @prod r s v w n k hr h _ _ ih =>
    have := Sprouts.prod hr h ih
    rw [List.append_assoc, show n + k + 1 + m = n + (k + m) + 1 by omega]
    exact this

/-- Around whatever `B` becomes, `A` becomes `v` and `y`. -/
def Around (R : ContextFreeRule T N → Prop) (A B : N) (v y : List T) (k : Nat) : Prop :=
  ∀ x m, Sprouts R [.nonterminal B] x m → Sprouts R [.nonterminal A] (v ++ x ++ y) (k + m)

theorem Around.trans {A B C : N} {u v y z : List T} {k l : Nat} (h : Around R A B u z k) (h' : Around R B C v y l) :
    Around R A C (u ++ v) (y ++ z) (k + l) := by
  intro x m hx
  have := h _ _ (h' x m hx)
  simpa [Nat.add_assoc] using this

/-- One of the symbols becomes much. -/
theorem big_child {M : Nat} (hM : 1 ≤ M) {s : List (Symbol T N)} {w : List T} {n : Nat} (h : Sprouts R s w n) : s.length * M < w.length →
    ∃ B s1 s2 w1 x w2 n1 m n2, s = s1 ++ .nonterminal B :: s2 ∧ w = w1 ++ x ++ w2 ∧ n = n1 + m + n2 ∧ M < x.length ∧
      Sprouts R s1 w1 n1 ∧ Sprouts R [.nonterminal B] x m ∧ Sprouts R s2 w2 n2 := by
  induction h with
  | nil =>
    intro h
    simp at h
  | @term a s w n _ ih =>
    intro h
    simp only [List.length_cons, Nat.add_mul, Nat.one_mul] at h
    obtain ⟨B, s1, s2, w1, x, w2, n1, m, n2, rfl, rfl, rfl, h1, h2, h3, h4⟩ := ih (by omega)
    exact ⟨B, .terminal a :: s1, s2, a :: w1, x, w2, n1, m, n2, rfl, by simp, rfl, h1, .term h2, h3, h4⟩
  | @prod r s v w n k hr h h' _ ih =>
    intro hl
    simp only [List.length_cons, Nat.add_mul, Nat.one_mul, List.length_append] at hl
    by_cases hv : M < v.length
    · have := Sprouts.prod hr h .nil
      exact ⟨r.input, [], s, [], v, w, 0, n + 1, k, rfl, by simp, by omega, hv, .nil, by simpa using this, h'⟩
    · obtain ⟨B, s1, s2, w1, x, w2, n1, m, n2, rfl, rfl, rfl, h1, h2, h3, h4⟩ := ih (by omega)
      exact ⟨B, .nonterminal r.input :: s1, s2, v ++ w1, x, w2, n + n1 + 1, m, n2, rfl, by simp, by omega, h1, .prod hr h h2, h3, h4⟩

/-- On the way to a large word some nonterminal comes twice. -/
theorem pump_aux [DecidableEq N] {I : Finset N} {K : Nat} (hK : 1 ≤ K) (hI : ∀ r, R r → r.input ∈ I) (hO : ∀ r, R r → r.output.length ≤ K) (S : N) :
    ∀ (j : Nat) (seen : Finset N), seen ⊆ I → I.card ≤ seen.card + j → ∀ (A : N) (w : List T) (n : Nat) (u0 z0 : List T) (k0 : Nat),
    Sprouts R [.nonterminal A] w n → K ^ j < w.length → Around R S A u0 z0 k0 →
    (∀ B ∈ seen, ∃ u v y z k l, Around R S B u z k ∧ Around R B A v y l ∧ 1 ≤ l ∧ u0 = u ++ v ∧ z0 = y ++ z ∧ k0 = k + l) →
    ∃ B u v x y z k l m, Around R S B u z k ∧ Around R B B v y l ∧ 1 ≤ l ∧ Sprouts R [.nonterminal B] x m ∧
      u0 ++ w ++ z0 = u ++ v ++ x ++ y ++ z ∧ k0 + n = k + l + m := by
  intro j
  induction j with
  | zero =>
    intro seen hs hc A w n u0 z0 k0 hw hl h0 hseen
    have hA : A ∈ seen := by
      rw [Finset.eq_of_subset_of_card_le hs hc]
      cases hw with
      | prod hr _ _ => exact hI _ hr
    obtain ⟨u, v, y, z, k, l, h1, h2, h3, rfl, rfl, rfl⟩ := hseen A hA
    exact ⟨A, u, v, w, y, z, k, l, n, h1, h2, h3, hw, by simp, rfl⟩
  | succ j ih =>
    intro seen hs hc A w n u0 z0 k0 hw hl h0 hseen
    by_cases hA : A ∈ seen
    · obtain ⟨u, v, y, z, k, l, h1, h2, h3, rfl, rfl, rfl⟩ := hseen A hA
      exact ⟨A, u, v, w, y, z, k, l, n, h1, h2, h3, hw, by simp, rfl⟩
    · cases hw with
      | @prod r _ v w' n m hr h h' =>
        cases h' 
        rw [List.append_nil] at hl
        have hlen : r.output.length * K ^ j < v.length := by
          have h1 : r.output.length * K ^ j ≤ K * K ^ j := Nat.mul_le_mul_right _ (hO r hr)
          rw [Nat.pow_succ, Nat.mul_comm] at hl
          omega
        obtain ⟨B, s1, s2, w1, x, w2, n1, m, n2, e, rfl, rfl, h1, h2, h3, h4⟩ := big_child (Nat.one_le_pow _ _ hK) h hlen
        have hc1 : Around R r.input B w1 w2 (n1 + n2 + 1) := by
          intro x' m' hx'
          have h5 : Sprouts R r.output (w1 ++ x' ++ w2) (n1 + m' + n2) := by
            have := (h2.append hx').append h4
            rw [e]
            simpa using this
          have := Sprouts.prod hr h5 .nil
          rw [show n1 + n2 + 1 + m' = n1 + m' + n2 + 0 + 1 by omega]
          simpa using this
        obtain ⟨B', u, v, x', y, z, k, l, m', g1, g2, g3, g4, g5, g6⟩ := ih (insert r.input seen)
          (by
            intro a ha
            rcases Finset.mem_insert.1 ha with rfl | ha
            · exact hI _ hr
            · exact hs ha)
          (by rw [Finset.card_insert_of_notMem hA]; omega) B x m (u0 ++ w1) (w2 ++ z0) (k0 + (n1 + n2 + 1)) h3 h1 (h0.trans hc1)
          (by
            intro a ha
            rcases Finset.mem_insert.1 ha with rfl | ha
            · exact ⟨u0, w1, w2, z0, k0, n1 + n2 + 1, h0, hc1, by omega, rfl, rfl, rfl⟩
            · obtain ⟨u, v, y, z, k, l, f1, f2, f3, rfl, rfl, rfl⟩ := hseen a ha
              exact ⟨u, v ++ w1, w2 ++ y, z, k, l + (n1 + n2 + 1), f1, f2.trans hc1, by omega, by simp, by simp, by omega⟩)
        refine ⟨B', u, v, x', y, z, k, l, m', g1, g2, g3, g4, ?_, by omega⟩
        rw [← g5]
        simp

end

/-- Long words of a context-free language have parts that may be doubled. -/
theorem pumping {T : Type} {K : Language T} (hK : K.IsContextFree) : ∃ p, ∀ w ∈ K, p < w.length →
    ∃ u v x y z, w = u ++ v ++ x ++ y ++ z ∧ (v ≠ [] ∨ y ≠ []) ∧ u ++ (v ++ v) ++ x ++ (y ++ y) ++ z ∈ K := by
  classical
  obtain ⟨G, rfl⟩ := hK
  have hI : ∀ r, r ∈ G.rules → r.input ∈ G.rules.image ContextFreeRule.input := fun r hr => Finset.mem_image_of_mem _ hr
  have hO : ∀ r, r ∈ G.rules → r.output.length ≤ G.rules.sup (fun r => r.output.length) + 1 := fun r hr =>
    Nat.le_succ_of_le (Finset.le_sup (f := fun r : ContextFreeRule T G.NT => r.output.length) hr)
  refine ⟨(G.rules.sup (fun r => r.output.length) + 1) ^ (G.rules.image ContextFreeRule.input).card, fun w hw hl => ?_⟩
  have hex := (derives_becomes hw).sprouts
  have hn := Nat.find_spec hex
  obtain ⟨B, u, v, x, y, z, k, l, m, h1, h2, h3, h4, h5, h6⟩ := pump_aux (R := (· ∈ G.rules)) (Nat.succ_le_succ (Nat.zero_le _)) hI hO G.initial
    _ ∅ (Finset.empty_subset _) (by simp) G.initial w _ [] [] 0 hn hl (fun x m h => by simpa using h) (by simp)
  simp only [List.nil_append, List.append_nil] at h5
  refine ⟨u, v, x, y, z, h5, ?_, ?_⟩
  · by_contra hne
    simp only [not_or, not_not] at hne
    obtain ⟨rfl, rfl⟩ := hne
    have := h1 x m h4
    simp only [List.append_nil] at h5
    rw [← h5] at this
    exact Nat.find_min hex (by omega) this
  · have := h1 _ _ (h2 _ _ (h2 x m h4))
    apply becomes_derives
    simpa using this.becomes

end Verif.Spec
