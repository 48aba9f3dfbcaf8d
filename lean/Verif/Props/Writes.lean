import Verif.Proofs.Peak
import Verif.Proofs.Trace
import Verif.Props.DataSize
import Verif.Props.Leftover
import Verif.Spec.Writes
/-
C103: the vector while a text is parsed: what it holds, and how long it gets.
-/
namespace Verif.Props
open Spec

variable {L : Lexer} {syn : Syntax} {text : Str} {toks : List Tok} {ind : Indent}

/-! ### What it holds -/

/-- C103: a parse that returns has such a list. -/
theorem C103_exists (hr : syn.rules ≠ []) {o : POut} (h : Parses L syn text toks ind o) (hp : o ≠ .panic) :
    ∃ w, Pushed L syn text toks ind w := by
  obtain ⟨ho, n, h⟩ := h
  cases hl : syn.rules.getLast? with
  | none => exact absurd (List.getLast?_eq_none_iff.1 hl) hr
  | some r =>
    simp only [parseWithIndent, hl] at h
    cases he : eval L syn.rules n r ⟨toks, ind⟩ toks.length (Pos.new text 0) with
    | ret res st => exact ⟨_, n, ⟨r, ⟨toks, ind⟩, toks.length, Pos.new text 0⟩, res, st, by rw [firstCall, hl]; rfl, he, rfl⟩
    | timeout => rw [he] at h; exact absurd h.symm ho
    | panic => rw [he] at h; exact absurd h.symm hp

/-- C103: the vector holds what it held before and, behind it, what stands recorded according to `Recs`. -/
theorem C103_recorded {w : List (List Tok)} (h : Pushed L syn text toks ind w) :
    ∃ r a, syn.rules.getLast? = some r ∧ Recs (envOf L syn.rules ind) (.rule r) ⟨text, 0⟩ ind.indent a ∧
      w = a.map (toks ++ ·) := by
  obtain ⟨n, c, res, st, hc, ho, rfl⟩ := h
  simp only [firstCall, Option.map_eq_some_iff] at hc
  obtain ⟨r, hr, rfl⟩ := hc
  have hw := eval_wrote (envOf L syn.rules ind) n r ind.indent toks toks.length ⟨text, 0⟩ (Nat.le_refl _)
  change DidPush _ _ _ _ _ _ (writes L syn.rules n _) (eval L syn.rules n r ⟨toks, ind⟩ toks.length (Pos.new text 0)) at hw
  rw [show eval L syn.rules n r ⟨toks, ind⟩ toks.length (Pos.new text 0) = .ret res st from ho] at hw
  obtain ⟨a, ha, hv⟩ := hw
  rw [List.take_length] at hv
  exact ⟨r, a, hr, ha, hv⟩

/-- C103: there is one such list only. -/
theorem C103_unique {w w' : List (List Tok)} (h : Pushed L syn text toks ind w) (h' : Pushed L syn text toks ind w') :
    w = w' := by
  obtain ⟨r, a, hr, ha, rfl⟩ := C103_recorded h
  obtain ⟨r', a', hr', ha', rfl⟩ := C103_recorded h'
  rw [hr] at hr'
  cases hr'
  rw [ha.det ha']

/-- C103: what was there before stays as it is, all the time. -/
theorem C103_prefix {w : List (List Tok)} (h : Pushed L syn text toks ind w) {v : List Tok} (hv : v ∈ w) :
    ∃ u, v = toks ++ u := by
  obtain ⟨r, a, -, -, rfl⟩ := C103_recorded h
  obtain ⟨u, -, rfl⟩ := List.mem_map.1 hv
  exact ⟨u, rfl⟩

/-- C103: and it gets there one item after the other: each vector is the one before, cut off or not, and one item more. -/
theorem C103_one_by_one {w : List (List Tok)} (h : Pushed L syn text toks ind w) : OneByOne toks w := by
  obtain ⟨n, c, res, st, hc, ho, rfl⟩ := h
  simp only [firstCall, Option.map_eq_some_iff] at hc
  obtain ⟨r, hr, rfl⟩ := hc
  exact (writes_oneByOne n _ ho).1

/-- C103: the same for any call of any rule, with the vector that it leaves. -/
theorem C103_call {refs : List Rule} {n : Nat} {c : Call} {res : Res} {st : St} (h : c.run (eval L refs n) = .ret res st) :
    OneByOne c.st.toks (writes L refs n c) ∧ (writes L refs n c).getLast?.getD c.st.toks = st.toks :=
  writes_oneByOne n c h

/-- C103: nothing else is written: a rejected text leaves the last vector, an accepted one leaves the beginning of it. -/
theorem C103_last {w : List (List Tok)} (h : Pushed L syn text toks ind w) :
    (∀ e t, Parses L syn text toks ind (.err e t) → t = w.getLast?.getD toks) ∧
      ∀ t, Parses L syn text toks ind (.ok t) → t <+: w.getLast?.getD toks := by
  obtain ⟨r, a, hr, ha, rfl⟩ := C103_recorded h
  have hlast : (a.map (toks ++ ·)).getLast?.getD toks = toks ++ a.getLast?.getD [] := by
    rcases List.eq_nil_or_concat a with rfl | ⟨a, v, rfl⟩ <;> simp
  rw [hlast]
  refine ⟨fun e t ht => ?_, ?_⟩
  · rcases C81_exact ht with ⟨h0, -⟩ | ⟨r', hr', -, ht'⟩
    · rw [h0] at hr; cases hr
    · rw [hr] at hr'
      cases hr'
      exact ht' a ha
  · rintro t ⟨-, n, ht⟩
    have hl := eval_left (envOf L syn.rules ind) n r ind.indent toks toks.length ⟨text, 0⟩ (Nat.le_refl _)
    change Left _ _ _ _ _ _ (eval L syn.rules n r ⟨toks, ind⟩ toks.length (Pos.new text 0)) at hl
    simp only [parseWithIndent, hr] at ht
    cases he : eval L syn.rules n r ⟨toks, ind⟩ toks.length (Pos.new text 0) with
    | ret res st =>
      rw [he] at ht hl
      obtain ⟨b, hb, hv⟩ := hl
      cases ha.det hb
      have key : lastVec toks toks.length a = toks ++ a.getLast?.getD [] := by
        rcases List.eq_nil_or_concat a with rfl | ⟨a, v, rfl⟩
        · simp
        · rw [List.concat_eq_append, lastVec_concat]; simp
      cases res with
      | err e => cases ht
      | ok rg s oe =>
        simp only at ht
        split at ht
        · cases ht
        · cases ht
          rw [← key, ← hv]
          exact List.take_prefix _ _
    | timeout => rw [he] at ht; cases ht
    | panic => rw [he] at ht; cases ht

/-- At most two items for each call. -/
theorem writes_length (refs : List Rule) : ∀ (n : Nat) (c : Call), (writes L refs n c).length ≤ 2 * callCount L refs n c
  | 0, c => by simp [writes]
  | n + 1, c => by
    have h1 : (startWrite c).length ≤ 1 := by unfold startWrite; split <;> simp
    have h2 : ∀ out, (endWrite c out).length ≤ 1 := by intro out; unfold endWrite; split <;> simp
    have h3 : ∀ l : List Call, (l.flatMap (writes L refs n)).length ≤ 2 * (l.map (callCount L refs n)).sum := by
      intro l
      induction l with
      | nil => simp
      | cons a l ih =>
        have := writes_length refs n a
        simp only [List.flatMap_cons, List.length_append, List.map_cons, List.sum_cons]
        omega
    have h4 := h2 (c.run (eval L refs (n + 1)))
    have h5 := h3 (subcalls L refs (eval L refs n) n c)
    simp only [writes, callCount, List.length_append]
    omega

/-- C103: at most two items are pushed for each call of `Rule::parse`. -/
theorem C103_count {w : List (List Tok)} {m d : Nat} (h : Pushed L syn text toks ind w) (hc : Costs L syn text toks ind m d) :
    w.length ≤ 2 * m := by
  obtain ⟨n, c, res, st, h1, h2, rfl⟩ := h
  have : Costs L syn text toks ind (callCount L syn.rules n c) (callDepth L syn.rules n c) :=
    ⟨n, c, h1, by rw [h2]; simp, rfl, rfl⟩
  rw [(C70_cost_unique hc this).1]
  exact writes_length _ _ _

/-! ### How long it gets -/

theorem sizeBound_top (s t : Nat) : (sizeBound s).top t s ≤ (s + 3) ^ (s + 3) * (2 * t + 1) := by
  have hD : (sizeBound s).D * (s + 1) ≤ (s + 3) ^ (s + 3) := by
    show ((s + 1) * (s + 3) ^ (s + 1) + 3 * (s + 3) ^ (s + 1) + 2) * (s + 1) ≤ _
    have h1 : 3 ≤ (s + 3) ^ (s + 1) := Nat.le_trans (by omega) (Nat.le_self_pow (by omega) _)
    have h0 : (s + 3) ^ (s + 3) = (s + 3) ^ (s + 1) * (s + 1 + 2) ^ 2 := by rw [← Nat.pow_add (s + 1 + 2)]
    rw [h0]
    generalize (s + 3) ^ (s + 1) = z at *
    have h2 : z * (s + 1 + 2) ^ 2 = z * s * s + 6 * (z * s) + 9 * z := by
      have h5 : (s + 1 + 2) ^ 2 = s * s + 6 * s + 9 := by
        rw [Nat.pow_two, Nat.add_assoc, Nat.mul_add, Nat.add_mul]
        omega
      rw [h5, Nat.mul_add, Nat.mul_add, Nat.mul_assoc, Nat.mul_left_comm z 6 s, Nat.mul_comm z 9]
    have h3 : ((s + 1) * z + 3 * z + 2) * (s + 1) = z * s * s + 4 * (z * s) + 2 * s + (z * s + 4 * z + 2) := by
      have h6 : (s + 1) * z + 3 * z = z * s + 4 * z := by rw [Nat.add_mul, Nat.mul_comm s z]; omega
      rw [h6, Nat.mul_add, Nat.add_mul (z * s + 4 * z), Nat.add_mul (z * s), Nat.mul_assoc 4 z s]
      omega
    have h4 : 3 * s ≤ z * s := Nat.mul_le_mul_right _ h1
    omega
  have hK := Nat.mul_le_mul_right t (sizeBound_K s)
  have hD' := Nat.mul_le_mul_right (t + 1) hD
  have h1 : (s + 1) * t + s + 1 = (s + 1) * (t + 1) := by rw [Nat.mul_add]; omega
  simp only [SizeBound.top]
  rw [h1, ← Nat.mul_assoc]
  have h2 : (s + 3) ^ (s + 3) * (2 * t + 1) = (s + 3) ^ (s + 3) * t + (s + 3) ^ (s + 3) * (t + 1) := by
    rw [← Nat.mul_add]
    congr 1
    omega
  omega

/-- C103: with a well-formed syntax the vector never gets longer than linear in the text, whether the text is accepted or not and
whatever is tried on the way. -/
theorem C103_peak (hL : L.Lawful) (hw : WellFormed (envOf L syn.rules ind)) {w : List (List Tok)}
    (h : Pushed L syn text toks ind w) {v : List Tok} (hv : v ∈ w) :
    v.length ≤ toks.length + (rulesSize syn.rules + 3) ^ (rulesSize syn.rules + 3) * (2 * text.length + 1) := by
  obtain ⟨r, a, hr, ha, rfl⟩ := C103_recorded h
  obtain ⟨u, hu, rfl⟩ := List.mem_map.1 hv
  have hH : ∀ r, Part (envOf L syn.rules ind).refs r → Ht (Calls (envOf L syn.rules ind)) (rulesSize syn.rules) r :=
    fun r hr => partsL_length syn.rules ▸ wellFormed_ht hw hr
  have hp : Part (envOf L syn.rules ind).refs r := ⟨r, List.mem_of_getLast? hr, .refl⟩
  have h1 := recs_held (sizeBound (rulesSize syn.rules)) hL hH (fun r hr => width_le hr) hw.loops ha u hu hp _ (Nat.le_refl _) (hH r hp)
  have h2 := sizeBound_top (rulesSize syn.rules) text.length
  rw [List.length_append]
  exact Nat.add_le_add_left (Nat.le_trans h1 h2) _

/-! ### More than there is in the end -/

/-- `{[.r?("a":"x") "!"] .r?("a")}` -/
def inVain : Syntax := ⟨[.select [.sequence [.repeat_ (.tag c!"a" false false (some c!"x") 0) true 0, .tag c!"!" false false none 0] 0,
  .repeat_ (.tag c!"a" false false none 0) true 0] 0], []⟩

theorem inVain_rep {E : Env} {i : Nat} (prop : Option Str) : ∀ (n : Nat) (p : Pos), p.src = List.replicate n 'a' →
    ∃ ts tr a, Run E (.rep (.tag c!"a" false false prop 0)) p i (some (n, ts)) i tr ∧
      Recs E (.rep (.tag c!"a" false false prop 0)) p i a ∧
      (prop = none → ts = [] ∧ a = []) ∧ ∀ x, prop = some x → ts.length = n ∧ a.map List.length = List.range' 1 n
  | 0, p, hp => by
    have hf : Run E (.rule (.tag c!"a" false false prop 0)) p i none i _ := .tag_fail (by rw [hp]; decide)
    exact ⟨[], _, [], .rep_stop hf, .rep_stop hf (.leaf_fail trivial hf), fun _ => ⟨rfl, rfl⟩, fun _ _ => ⟨rfl, rfl⟩⟩
  | n + 1, p, hp => by
    obtain ⟨ts, tr, a, h1, h2, h3, h4⟩ := inVain_rep prop n (adv p 1) (by simp [adv, hp, List.replicate_succ])
    have ht : Run E (.rule (.tag c!"a" false false prop 0)) p i (some (1, named prop p.off 1 fun x => .bool x true)) i [] :=
      .tag_ok (t := c!"a") (by rw [hp, List.replicate_succ]; exact ⟨_, rfl⟩)
    refine ⟨_, _, _, by rw [Nat.add_comm]; exact .rep_more ht h1, .rep_more ht (.leaf_ok trivial ht) h2, ?_, ?_⟩
    · rintro rfl
      obtain ⟨rfl, rfl⟩ := h3 rfl
      exact ⟨rfl, rfl⟩
    · rintro x rfl
      obtain ⟨h5, h6⟩ := h4 x rfl
      refine ⟨by simp [named, h5], ?_⟩
      simp only [named, List.map_append, List.map_cons, List.map_nil, List.length_singleton, behind, List.map_map]
      rw [List.range'_succ]
      simp only [List.singleton_append, List.cons.injEq, true_and]
      rw [show (List.length ∘ fun u => (⟨⟨p.off, 1⟩, .bool x true⟩ : Tok) :: u) = (1 + ·) ∘ List.length by
        funext l; simp; omega, ← List.map_map, h6, List.map_add_range']

/-- C103: the vector may get as long as the text while the text is accepted and gives no data at all. -/
theorem C103_in_vain (hL : L.Lawful) (n : Nat) (toks : List Tok) (ind : Indent) :
    Parses L inVain (List.replicate n 'a') toks ind (.ok toks) ∧
      ∃ w, Pushed L inVain (List.replicate n 'a') toks ind w ∧ w.map List.length = List.range' (toks.length + 1) n := by
  obtain ⟨ts, tr, a, h1, h2, -, h4⟩ := inVain_rep (E := envOf L inVain.rules ind) (i := ind.indent) (some c!"x") n
    ⟨List.replicate n 'a', 0⟩ rfl
  obtain ⟨us, tr', b, g1, g2, g3, -⟩ := inVain_rep (E := envOf L inVain.rules ind) (i := ind.indent) none n
    ⟨List.replicate n 'a', 0⟩ rfl
  obtain ⟨rfl, rfl⟩ := g3 rfl
  obtain ⟨h5, h6⟩ := h4 _ rfl
  have hx : Run (envOf L inVain.rules ind) (.rule (.tag c!"!" false false none 0)) (adv ⟨List.replicate n 'a', 0⟩ n)
      ind.indent none ind.indent _ := .tag_fail (by simp [adv])
  have hs : Run (envOf L inVain.rules ind)
      (.rule (.sequence [.repeat_ (.tag c!"a" false false (some c!"x") 0) true 0, .tag c!"!" false false none 0] 0))
      ⟨List.replicate n 'a', 0⟩ ind.indent none ind.indent _ := .sequence (.seq_cons (.repeat_opt h1) (.seq_fail hx))
  have hp : Parses L inVain (List.replicate n 'a') toks ind (.ok toks) := by
    have : Accepts L inVain (List.replicate n 'a') ind [] :=
      ⟨_, ind.indent, _, rfl, .select (.sel_next hs (.sel_here (by rw [List.length_replicate]; exact .repeat_opt g1)))⟩
    simpa using (C04_ok_iff_meaning hL).2 ⟨_, this, rfl⟩
  refine ⟨hp, ?_⟩
  obtain ⟨w, hw⟩ := C103_exists (by simp [inVain]) hp (by simp)
  refine ⟨w, hw, ?_⟩
  obtain ⟨r, c, hr, hc, rfl⟩ := C103_recorded hw
  have hr' : r = inVain.rules.head! := by
    have : inVain.rules.getLast? = some inVain.rules.head! := rfl
    rw [this] at hr
    exact (Option.some.inj hr).symm
  subst hr'
  have hrec : Recs (envOf L inVain.rules ind) (.rule inVain.rules.head!) ⟨List.replicate n 'a', 0⟩ ind.indent a := by
    have := Recs.select (id := 0) (Recs.sel_next hs (.sequence (.seq_cons (.repeat_opt h1) (.rep h2) (.seq_fail hx (.leaf_fail trivial hx))))
      (Recs.sel_here (rs := []) (.repeat_opt (id := 0) g1) (.rep g2)))
    simp only [behind, List.map_nil, List.append_nil] at this
    exact this
  rw [hc.det hrec, List.map_map,
    show (List.length ∘ fun x => toks ++ x) = (toks.length + ·) ∘ List.length by funext l; simp, ← List.map_map, h6,
    List.map_add_range']

/-- Three letters: the vector gets three items longer, and is then as before. -/
example : ∃ w, Pushed stdLexer inVain c!"aaa" [exTok] Indent.default w ∧ w.map List.length = [2, 3, 4] :=
  (C103_in_vain stdLexer_lawful 3 [exTok] Indent.default).2

end Verif.Props
