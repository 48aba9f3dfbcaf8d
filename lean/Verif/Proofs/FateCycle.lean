import Verif.Proofs.FatePanic
import Verif.Proofs.FuelBound
import Verif.Proofs.Origin
/-
Endless chains of tries, and that with a lawful lexer they lead back to a site tried before.
-/
namespace Verif
open Spec

/-! ### The three fates exclude each other -/

theorem ends_tries {E : Env} {x y : Site} (h : x.Ends E) (hy : Tries E x y) : y.Ends E := by
  obtain ⟨_, _, _, h⟩ := h
  exact run_tries h hy

theorem ends_reaches {E : Env} {x y : Site} (h : Reaches E x y) (hx : x.Ends E) : y.Ends E := by
  induction h with
  | here => exact hx
  | step h _ ih => exact ih (ends_tries hx h)

theorem doomed_not_ends {E : Env} {x : Site} (h : Doomed E x) : ¬ x.Ends E := by
  induction h with
  | crash h => rintro ⟨_, _, _, h'⟩; exact run_not_crash h' h
  | step h _ ih => exact fun hx => ih (ends_tries hx h)

theorem ends_acc {E : Env} {x : Site} (h : x.Ends E) : Acc (fun y x => Tries E x y) x := by
  obtain ⟨_, _, _, h⟩ := h
  exact run_acc h

/-- An endless chain of tries from the site. -/
def Endless (E : Env) (x : Site) : Prop := ∃ f : Nat → Site, f 0 = x ∧ ∀ n, Tries E (f n) (f (n + 1))

theorem endless_not_acc {E : Env} {x : Site} (h : Endless E x) : ¬ Acc (fun y x => Tries E x y) x := by
  intro ha
  induction ha with
  | intro x _ ih =>
    obtain ⟨f, rfl, hf⟩ := h
    exact ih (f 1) (hf 0) ⟨fun n => f (n + 1), rfl, fun n => hf (n + 1)⟩

theorem endless_not_ends {E : Env} {x : Site} (h : Endless E x) : ¬ x.Ends E :=
  fun hx => endless_not_acc h (ends_acc hx)

theorem doomed_not_endless {E : Env} {x : Site} (h : Doomed E x) : ¬ Endless E x := by
  induction h with
  | crash h => rintro ⟨f, rfl, hf⟩; exact crash_tries h (hf 0)
  | step h h' ih =>
    rintro ⟨f, rfl, hf⟩
    have hc : Endless E (f 1) := ⟨fun n => f (n + 1), rfl, fun n => hf (n + 1)⟩
    have := tries_unique h (hf 0) (doomed_not_ends h') (endless_not_ends hc)
    subst this
    exact ih hc

theorem not_acc_endless {E : Env} {x : Site} (h : ¬ Acc (fun y x => Tries E x y) x) : Endless E x := by
  classical
  have hstep : ∀ y : { y // ¬ Acc (fun y x => Tries E x y) y },
      ∃ z : { z // ¬ Acc (fun y x => Tries E x y) z }, Tries E y.1 z.1 := by
    rintro ⟨y, hy⟩
    refine Classical.byContradiction fun hn => hy (.intro y fun z hz => ?_)
    exact Classical.byContradiction fun hz' => hn ⟨⟨z, hz'⟩, hz⟩
  let next := fun y => Classical.choose (hstep y)
  let f : Nat → { y // ¬ Acc (fun y x => Tries E x y) y } := fun n => Nat.rec ⟨x, h⟩ (fun _ y => next y) n
  exact ⟨fun n => (f n).1, rfl, fun n => Classical.choose_spec (hstep (f n))⟩

/-- A site has an outcome, or panics, or starts an endless chain. -/
theorem fates (E : Env) (x : Site) : x.Ends E ∨ Doomed E x ∨ Endless E x := by
  by_cases hd : Doomed E x
  · exact .inr (.inl hd)
  · by_cases ha : Acc (fun y x => Tries E x y) x
    · exact .inl (acc_ends ha hd)
    · exact .inr (.inr (not_acc_endless ha))

/-! ### Only finitely many sites are tried -/

theorem Spec.Reaches.trans {E : Env} {x y z : Site} (h : Reaches E x y) (h' : Reaches E y z) : Reaches E x z := by
  induction h with
  | here => exact h'
  | step h _ ih => exact .step h (ih h')

theorem transGen_tries {E : Env} {x y : Site} (h : Relation.TransGen (fun y x => Tries E x y) y x) :
    ∃ z, Tries E x z ∧ Reaches E z y := by
  induction h with
  | single h => exact ⟨_, h, .here⟩
  | tail _ h ih =>
    obtain ⟨z, h1, h2⟩ := ih
    exact ⟨_, h, .step h1 h2⟩

/-- A chain that comes back is endless. -/
theorem endless_of_cycle {E : Env} {x y : Site} (h : Tries E x y) (h' : Reaches E y x) : Endless E x := by
  refine not_acc_endless fun ha => ?_
  have : ∀ x, Acc (fun y x => Tries E x y) x → ∀ y, Tries E x y → ¬ Reaches E y x := by
    intro x ha
    induction ha with
    | intro x _ ih =>
      intro y h h'
      cases h' with
      | here => exact ih x h x h .here
      | step h1 h2 => exact ih y h _ h1 (h2.trans (.step h .here))
  exact this x ha y h h'

theorem endless_reaches {E : Env} {x y : Site} (h : Reaches E x y) (hy : Endless E y) : Endless E x := by
  induction h with
  | here => exact hy
  | step h _ ih =>
    obtain ⟨f, hf0, hf⟩ := ih hy
    refine ⟨fun n => match n with | 0 => _ | n + 1 => f n, rfl, fun n => ?_⟩
    cases n with
    | zero => simp only; rw [hf0]; exact h
    | succ n => exact hf n

/-- Parts of the text. -/
def pieces (text : Str) : List Str :=
  (List.range (text.length + 1)).flatMap fun a =>
    (List.range (text.length + 1)).map fun b => (text.drop a).take b

theorem mem_pieces {text : Str} {a b : Nat} (ha : a ≤ text.length) : (text.drop a).take b ∈ pieces text := by
  unfold pieces
  rw [List.mem_flatMap]
  refine ⟨a, by simp; omega, ?_⟩
  rw [List.mem_map]
  refine ⟨min b (text.drop a).length, by simp; omega, ?_⟩
  rw [List.take_eq_take_iff]
  omega

/-- The goals that belong to a rule. -/
def goalsOf (items : List Str) (r : Rule) : List Goal :=
  .rule r :: match r with
    | .select rs _ => (List.range (rs.length + 1)).map fun k => .sel (rs.drop k)
    | .sequence rs _ => (List.range (rs.length + 1)).map fun k => .seq (rs.drop k)
    | .repeat_ r _ _ => [.rep r]
    | .separateBy r b _ t _ => [.sepTail r b t]
    | .lines r ind id => .line r ind true :: .line r ind false ::
        (items.map (.lines r ind id true) ++ items.map (.lines r ind id false))
    | _ => []

/-- The sites that can be tried. -/
structure Triable (E : Env) (text : Str) (B : Nat) (x : Site) : Prop where
  goal : ∃ r, Part E.refs r ∧ x.g ∈ goalsOf (pieces text) r
  pos : ∃ a, a ≤ text.length ∧ x.p = ⟨text.drop a, a⟩
  ind : x.i ≤ B

/-- All sites with these goals, at the positions of the text, with these indentations. -/
def sitesOf (gs : List Goal) (text : Str) (is : List Nat) : List Site :=
  gs.flatMap fun g => (List.range (text.length + 1)).flatMap fun a => is.map fun i => ⟨g, ⟨text.drop a, a⟩, i⟩

/-- The goals of a syntax. -/
def goalsIn (refs : List Rule) (text : Str) : List Goal := (Rule.partsL refs).flatMap (goalsOf (pieces text))

theorem triable_mem {E : Env} {text : Str} {B : Nat} {x : Site} (h : Triable E text B x) {is : List Nat} (hi : x.i ∈ is) :
    x ∈ sitesOf (goalsIn E.refs text) text is := by
  obtain ⟨g, p, i⟩ := x
  obtain ⟨⟨r, ⟨q, hq, hr⟩, hg⟩, ⟨a, ha, hp⟩, -⟩ := h
  simp only at hg hp hi
  subst hp
  unfold sitesOf
  rw [List.mem_flatMap]
  refine ⟨g, List.mem_flatMap.2 ⟨r, mem_partsL hq (mem_parts hr), hg⟩, ?_⟩
  rw [List.mem_flatMap]
  refine ⟨a, by simp; omega, ?_⟩
  rw [List.mem_map]
  exact ⟨i, hi, rfl⟩

/-- The indentation after a run. -/
theorem run_indent {E : Env} {g p i o j tr} (h : Run E g p i o j tr) : j ≤ max i (2 ^ 32) := by
  induction h <;> omega

theorem triable_adv {E : Env} {text : Str} {B : Nat} {g g' : Goal} {p : Pos} {i i' n : Nat}
    (h : Triable E text B ⟨g, p, i⟩) (hn : n ≤ p.src.length) (hi : i' ≤ max i (2 ^ 32)) (hB : 2 ^ 32 ≤ B)
    (hg : ∃ r, Part E.refs r ∧ g' ∈ goalsOf (pieces text) r) : Triable E text B ⟨g', adv p n, i'⟩ := by
  obtain ⟨a, ha, hp⟩ := h.pos
  have h3 := h.ind
  simp only at hp h3
  subst hp
  refine ⟨hg, ⟨a + n, ?_, ?_⟩, ?_⟩
  · simp at hn; omega
  · simp [adv, Nat.add_comm]
  · simp only; omega

theorem triable_same {E : Env} {text : Str} {B : Nat} {g g' : Goal} {p : Pos} {i i' : Nat}
    (h : Triable E text B ⟨g, p, i⟩) (hi : i' ≤ max i (2 ^ 32)) (hB : 2 ^ 32 ≤ B)
    (hg : ∃ r, Part E.refs r ∧ g' ∈ goalsOf (pieces text) r) : Triable E text B ⟨g', p, i'⟩ := by
  have := triable_adv (n := 0) h (Nat.zero_le _) hi hB hg
  simpa [adv] using this

/-- The goal belongs to a part of the syntax. -/
abbrev GoalIn (E : Env) (items : List Str) (g : Goal) : Prop := ∃ r, Part E.refs r ∧ g ∈ goalsOf items r

theorem goalIn_rule {E : Env} {items : List Str} {r : Rule} : GoalIn E items (.rule r) ↔ Part E.refs r := by
  constructor
  · rintro ⟨r', h, hg⟩
    cases r' <;> simp [goalsOf] at hg <;> subst hg <;> exact h
  · exact fun h => ⟨r, h, by simp [goalsOf]⟩

theorem goalIn_sel {E : Env} {items : List Str} {rs : List Rule} :
    GoalIn E items (.sel rs) ↔ ∃ args id k, Part E.refs (.select args id) ∧ k ≤ args.length ∧ rs = args.drop k := by
  constructor
  · rintro ⟨r', h, hg⟩
    cases r' <;> simp [goalsOf] at hg
    obtain ⟨k, hk, rfl⟩ := hg
    exact ⟨_, _, k, h, by omega, rfl⟩
  · rintro ⟨args, id, k, h, hk, rfl⟩
    exact ⟨_, h, by simp [goalsOf]; exact ⟨k, by omega, rfl⟩⟩

theorem goalIn_seq {E : Env} {items : List Str} {rs : List Rule} :
    GoalIn E items (.seq rs) ↔ ∃ args id k, Part E.refs (.sequence args id) ∧ k ≤ args.length ∧ rs = args.drop k := by
  constructor
  · rintro ⟨r', h, hg⟩
    cases r' <;> simp [goalsOf] at hg
    obtain ⟨k, hk, rfl⟩ := hg
    exact ⟨_, _, k, h, by omega, rfl⟩
  · rintro ⟨args, id, k, h, hk, rfl⟩
    exact ⟨_, h, by simp [goalsOf]; exact ⟨k, by omega, rfl⟩⟩

theorem goalIn_rep {E : Env} {items : List Str} {r : Rule} :
    GoalIn E items (.rep r) ↔ ∃ opt id, Part E.refs (.repeat_ r opt id) := by
  constructor
  · rintro ⟨r', h, hg⟩
    cases r' <;> simp [goalsOf] at hg
    subst hg
    exact ⟨_, _, h⟩
  · rintro ⟨opt, id, h⟩
    exact ⟨_, h, by simp [goalsOf]⟩

theorem goalIn_tail {E : Env} {items : List Str} {r b : Rule} {t : Bool} :
    GoalIn E items (.sepTail r b t) ↔ ∃ opt id, Part E.refs (.separateBy r b opt t id) := by
  constructor
  · rintro ⟨r', h, hg⟩
    cases r' <;> simp [goalsOf] at hg
    obtain ⟨rfl, rfl, rfl⟩ := hg
    exact ⟨_, _, h⟩
  · rintro ⟨opt, id, h⟩
    exact ⟨_, h, by simp [goalsOf]⟩

theorem goalIn_lines {E : Env} {items : List Str} {r : Rule} {ind : Bool} {id first item} :
    GoalIn E items (.lines r ind id first item) ↔ Part E.refs (.lines r ind id) ∧ item ∈ items := by
  constructor
  · rintro ⟨r', h, hg⟩
    cases r' <;> simp [goalsOf] at hg
    rcases hg with ⟨_, _, rfl, rfl, rfl, _, rfl⟩ | ⟨_, _, rfl, rfl, rfl, _, rfl⟩ <;> exact ⟨h, by assumption⟩
  · rintro ⟨h, hi⟩
    exact ⟨_, h, by cases first <;> simp [goalsOf, hi]⟩

theorem goalIn_line {E : Env} {items : List Str} {r : Rule} {ind first : Bool} :
    GoalIn E items (.line r ind first) ↔ ∃ id, Part E.refs (.lines r ind id) := by
  constructor
  · rintro ⟨r', h, hg⟩
    cases r' <;> simp [goalsOf] at hg
    rcases hg with ⟨rfl, rfl, rfl⟩ | ⟨rfl, rfl, rfl⟩ <;> exact ⟨_, h⟩
  · rintro ⟨id, h⟩
    exact ⟨_, h, by cases first <;> simp [goalsOf]⟩

theorem drop_cons {α : Type} {l as : List α} {a : α} {k : Nat} (h : a :: as = l.drop k) :
    a ∈ l ∧ k + 1 ≤ l.length ∧ as = l.drop (k + 1) := by
  have hk : k < l.length := by
    have := congrArg List.length h
    simp at this
    omega
  rw [List.drop_eq_getElem_cons hk] at h
  obtain ⟨h1, h2⟩ := List.cons.inj h
  refine ⟨?_, hk, h2⟩
  rw [h1]
  exact List.getElem_mem _

theorem triable_tries {E : Env} (hL : E.L.Lawful) {text : Str} {B : Nat} (hB : 2 ^ 32 ≤ B) {x y : Site}
    (h : Triable E text B x) (hy : Tries E x y) : Triable E text B y := by
  have hg : GoalIn E (pieces text) x.g := h.goal
  cases hy with
  | select =>
    rw [goalIn_rule] at hg
    exact triable_same h (by omega) hB (goalIn_sel.2 ⟨_, _, 0, hg, by omega, rfl⟩)
  | sel =>
    obtain ⟨args, id, k, hp, hk, hd⟩ := goalIn_sel.1 hg
    exact triable_same h (by omega) hB (goalIn_rule.2 (part_child hp (.select (drop_cons hd).1)))
  | sel_next hr =>
    obtain ⟨args, id, k, hp, hk, hd⟩ := goalIn_sel.1 hg
    exact triable_same h (run_indent hr) hB (goalIn_sel.2 ⟨_, _, _, hp, (drop_cons hd).2⟩)
  | fast_hit _ _ _ hr =>
    rw [goalIn_rule] at hg
    exact triable_same h (by omega) hB (goalIn_rule.2 (part_child hg (.fast (List.mem_of_getElem? hr))))
  | fast_miss _ _ _ hr =>
    rw [goalIn_rule] at hg
    exact triable_same h (by omega) hB (goalIn_rule.2 (part_child hg (.fast (List.mem_of_getLast? hr))))
  | fast_next _ _ _ _ hr hr' =>
    rw [goalIn_rule] at hg
    exact triable_same h (run_indent hr) hB (goalIn_rule.2 (part_child hg (.fast (List.mem_of_getLast? hr'))))
  | sequence =>
    rw [goalIn_rule] at hg
    exact triable_same h (by omega) hB (goalIn_seq.2 ⟨_, _, 0, hg, by omega, rfl⟩)
  | seq =>
    obtain ⟨args, id, k, hp, hk, hd⟩ := goalIn_seq.1 hg
    exact triable_same h (by omega) hB (goalIn_rule.2 (part_child hp (.sequence (drop_cons hd).1)))
  | seq_next hr =>
    obtain ⟨args, id, k, hp, hk, hd⟩ := goalIn_seq.1 hg
    exact triable_adv h (run_some_le hL hr) (run_indent hr) hB (goalIn_seq.2 ⟨_, _, _, hp, (drop_cons hd).2⟩)
  | repeat_ =>
    rw [goalIn_rule] at hg
    exact triable_same h (by omega) hB (goalIn_rep.2 ⟨_, _, hg⟩)
  | rep =>
    obtain ⟨opt, id, hp⟩ := goalIn_rep.1 hg
    exact triable_same h (by omega) hB (goalIn_rule.2 (part_child hp .repeat_))
  | rep_next hr => exact triable_adv h (run_some_le hL hr) (run_indent hr) hB hg
  | sep =>
    rw [goalIn_rule] at hg
    exact triable_same h (by omega) hB (goalIn_rule.2 (part_child hg .item))
  | sep_next hr =>
    rw [goalIn_rule] at hg
    exact triable_adv h (run_some_le hL hr) (run_indent hr) hB (goalIn_tail.2 ⟨_, _, hg⟩)
  | tail =>
    obtain ⟨opt, id, hp⟩ := goalIn_tail.1 hg
    exact triable_same h (by omega) hB (goalIn_rule.2 (part_child hp .sep))
  | tail_item hr =>
    obtain ⟨opt, id, hp⟩ := goalIn_tail.1 hg
    exact triable_adv h (run_some_le hL hr) (run_indent hr) hB (goalIn_rule.2 (part_child hp .item))
  | tail_next hr hr' =>
    have h1 := run_some_le hL hr
    have h2 := run_some_le hL hr'
    have h3 := run_indent hr
    have h4 := run_indent hr'
    simp [adv] at h2
    exact triable_adv h (by omega) (by omega) hB hg
  | lines =>
    rw [goalIn_rule] at hg
    exact triable_same h (by omega) hB (goalIn_lines.2 ⟨hg, mem_pieces (a := 0) (b := 0) (by omega)⟩)
  | lines_line hn =>
    exact triable_adv h (hL.line_call hn).1 (by omega) hB (goalIn_line.2 ⟨_, (goalIn_lines.1 hg).1⟩)
  | lines_next hn hr =>
    have h1 := (hL.line_call hn).1
    have h2 := run_some_le hL hr
    simp [adv] at h2
    refine triable_adv h (by omega) (run_indent hr) hB (goalIn_lines.2 ⟨(goalIn_lines.1 hg).1, ?_⟩)
    obtain ⟨a, ha, hp⟩ := h.pos
    simp only at hp
    subst hp
    simp at h1
    rw [List.drop_drop]
    exact mem_pieces (by omega)
  | line_plain =>
    obtain ⟨id, hp⟩ := goalIn_line.1 hg
    exact triable_same h (by omega) hB (goalIn_rule.2 (part_child hp .lines))
  | line_body _ hc _ hi =>
    obtain ⟨id, hp⟩ := goalIn_line.1 hg
    exact triable_adv h hc.1 (by omega) hB (goalIn_rule.2 (part_child hp .lines))
  | line_align _ hc hm hi =>
    obtain ⟨id, hp⟩ := goalIn_line.1 hg
    have h1 := hc.1
    have h2 := hm.1
    simp at h2
    exact triable_adv h (by omega) (by omega) hB (goalIn_rule.2 (part_child hp .lines))
  | node hr =>
    exact triable_same h (by omega) hB (goalIn_rule.2 ⟨_, List.mem_of_getElem? hr, .refl⟩)
  | optional =>
    rw [goalIn_rule] at hg
    exact triable_same h (by omega) hB (goalIn_rule.2 (part_child hg .optional))
  | not =>
    rw [goalIn_rule] at hg
    exact triable_same h (by omega) hB (goalIn_rule.2 (part_child hg .not))

theorem triable_reaches {E : Env} (hL : E.L.Lawful) {text : Str} {B : Nat} (hB : 2 ^ 32 ≤ B) {x y : Site}
    (hy : Reaches E x y) (h : Triable E text B x) : Triable E text B y := by
  induction hy with
  | here => exact h
  | step h' _ ih => exact ih (triable_tries hL hB h h')

theorem triable_start {E : Env} {r : Rule} (hr : Part E.refs r) (text : Str) (i : Nat) :
    Triable E text (max i (2 ^ 32)) ⟨.rule r, ⟨text, 0⟩, i⟩ :=
  ⟨goalIn_rule.2 hr, ⟨0, by omega, rfl⟩, by simp only; omega⟩

/-- If nothing comes back, no chain of tries is longer than the number of sites. -/
theorem ht_sites {E : Env} {x : Site} {l : List Site} (hl : ∀ y, Reaches E x y → y ∈ l)
    (hn : ¬ ∃ y z, Reaches E x y ∧ Tries E y z ∧ Reaches E z y) :
    Ht (fun y x => Tries E x y) (l.length - 1) x := by
  classical
  have hx := hl x .here
  refine ht_of_acyclic _ (l.filter fun y => decide (y ≠ x ∧ Reaches E x y)) ?_ _ ?_ ?_
  · have : (l.filter fun y => decide (y ≠ x ∧ Reaches E x y)).length < l.length :=
      List.length_filter_lt_length_iff_exists.2 ⟨x, hx, by simp⟩
    omega
  · intro y hy
    obtain ⟨z, h1, h2⟩ := transGen_tries hy
    have hy : Reaches E x y := .step h1 h2
    rw [List.mem_filter, decide_eq_true_iff]
    refine ⟨hl y hy, ?_, hy⟩
    rintro rfl
    exact hn ⟨y, z, .here, h1, h2⟩
  · intro y hy hc
    obtain ⟨z, h1, h2⟩ := transGen_tries hc
    rw [List.mem_filter, decide_eq_true_iff] at hy
    exact hn ⟨y, z, hy.2.2, h1, h2⟩

theorem ht_acc {α : Type} {R : α → α → Prop} : ∀ {n : Nat} {x : α}, Ht R n x → Acc R x
  | 0, x, h => .intro x fun y hy => absurd hy (h y)
  | _ + 1, x, h => .intro x fun y hy => ht_acc (h y hy)

/-- With a lawful lexer an endless chain comes back to a site tried before. -/
theorem endless_iff_cycle {E : Env} (hL : E.L.Lawful) {r : Rule} (hr : Part E.refs r) (text : Str) (i : Nat) :
    Endless E ⟨.rule r, ⟨text, 0⟩, i⟩ ↔
      ∃ y z, Reaches E ⟨.rule r, ⟨text, 0⟩, i⟩ y ∧ Tries E y z ∧ Reaches E z y := by
  constructor
  · intro h
    refine Classical.byContradiction fun hn => endless_not_acc h (ht_acc (ht_sites
      (l := sitesOf (goalsIn E.refs text) text (List.range (max i (2 ^ 32) + 1))) (fun y hy => ?_) hn))
    have := triable_reaches hL (by omega) hy (triable_start hr text i)
    exact triable_mem this (by have := this.ind; simp only [List.mem_range]; omega)
  · rintro ⟨y, z, h1, h2, h3⟩
    exact endless_reaches h1 (endless_of_cycle h2 h3)

/-! ### Nothing is read on the way back -/

/-- The indentation does not become smaller. -/
theorem run_indent_ge {E : Env} {g p i o j tr} (h : Run E g p i o j tr) : i ≤ j := by
  induction h <;> omega

theorem tries_adv {E : Env} {x y : Site} (h : Tries E x y) : (∃ n, y.p = adv x.p n) ∧ x.i ≤ y.i := by
  have h0 : ∀ p : Pos, p = adv p 0 := fun p => by simp [adv]
  cases h with
  | sel_next h | fast_next _ _ _ _ h _ => exact ⟨⟨0, h0 _⟩, run_indent_ge h⟩
  | seq_next h | rep_next h | sep_next h | tail_item h => exact ⟨⟨_, rfl⟩, run_indent_ge h⟩
  | tail_next h h' => exact ⟨⟨_, rfl⟩, Nat.le_trans (run_indent_ge h) (run_indent_ge h')⟩
  | lines_line h => exact ⟨⟨_, rfl⟩, Nat.le_refl _⟩
  | lines_next _ h => exact ⟨⟨_, rfl⟩, run_indent_ge h⟩
  | line_body => exact ⟨⟨_, rfl⟩, by simp only; omega⟩
  | line_align => exact ⟨⟨_, rfl⟩, by simp only; omega⟩
  | _ => exact ⟨⟨0, h0 _⟩, Nat.le_refl _⟩

theorem reaches_adv {E : Env} {x y : Site} (h : Reaches E x y) : (∃ n, y.p = adv x.p n) ∧ x.i ≤ y.i := by
  induction h with
  | here => exact ⟨⟨0, by simp [adv]⟩, Nat.le_refl _⟩
  | step h _ ih =>
    obtain ⟨⟨n, h1⟩, h2⟩ := tries_adv h
    obtain ⟨⟨m, h3⟩, h4⟩ := ih
    exact ⟨⟨n + m, by rw [h3, h1, adv_adv]⟩, Nat.le_trans h2 h4⟩

/-- All sites on the way back have the same position and indentation. -/
theorem cycle_stays {E : Env} {x y : Site} (h : Reaches E x y) (h' : Reaches E y x) : y.p = x.p ∧ y.i = x.i := by
  obtain ⟨⟨n, h1⟩, h2⟩ := reaches_adv h
  obtain ⟨⟨m, h3⟩, h4⟩ := reaches_adv h'
  refine ⟨?_, by omega⟩
  rw [h1, adv_adv] at h3
  have := congrArg Pos.off h3
  simp [adv] at this
  have : n = 0 := by omega
  rw [h1, this]
  simp [adv]

/-! ### Without indented lines the indentation stays -/

/-- The goal is made of parts of the syntax, and reads no lines with indentation. -/
def PlainGoal (E : Env) : Goal → Prop
  | .rule r => Part E.refs r
  | .sel rs => ∀ r ∈ rs, Part E.refs r
  | .seq rs => ∀ r ∈ rs, Part E.refs r
  | .rep r => Part E.refs r
  | .sepTail r b _ => Part E.refs r ∧ Part E.refs b
  | .lines r ind _ _ _ => Part E.refs r ∧ ind = false
  | .line r ind _ => Part E.refs r ∧ ind = false

theorem part_lines {refs : List Rule} (hn : NoIndent refs) {r ind id} (h : Part refs (.lines r ind id)) :
    ind = false := by
  obtain ⟨q, hq, ho⟩ := h
  cases ind with
  | false => rfl
  | true => exact absurd ho (hn q hq r id)

theorem run_plain {E : Env} (hn : NoIndent E.refs) {g p i o j tr} (h : Run E g p i o j tr) :
    PlainGoal E g → j = i := by
  induction h <;> intro hp <;> simp only [PlainGoal] at * <;> try rfl
  all_goals grind [part_child, Child, part_ref, part_lines]

theorem tries_plain {E : Env} (hn : NoIndent E.refs) {x y : Site} (h : Tries E x y) (hp : PlainGoal E x.g) :
    PlainGoal E y.g ∧ y.i = x.i := by
  have hr : ∀ {r p i o j tr}, Run E (.rule r) p i o j tr → Part E.refs r → j = i :=
    fun h hp => run_plain hn h hp
  have hl : ∀ {r first p i o j tr}, Run E (.line r false first) p i o j tr → Part E.refs r → j = i :=
    fun h hp => run_plain hn h ⟨hp, rfl⟩
  cases h <;> simp only [PlainGoal] at hp ⊢ <;>
    grind [part_child, Child, part_ref, part_lines, List.mem_of_getElem?, List.mem_of_getLast?]

theorem reaches_plain {E : Env} (hn : NoIndent E.refs) {x y : Site} (h : Reaches E x y) (hp : PlainGoal E x.g) :
    y.i = x.i := by
  induction h with
  | here => rfl
  | step h _ ih =>
    have := tries_plain hn h hp
    rw [ih this.1, this.2]

end Verif
