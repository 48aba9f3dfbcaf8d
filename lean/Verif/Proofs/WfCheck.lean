import Verif.Proofs.Total
/-
A computable check that a syntax is well formed.
-/
namespace Verif
open Spec

mutual
/-- May the rule match without reading anything?  `nt` answers for the references. -/
def Rule.nullable (nt : List Bool) : Rule → Bool
  | .whitespace opt _ => opt
  | .tag t nt' _ _ _ => nt' || t.isEmpty
  | .untilAny _ opt _ _ => opt
  | .untilAnyOrWs _ opt _ _ => opt
  | .text _ _ _ => false
  | .number _ _ _ => false
  | .select args _ => Rule.nullableAny nt args
  | .fastSelect _ args _ _ => Rule.nullableAny nt args
  | .sequence args _ => Rule.nullableAll nt args
  | .separateBy r _ opt _ _ => opt || Rule.nullable nt r
  | .repeat_ r opt _ => opt || Rule.nullable nt r
  | .lines _ _ _ => true
  | .node _ _ none _ => false
  | .node _ _ (some i) _ => nt[i]?.getD true
  | .optional _ _ => true
  | .not _ _ => true
def Rule.nullableAny (nt : List Bool) : List Rule → Bool
  | [] => false
  | r :: rs => Rule.nullable nt r || Rule.nullableAny nt rs
def Rule.nullableAll (nt : List Bool) : List Rule → Bool
  | [] => true
  | r :: rs => Rule.nullable nt r && Rule.nullableAll nt rs
end

mutual
/-- The references that may be tried before anything has been read. -/
def Rule.firsts (nt : List Bool) : Rule → List Nat
  | .select args _ => Rule.firstsAny nt args
  | .fastSelect _ args _ _ => Rule.firstsAny nt args
  | .sequence args _ => Rule.firstsSeq nt args
  | .separateBy r b _ _ _ =>
    Rule.firsts nt r ++ (if Rule.nullable nt r then Rule.firsts nt b else [])
  | .repeat_ r _ _ => Rule.firsts nt r
  | .lines r _ _ => Rule.firsts nt r
  | .node _ _ (some i) _ => [i]
  | .optional r _ => Rule.firsts nt r
  | .not r _ => Rule.firsts nt r
  | _ => []
def Rule.firstsAny (nt : List Bool) : List Rule → List Nat
  | [] => []
  | r :: rs => Rule.firsts nt r ++ Rule.firstsAny nt rs
def Rule.firstsSeq (nt : List Bool) : List Rule → List Nat
  | [] => []
  | r :: rs => Rule.firsts nt r ++ (if Rule.nullable nt r then Rule.firstsSeq nt rs else [])
end

/-- The loop in the rule itself reads something each time. -/
def loopOk (nt : List Bool) : Rule → Bool
  | .repeat_ r _ _ => !Rule.nullable nt r
  | .separateBy r b _ _ _ => !(Rule.nullable nt r && Rule.nullable nt b)
  | _ => true

/-- The table answers at least for what it says about the rules. -/
def tableOk (refs : List Rule) (nt : List Bool) : Bool :=
  decide (nt.length = refs.length) &&
  (refs.zip nt).all fun (r, b) => !Rule.nullable nt r || b

/-- The references tried first have a lower rank. -/
def rankOk (refs : List Rule) (nt : List Bool) (rank : List Nat) : Bool :=
  decide (rank.length = refs.length) &&
  (refs.zip rank).all fun (r, k) => (Rule.firsts nt r).all fun j => decide (rank[j]?.getD 0 < k)

/-- A table that `tableOk` accepts, by iteration. -/
def nullTable (refs : List Rule) : Nat → List Bool
  | 0 => refs.map fun _ => false
  | k + 1 => refs.map (Rule.nullable (nullTable refs k))

/-- The ranks, by iteration. -/
def rankTable (refs : List Rule) (nt : List Bool) : Nat → List Nat
  | 0 => refs.map fun _ => 1
  | k + 1 =>
    let t := rankTable refs nt k
    refs.map fun r => (Rule.firsts nt r).foldl (fun m j => max m (t[j]?.getD 0)) 0 + 1

/-- Is the syntax well formed? -/
def wellFormed (refs : List Rule) : Bool :=
  let nt := nullTable refs (refs.length + 1)
  let rank := rankTable refs nt (refs.length + 1)
  tableOk refs nt && rankOk refs nt rank && refs.all (Rule.all (loopOk nt))

/-! ### Soundness -/

theorem nullableAny_mem {nt : List Bool} : ∀ {rs : List Rule} {r}, r ∈ rs → r.nullable nt = true →
    Rule.nullableAny nt rs = true
  | a :: as, r, h, hn => by
    simp only [Rule.nullableAny, Bool.or_eq_true]
    rcases List.mem_cons.1 h with rfl | h
    · exact .inl hn
    · exact .inr (nullableAny_mem h hn)

theorem tableOk_get {refs : List Rule} {nt : List Bool} (h : tableOk refs nt = true) {i : Nat} {r}
    (hi : refs[i]? = some r) (hn : r.nullable nt = true) : nt[i]?.getD true = true := by
  simp only [tableOk, Bool.and_eq_true, decide_eq_true_eq] at h
  cases hb : nt[i]? with
  | none => rfl
  | some b =>
    have hz : (refs.zip nt)[i]? = some (r, b) := by
      rw [List.getElem?_zip_eq_some]; exact ⟨hi, hb⟩
    have := List.all_eq_true.1 h.2 _ (List.mem_of_getElem? hz)
    simpa [hn] using this

/-- What a goal says when it reads nothing. -/
def NullGoal (nt : List Bool) : Goal → Prop
  | .rule r => r.nullable nt = true
  | .sel rs => Rule.nullableAny nt rs = true
  | .seq rs => Rule.nullableAll nt rs = true
  | _ => True

theorem before_zero {n ts} {o : Outcome} {us} (h : before n ts o = some (0, us)) :
    n = 0 ∧ ∃ vs, o = some (0, vs) := by
  cases o with
  | none => simp [before] at h
  | some x =>
    obtain ⟨m, vs⟩ := x
    simp only [before, Option.some.injEq, Prod.mk.injEq] at h
    exact ⟨by omega, vs, by simp; omega⟩

theorem run_nullable {E : Env} (hL : E.L.Lawful) {nt : List Bool} (ht : tableOk E.refs nt = true)
    {g p i o j tr} (h : Run E g p i o j tr) : (∃ ts, o = some (0, ts)) → NullGoal nt g := by
  induction h with
  | ws_ok _ h0 | until_ok _ h0 | untilWs_ok _ h0 =>
    rintro ⟨ts, he⟩; simp only [Option.some.injEq, Prod.mk.injEq] at he
    exact h0 he.1
  | tag_ok h =>
    rintro ⟨ts, he⟩; simp only [Option.some.injEq, Prod.mk.injEq] at he
    simp [NullGoal, Rule.nullable, List.length_eq_zero_iff.1 he.1]
  | notTag_ok h => intro _; simp [NullGoal, Rule.nullable]
  | text_ok h =>
    rintro ⟨ts, he⟩; simp only [Option.some.injEq, Prod.mk.injEq] at he
    have := (hL.str_some h).1
    omega
  | num_ok h =>
    rintro ⟨ts, he⟩; simp only [Option.some.injEq, Prod.mk.injEq] at he
    have := (hL.num_some h).1
    omega
  | select h ih => exact ih
  | sel_here h ih => intro he; simp only [NullGoal, Rule.nullableAny, Bool.or_eq_true]; exact .inl (ih he)
  | sel_next h h' ih ih' =>
    intro he; simp only [NullGoal, Rule.nullableAny, Bool.or_eq_true]; exact .inr (ih' he)
  | fast_hit _ _ _ hr _ ih | fastTail_hit _ _ _ hr _ ih =>
    intro he; exact nullableAny_mem (List.mem_of_getElem? hr) (ih he)
  | fastTail_miss _ _ _ hr _ ih =>
    intro he; exact nullableAny_mem (List.mem_of_getLast? hr) (ih he)
  | fastTail_next _ _ _ hr _ hr' _ ih ih' =>
    intro he; exact nullableAny_mem (List.mem_of_getLast? hr') (ih' he)
  | sequence h ih => exact ih
  | seq_nil => intro _; rfl
  | seq_cons h h' ih ih' =>
    rintro ⟨ts, he⟩
    obtain ⟨rfl, vs, rfl⟩ := before_zero he
    simp only [NullGoal, Rule.nullableAll, Bool.and_eq_true]
    exact ⟨ih ⟨_, rfl⟩, ih' ⟨_, rfl⟩⟩
  | repeat_opt => intro _; simp [NullGoal, Rule.nullable]
  | repeat_ok h h' ih ih' =>
    rintro ⟨ts, he⟩
    obtain ⟨rfl, vs, rfl⟩ := before_zero he
    simp only [NullGoal, Rule.nullable, Bool.or_eq_true]
    exact .inr (ih ⟨_, rfl⟩)
  | sep_none => intro _; simp [NullGoal, Rule.nullable]
  | sep_first h h' ih ih' =>
    rintro ⟨ts, he⟩
    obtain ⟨rfl, vs, rfl⟩ := before_zero he
    simp only [NullGoal, Rule.nullable, Bool.or_eq_true]
    exact .inr (ih ⟨_, rfl⟩)
  | lines => intro _; simp [NullGoal, Rule.nullable]
  | node_ok hr h ih =>
    rintro ⟨ts, he⟩; simp only [Option.some.injEq, Prod.mk.injEq] at he
    simp only [NullGoal, Rule.nullable]
    exact tableOk_get ht hr (ih ⟨_, by rw [he.1]⟩)
  | optional_none | optional_some | not_ok => intro _; simp [NullGoal, Rule.nullable]
  | rep_stop | rep_more | sep_stop | sep_trail | sep_more | lines_done | lines_stop | lines_more
  | line_plain | line_body | line_align => intro _; trivial
  | _ => rintro ⟨ts, he⟩; simp at he

theorem canBeEmpty_nullable {E : Env} (hL : E.L.Lawful) {nt : List Bool}
    (ht : tableOk E.refs nt = true) {r} (h : CanBeEmpty E r) : r.nullable nt = true := by
  obtain ⟨p, i, ts, j, tr, h⟩ := h
  exact run_nullable hL ht h ⟨_, rfl⟩

theorem firstsAny_mem {nt : List Bool} : ∀ {rs : List Rule} {r k}, r ∈ rs → k ∈ r.firsts nt →
    k ∈ Rule.firstsAny nt rs
  | a :: as, r, k, h, hk => by
    simp only [Rule.firstsAny, List.mem_append]
    rcases List.mem_cons.1 h with rfl | h
    · exact .inl hk
    · exact .inr (firstsAny_mem h hk)

theorem firstsSeq_mem {nt : List Bool} : ∀ {pre post : List Rule} {r k},
    (∀ x ∈ pre, x.nullable nt = true) → k ∈ r.firsts nt →
    k ∈ Rule.firstsSeq nt (pre ++ r :: post)
  | [], post, r, k, _, hk => by simp [Rule.firstsSeq, hk]
  | a :: as, post, r, k, h, hk => by
    simp only [List.cons_append, Rule.firstsSeq, List.mem_append]
    rw [if_pos (h a (by simp))]
    exact .inr (firstsSeq_mem (fun x hx => h x (by simp [hx])) hk)

theorem calls_firsts {E : Env} (hL : E.L.Lawful) {nt : List Bool} (ht : tableOk E.refs nt = true)
    {c r} (h : Calls E c r) :
    (Child c r ∧ ∀ k ∈ c.firsts nt, k ∈ r.firsts nt) ∨
      ∃ ix, r.firsts nt = [ix] ∧ E.refs[ix]? = some c := by
  cases h with
  | select h => exact .inl ⟨.select h, fun k hk => firstsAny_mem h hk⟩
  | fast h => exact .inl ⟨.fast h, fun k hk => firstsAny_mem h hk⟩
  | sequence h =>
    exact .inl ⟨.sequence (by simp), fun k hk =>
      firstsSeq_mem (fun x hx => canBeEmpty_nullable hL ht (h x hx)) hk⟩
  | item => exact .inl ⟨.item, fun k hk => by simp [Rule.firsts, hk]⟩
  | sep h =>
    exact .inl ⟨.sep, fun k hk => by simp [Rule.firsts, canBeEmpty_nullable hL ht h, hk]⟩
  | repeat_ => exact .inl ⟨.repeat_, fun k hk => hk⟩
  | lines => exact .inl ⟨.lines, fun k hk => hk⟩
  | optional => exact .inl ⟨.optional, fun k hk => hk⟩
  | not => exact .inl ⟨.not, fun k hk => hk⟩
  | node h => exact .inr ⟨_, rfl, h⟩

theorem child_size {c r : Rule} (h : Child c r) : sizeOf c < sizeOf r := by
  cases h
  case select h => have := List.sizeOf_lt_of_mem h; simp; omega
  case fast h => have := List.sizeOf_lt_of_mem h; simp; omega
  case sequence h => have := List.sizeOf_lt_of_mem h; simp; omega
  all_goals simp
  all_goals omega

theorem rank_acc {E : Env} (hL : E.L.Lawful) {nt : List Bool} {rank : List Nat}
    (ht : tableOk E.refs nt = true) (hr : rankOk E.refs nt rank = true) :
    ∀ k m (r : Rule), sizeOf r = m → (∀ j ∈ r.firsts nt, rank[j]?.getD 0 < k) → Acc (Calls E) r := by
  intro k
  induction k using Nat.strongRecOn with
  | _ k ihk =>
    intro m
    induction m using Nat.strongRecOn with
    | _ m ihm =>
      intro r hm hf
      refine .intro r fun c hc => ?_
      rcases calls_firsts hL ht hc with ⟨hch, hsub⟩ | ⟨ix, hfx, hix⟩
      · exact ihm _ (hm ▸ child_size hch) c rfl fun j hj => hf j (hsub j hj)
      · have hk := hf ix (by simp [hfx])
        simp only [rankOk, Bool.and_eq_true, decide_eq_true_eq] at hr
        have hlt : ix < rank.length := by
          rw [hr.1]
          exact (List.getElem?_eq_some_iff.1 hix).1
        have hz : (E.refs.zip rank)[ix]? = some (c, rank[ix]) := by
          rw [List.getElem?_zip_eq_some]
          exact ⟨hix, List.getElem?_eq_getElem hlt⟩
        have := List.all_eq_true.1 hr.2 _ (List.mem_of_getElem? hz)
        simp only [List.all_eq_true, decide_eq_true_eq] at this
        rw [List.getElem?_eq_getElem hlt] at hk
        exact ihk _ hk _ c rfl this

theorem acc_irrefl {α : Type} {R : α → α → Prop} {r : α} (h : Acc R r) :
    ¬ Relation.TransGen R r r := by
  have h' : Acc (Relation.TransGen R) r := by
    induction h with
    | intro x _ ih =>
      refine .intro x fun z hz => ?_
      cases hz with
      | single h => exact ih _ h
      | tail hz h => exact (ih _ h).inv hz
  intro hr
  induction h' with
  | intro x _ ih => exact ih x hr h hr

/-- The check is sound. -/
theorem wellFormed_sound {E : Env} (hL : E.L.Lawful) (h : wellFormed E.refs = true) :
    WellFormed E := by
  simp only [wellFormed, Bool.and_eq_true] at h
  obtain ⟨⟨ht, hr⟩, hl⟩ := h
  refine ⟨?_, ?_⟩
  · intro x hx
    apply acc_irrefl
    exact rank_acc hL ht hr ((Rule.firsts (nullTable E.refs (E.refs.length + 1)) x).foldr
      (fun j m => max m ((rankTable E.refs (nullTable E.refs (E.refs.length + 1))
        (E.refs.length + 1))[j]?.getD 0)) 0 + 1) _ x rfl (by
      intro j hj
      generalize Rule.firsts _ x = l at hj
      induction l with
      | nil => simp at hj
      | cons a as ih =>
        simp only [List.foldr_cons]
        rcases List.mem_cons.1 hj with rfl | hj
        · omega
        · have := ih hj
          omega)
  · rintro x ⟨q, hq, hx⟩
    have := Rule.all_occurs hx (List.all_eq_true.1 hl q hq)
    cases x with
    | repeat_ r opt id =>
      simp only [loopOk, Bool.not_eq_true'] at this
      intro hc
      rw [canBeEmpty_nullable hL ht hc] at this
      simp at this
    | separateBy r b opt trail id =>
      simp only [loopOk, Bool.not_eq_true'] at this
      rintro ⟨hc, hc'⟩
      rw [canBeEmpty_nullable hL ht hc, canBeEmpty_nullable hL ht hc'] at this
      simp at this
    | _ => trivial

end Verif
