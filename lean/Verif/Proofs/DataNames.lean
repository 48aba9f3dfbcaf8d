import Verif.Spec.DataNames
import Verif.Proofs.Dead
import Verif.Proofs.Compose
/-
Which names occur in the data.
-/
namespace Verif.Props
open Spec

theorem givesOf_mem {nm : Str} {T U : Nat → Bool} : ∀ {rs : List Rule}, givesOf nm T U rs = true ↔ ∃ r ∈ rs, gives nm T U r = true
  | [] => by simp [givesOf]
  | r :: rs => by simp [givesOf, givesOf_mem (rs := rs)]

mutual
theorem gives_mono {nm : Str} {T U U' : Nat → Bool} (hU : ∀ i, U i = true → U' i = true) : ∀ (r : Rule), gives nm T U r = true → gives nm T U' r = true
  | .whitespace _ _, h | .tag _ _ _ _ _, h | .untilAny _ _ _ _, h | .untilAnyOrWs _ _ _ _, h | .text _ _ _, h | .number _ _ _, h | .not _ _, h => by
    unfold gives at h ⊢; exact h
  | .node _ _ ix _, h => by
    simp only [gives, Option.any_eq_true, Bool.or_eq_true] at h ⊢
    obtain ⟨i, hi, h⟩ := h
    exact ⟨i, hi, h.imp (hU i) id⟩
  | .select rs _, h => by unfold gives at h ⊢; exact givesOf_mono hU rs h
  | .fastSelect _ rs _ _, h => by unfold gives at h ⊢; exact givesOf_mono hU rs h
  | .sequence rs _, h => by
    unfold gives at h ⊢
    rw [Bool.and_eq_true] at h ⊢
    exact ⟨h.1, givesOf_mono hU rs h.2⟩
  | .separateBy r b _ _ _, h => by
    unfold gives at h ⊢
    rw [Bool.and_eq_true, Bool.or_eq_true] at h ⊢
    exact ⟨h.1, h.2.imp (gives_mono hU r) (gives_mono hU b)⟩
  | .repeat_ r _ _, h => by unfold gives at h ⊢; exact gives_mono hU r h
  | .lines r _ _, h => by unfold gives at h ⊢; exact gives_mono hU r h
  | .optional r _, h => by unfold gives at h ⊢; exact gives_mono hU r h
theorem givesOf_mono {nm : Str} {T U U' : Nat → Bool} (hU : ∀ i, U i = true → U' i = true) :
    ∀ (rs : List Rule), givesOf nm T U rs = true → givesOf nm T U' rs = true
  | [], h => h
  | r :: rs, h => by
    unfold givesOf at h ⊢
    rw [Bool.or_eq_true] at h ⊢
    exact h.imp (gives_mono hU r) (givesOf_mono hU rs)
end

section
variable {nm : Str} {T : Nat → Bool} {refs : List Rule}

theorem giverAt_next (k i : Nat) : textAt (findGivers nm T refs (k + 1)) i =
    (refs[i]?.map (gives nm T (textAt (findGivers nm T refs k)))).getD false := by
  simp only [textAt, findGivers, List.getElem?_map]

theorem giverAt_grows : ∀ k i, textAt (findGivers nm T refs k) i = true → textAt (findGivers nm T refs (k + 1)) i = true
  | 0, i, h => by
    simp only [textAt, findGivers, List.getElem?_map] at h
    cases hq : refs[i]? <;> simp [hq] at h
  | k + 1, i, h => by
    rw [giverAt_next] at h ⊢
    cases hq : refs[i]? with
    | none => simp [hq] at h
    | some q =>
      simp only [hq, Option.map_some, Option.getD_some] at h ⊢
      exact gives_mono (giverAt_grows k) q h

theorem findGivers_stops : ∃ k ≤ refs.length, ∀ i, textAt (findGivers nm T refs (k + 1)) i = true → textAt (findGivers nm T refs k) i = true := by
  obtain ⟨k, hk, hs⟩ := still (f := fun k => sumTo (fun i => (textAt (findGivers nm T refs k) i).toNat) refs.length)
    fun k => sumTo_le (fun i => Bool.toNat_le _) _
  refine ⟨k, by omega, fun i h => ?_⟩
  have hi : i < refs.length := by
    rw [giverAt_next] at h
    cases hq : refs[i]? with
    | none => simp [hq] at h
    | some q => exact (List.getElem?_eq_some_iff.1 hq).1
  exact toNat_eq ((sumTo_mono (fun i => toNat_mono (giverAt_grows k i)) refs.length).2 hs i hi) h

/-- After as many steps as there are rules nothing changes. -/
theorem findGivers_fixed (i : Nat) (q : Rule) (hq : refs[i]? = some q) :
    gives nm T (textAt (findGivers nm T refs refs.length)) q = true → textAt (findGivers nm T refs refs.length) i = true := by
  obtain ⟨k, hk, h⟩ := findGivers_stops (nm := nm) (T := T) (refs := refs)
  have h1 : textAt (findGivers nm T refs (k + 1)) = textAt (findGivers nm T refs k) := by
    funext i
    exact Bool.eq_iff_iff.2 ⟨h i, giverAt_grows k i⟩
  have h2 : ∀ d, textAt (findGivers nm T refs (k + d)) = textAt (findGivers nm T refs k) := by
    intro d
    induction d with
    | zero => rfl
    | succ d ih =>
      funext i
      rw [← Nat.add_assoc, giverAt_next, ih, ← giverAt_next, h1]
  obtain ⟨d, hd⟩ := Nat.exists_eq_add_of_le hk
  rw [hd, h2 d]
  intro hc
  refine h i ?_
  rw [giverAt_next, hq]
  exact hc

end

/-- What is needed for a goal. -/
def goalGives (nm : Str) (T U : Nat → Bool) : Goal → Prop
  | .rule r => gives nm T U r = true
  | .sel rs => givesOf nm T U rs = true
  | .seq rs => givesOf nm T U rs = true
  | .rep r => gives nm T U r = true
  | .sepTail r b _ => gives nm T U r = true ∨ gives nm T U b = true
  | .lines r _ _ _ _ => gives nm T U r = true
  | .line r _ _ => gives nm T U r = true

/-- The name occurs. -/
def HasName (nm : Str) (ts : List Tok) : Prop := ∃ t ∈ ts, dataName t.data = nm

theorem hasName_append {nm : Str} {ts us : List Tok} : HasName nm (ts ++ us) ↔ HasName nm ts ∨ HasName nm us := by
  simp only [HasName, List.mem_append, or_and_right, exists_or]

theorem not_hasName_nil {nm : Str} : ¬ HasName nm [] := by simp [HasName]

theorem hasName_named {nm : Str} {prop : Option Str} {off n : Nat} {f : Str → MetaData} (hf : ∀ x, dataName (f x) = x) :
    HasName nm (named prop off n f) ↔ prop = some nm := by
  cases prop <;> simp [named, HasName, hf]

theorem hasName_wrapped {nm : Str} {prop : Option Str} {off n : Nat} {ts : List Tok} :
    HasName nm (wrapped prop off n ts) ↔ prop = some nm ∨ HasName nm ts := by
  cases prop with
  | none => simp [wrapped]
  | some x =>
    simp only [wrapped, HasName, List.cons_append, List.mem_cons, List.mem_append, List.not_mem_nil, or_false, Option.some.injEq]
    constructor
    · rintro ⟨t, (rfl | ht | rfl), h⟩
      · exact .inl h
      · exact .inr ⟨t, ht, h⟩
      · exact .inl h
    · rintro (rfl | ⟨t, ht, h⟩)
      · exact ⟨_, .inl rfl, rfl⟩
      · exact ⟨t, .inr (.inl ht), h⟩

theorem before_name {nm : Str} {n m : Nat} {ts us : List Tok} {o : Outcome} (h : before n ts o = some (m, us)) (hn : HasName nm us) :
    ∃ k vs, o = some (k, vs) ∧ (HasName nm ts ∨ HasName nm vs) := by
  match o, h with
  | some (k, vs), h =>
    cases h
    exact ⟨k, vs, rfl, hasName_append.1 hn⟩

/-- Names in the data are names that may be given. -/
theorem run_gives {E : Env} {nm : Str} {T U : Nat → Bool} (hT : ∀ i q, E.refs[i]? = some q → canMatch T q = true → T i = true)
    (hU : ∀ i q, E.refs[i]? = some q → gives nm T U q = true → U i = true) {g p i o j tr}
    (h : Run E g p i o j tr) : ∀ n ts, o = some (n, ts) → HasName nm ts → goalGives nm T U g := by
  have hm : ∀ {g p i x j tr}, Run E g p i (some x) j tr → goalMatch T g := fun h => run_canMatch hT h rfl
  induction h with
  | tag_ok | notTag_ok | until_ok | untilWs_ok | text_ok | num_ok =>
    intro n ts ho hn
    cases ho
    have := (hasName_named (fun _ => rfl)).1 hn
    simp [goalGives, gives, this]
  | select h ih => exact fun n ts ho hn => by simpa [goalGives, gives] using ih n ts ho hn
  | sel_here h ih => exact fun n ts ho hn => by simpa [goalGives, givesOf] using .inl (ih n ts ho hn)
  | sel_next h h' ih ih' => exact fun n ts ho hn => by simpa [goalGives, givesOf] using .inr (ih' n ts ho hn)
  | fast_hit h hb ht hr h' ih | fastTail_hit h hb ht hr h' ih =>
    exact fun n ts ho hn => by
      simp only [goalGives, gives]
      exact givesOf_mem.2 ⟨_, List.mem_of_getElem? hr, ih n ts ho hn⟩
  | fastTail_miss h hb ht hr h' ih =>
    exact fun n ts ho hn => by
      simp only [goalGives, gives]
      exact givesOf_mem.2 ⟨_, List.mem_of_getLast? hr, ih n ts ho hn⟩
  | fastTail_next h hb ht hr h' hr' h'' ih ih' =>
    exact fun n ts ho hn => by
      simp only [goalGives, gives]
      exact givesOf_mem.2 ⟨_, List.mem_of_getLast? hr', ih' n ts ho hn⟩
  | sequence h ih =>
    intro n ts ho hn
    subst ho
    have h1 := hm h
    have h2 := ih n ts rfl hn
    simp only [goalMatch, goalGives] at h1 h2
    simp [goalGives, gives, h1, h2]
  | seq_cons h h' ih ih' | rep_more h h' ih ih' =>
    intro n ts ho hn
    obtain ⟨k, vs, rfl, hn⟩ := before_name ho hn
    rcases hn with hn | hn
    · have := ih _ _ rfl hn
      simp only [goalGives] at this
      simp [goalGives, givesOf, this]
    · have := ih' _ _ rfl hn
      simp only [goalGives] at this
      simp [goalGives, givesOf, this]
  | repeat_opt h ih => exact fun n ts ho hn => by simpa [goalGives, gives] using ih n ts ho hn
  | repeat_ok h h' ih ih' =>
    intro n ts ho hn
    obtain ⟨k, vs, rfl, hn⟩ := before_name ho hn
    rcases hn with hn | hn
    · simpa [goalGives, gives] using ih _ _ rfl hn
    · simpa [goalGives, gives] using ih' _ _ rfl hn
  | sep_first h h' ih ih' =>
    intro n ts ho hn
    obtain ⟨k, vs, rfl, hn⟩ := before_name ho hn
    have h1 := hm h
    simp only [goalMatch] at h1
    rcases hn with hn | hn
    · have := ih _ _ rfl hn
      simp only [goalGives] at this
      simp [goalGives, gives, h1, this]
    · have := ih' _ _ rfl hn
      simp only [goalGives] at this
      simpa [goalGives, gives, h1] using this
  | sep_trail h h' ih ih' => exact fun n ts ho hn => .inr (ih n ts ho hn)
  | sep_more h h' h'' ih ih' ih'' =>
    intro n ts ho hn
    obtain ⟨k, vs, rfl, hn⟩ := before_name ho hn
    rcases hn with hn | hn
    · rcases hasName_append.1 hn with hn | hn
      · exact .inr (ih _ _ rfl hn)
      · exact .inl (ih' _ _ rfl hn)
    · exact ih'' _ _ rfl hn
  | lines h ih => exact fun n ts ho hn => by simpa [goalGives, gives] using ih n ts ho hn
  | lines_more h h' h'' ih' ih'' =>
    intro n ts ho hn
    obtain ⟨k, vs, rfl, hn⟩ := before_name ho hn
    rcases hn with hn | hn
    · exact ih' _ _ rfl hn
    · exact ih'' _ _ rfl hn
  | line_plain h ih => exact fun n ts ho hn => ih n ts ho hn
  | line_body ha h hd hi h' ih =>
    intro n ts ho hn
    obtain ⟨k, vs, rfl, hn⟩ := before_name ho hn
    exact ih _ _ rfl (hn.resolve_left not_hasName_nil)
  | line_align ha h hm hi h' ih =>
    intro n ts ho hn
    obtain ⟨k, vs, rfl, hn⟩ := before_name ho hn
    exact ih _ _ rfl (hn.resolve_left not_hasName_nil)
  | @node_ok name prop ix id p i r n ts j tr hr h ih =>
    intro n' ts' ho hn
    cases ho
    simp only [goalGives, gives, Option.any_some, Bool.or_eq_true, Bool.and_eq_true, beq_iff_eq]
    rcases hasName_wrapped.1 hn with hn | hn
    · exact .inr ⟨hT _ _ hr (hm h), hn⟩
    · exact .inl (hU _ _ hr (ih _ _ rfl hn))
  | optional_some h ih => exact fun n ts ho hn => by simpa [goalGives, gives] using ih n ts ho hn
  | _ => intro n ts ho hn; cases ho <;> exact absurd hn not_hasName_nil

section
variable {E : Env} {nm : Str}

theorem hasName_data {ts us : List Tok} (h : us.map (·.data) = ts.map (·.data)) (hn : HasName nm ts) : HasName nm us := by
  obtain ⟨t, ht, rfl⟩ := hn
  have : t.data ∈ us.map (·.data) := by rw [h]; exact List.mem_map.2 ⟨t, ht, rfl⟩
  obtain ⟨u, hu, hd⟩ := List.mem_map.1 this
  exact ⟨u, hu, by rw [hd]⟩

variable (E) in
/-- There is a text for it. -/
def HasText (g : Goal) : Prop := ∃ y, ∀ off, ∃ ts, Composes E g off y ts

variable (E nm) in
/-- There is a text for it with the name in its data. -/
def Provides (g : Goal) : Prop := ∃ y, ∀ off, ∃ ts, Composes E g off y ts ∧ HasName nm ts

theorem hasText_of {g off y ts} (h : Composes E g off y ts) : HasText E g :=
  ⟨y, fun off' => (composes_elsewhere h off').imp fun _ h => h.1⟩

theorem provides_of {g off y ts} (h : Composes E g off y ts) (hn : HasName nm ts) : Provides E nm g :=
  ⟨y, fun off' => (composes_elsewhere h off').imp fun _ h => ⟨h.1, hasName_data h.2 hn⟩⟩

theorem Provides.hasText {g} (h : Provides E nm g) : HasText E g := h.imp fun _ h off => (h off).imp fun _ h => h.1

theorem hasText_seq : ∀ {rs : List Rule}, (∀ r ∈ rs, HasText E (.rule r)) → HasText E (.seq rs)
  | [], _ => hasText_of (off := 0) .seq_nil
  | r :: rs, h => by
    obtain ⟨y, h1⟩ := h r (by simp)
    obtain ⟨z, h2⟩ := hasText_seq (rs := rs) fun r hr => h r (by simp [hr])
    obtain ⟨ts, h3⟩ := h1 0
    obtain ⟨us, h4⟩ := h2 (0 + y.length)
    exact hasText_of (.seq_cons h3 h4)

theorem provides_seq : ∀ {rs : List Rule}, (∀ r ∈ rs, HasText E (.rule r)) → (∃ r ∈ rs, Provides E nm (.rule r)) → Provides E nm (.seq rs)
  | [], _, h => by simp at h
  | r :: rs, h, h' => by
    obtain ⟨q, hq, h'⟩ := h'
    have h0 : ∀ r ∈ rs, HasText E (.rule r) := fun r hr => h r (by simp [hr])
    rcases List.mem_cons.1 hq with rfl | hq
    · obtain ⟨y, h1⟩ := h'
      obtain ⟨z, h2⟩ := hasText_seq h0
      obtain ⟨ts, h3, hn⟩ := h1 0
      obtain ⟨us, h4⟩ := h2 (0 + y.length)
      exact provides_of (.seq_cons h3 h4) (hasName_append.2 (.inl hn))
    · obtain ⟨y, h1⟩ := h r (by simp)
      obtain ⟨z, h2⟩ := provides_seq h0 ⟨q, hq, h'⟩
      obtain ⟨ts, h3⟩ := h1 0
      obtain ⟨us, h4, hn⟩ := h2 (0 + y.length)
      exact provides_of (.seq_cons h3 h4) (hasName_append.2 (.inr hn))

/-- The name that a token gives. -/
def tokenName : Rule → Option Str
  | .tag _ _ _ prop _ => prop
  | .untilAny _ _ prop _ => prop
  | .untilAnyOrWs _ _ prop _ => prop
  | .text _ prop _ => prop
  | .number prop _ _ => prop
  | _ => none

theorem token_provides {r : Rule} (hr : CallsNone r) (hp : tokenName r = some nm) (h : HasText E (.rule r)) : Provides E nm (.rule r) := by
  obtain ⟨y, h⟩ := h
  obtain ⟨ts, h⟩ := h 0
  refine provides_of h ?_
  generalize hg : Goal.rule r = g at h
  cases h with
  | token _ h =>
    cases hg
    generalize ho : some (y.length, ts) = o at h
    cases h <;> first | cases ho; done | exact hr.elim | skip
    all_goals
      simp only [Option.some.injEq, Prod.mk.injEq] at ho
      rw [ho.2]
      first
        | exact (hasName_named (fun _ => rfl)).2 hp
        | cases hp
  | _ => cases hg <;> exact hr.elim

mutual
theorem gives_provides {T U : Nat → Bool} (hP : ∀ x, Part E.refs x → Outright x) (hM : ∀ x, Part E.refs x → canMatch T x = true → HasText E (.rule x))
    (hT : ∀ i, T i = true → ∃ q, E.refs[i]? = some q ∧ HasText E (.rule q))
    (hU : ∀ i, U i = true → ∃ q, E.refs[i]? = some q ∧ Provides E nm (.rule q)) :
    ∀ (r : Rule), Part E.refs r → gives nm T U r = true → Provides E nm (.rule r)
  | .whitespace _ _, _, h => by simp [gives] at h
  | .not _ _, _, h => by simp [gives] at h
  | .tag _ _ _ _ _, hr, h => by
    simp only [gives, beq_iff_eq] at h
    exact token_provides trivial h (hM _ hr (by simp [canMatch]))
  | .untilAny _ _ _ _, hr, h => by
    simp only [gives, beq_iff_eq] at h
    exact token_provides trivial h (hM _ hr (by simp [canMatch]))
  | .untilAnyOrWs _ _ _ _, hr, h => by
    simp only [gives, beq_iff_eq] at h
    exact token_provides trivial h (hM _ hr (by simp [canMatch]))
  | .text _ _ _, hr, h => by
    simp only [gives, beq_iff_eq] at h
    exact token_provides trivial h (hM _ hr (by simp [canMatch]))
  | .number _ _ _, hr, h => by
    simp only [gives, beq_iff_eq] at h
    exact token_provides trivial h (hM _ hr (by simp [canMatch]))
  | .select rs id, hr, h => by
    simp only [gives] at h
    obtain ⟨q, hq, y, h⟩ := givesOf_provides hP hM hT hU rs (fun q hq => decided_part hr (.select hq)) h
    obtain ⟨ts, h, hn⟩ := h 0
    exact provides_of (.select hq h) hn
  | .fastSelect _ _ _ _, hr, _ => (hP _ hr).elim
  | .lines _ _ _, hr, _ => (hP _ hr).elim
  | .sequence rs id, hr, h => by
    simp only [gives, Bool.and_eq_true] at h
    obtain ⟨y, h⟩ := provides_seq (fun q hq => hM q (decided_part hr (.sequence hq)) (canMatchAll_mem.1 h.1 q hq))
      (givesOf_provides hP hM hT hU rs (fun q hq => decided_part hr (.sequence hq)) h.2)
    obtain ⟨ts, h, hn⟩ := h 0
    exact provides_of (.sequence h) hn
  | .separateBy r b opt trail id, hr, h => by
    simp only [gives, Bool.and_eq_true, Bool.or_eq_true] at h
    have hr' : Part E.refs r := decided_part hr .item
    have hb : Part E.refs b := decided_part hr .sep
    rcases h.2 with h2 | h2
    · obtain ⟨y, h3⟩ := gives_provides hP hM hT hU r hr' h2
      obtain ⟨ts, h3, hn⟩ := h3 0
      exact provides_of (.sep_some h3 .tail_nil) (hasName_append.2 (.inl hn))
    · obtain ⟨y, h3⟩ := gives_provides hP hM hT hU b hb h2
      obtain ⟨z, h4⟩ := hM r hr' h.1
      obtain ⟨ts, h5⟩ := h4 0
      obtain ⟨us, h6, hn⟩ := h3 (0 + z.length)
      obtain ⟨vs, h7⟩ := h4 (0 + z.length + y.length)
      exact provides_of (.sep_some h5 (.tail_cons h6 h7 .tail_nil)) (hasName_append.2 (.inr (hasName_append.2 (.inl hn))))
  | .repeat_ r opt id, hr, h => by
    simp only [gives] at h
    obtain ⟨y, h⟩ := gives_provides hP hM hT hU r (decided_part hr .repeat_) h
    obtain ⟨ts, h, hn⟩ := h 0
    cases opt with
    | true => exact provides_of (.repeat_any (.rep_cons h .rep_nil)) (hasName_append.2 (.inl hn))
    | false => exact provides_of (.repeat_some h .rep_nil) (hasName_append.2 (.inl hn))
  | .node name prop none id, hr, h => by simp [gives] at h
  | .node name prop (some i) id, hr, h => by
    simp only [gives, Option.any_some, Bool.or_eq_true, Bool.and_eq_true, beq_iff_eq] at h
    rcases h with h | h
    · obtain ⟨q, hq, y, h⟩ := hU i h
      obtain ⟨ts, h, hn⟩ := h 0
      exact provides_of (.node hq h) (hasName_wrapped.2 (.inr hn))
    · obtain ⟨q, hq, y, h1⟩ := hT i h.1
      obtain ⟨ts, h1⟩ := h1 0
      exact provides_of (.node hq h1) (hasName_wrapped.2 (.inl h.2))
  | .optional r id, hr, h => by
    simp only [gives] at h
    obtain ⟨y, h⟩ := gives_provides hP hM hT hU r (decided_part hr .optional) h
    obtain ⟨ts, h, hn⟩ := h 0
    exact provides_of (.optional_some h) hn
theorem givesOf_provides {T U : Nat → Bool} (hP : ∀ x, Part E.refs x → Outright x) (hM : ∀ x, Part E.refs x → canMatch T x = true → HasText E (.rule x))
    (hT : ∀ i, T i = true → ∃ q, E.refs[i]? = some q ∧ HasText E (.rule q))
    (hU : ∀ i, U i = true → ∃ q, E.refs[i]? = some q ∧ Provides E nm (.rule q)) :
    ∀ (rs : List Rule), (∀ r ∈ rs, Part E.refs r) → givesOf nm T U rs = true → ∃ r ∈ rs, Provides E nm (.rule r)
  | [], _, h => by simp [givesOf] at h
  | r :: rs, hr, h => by
    simp only [givesOf, Bool.or_eq_true] at h
    rcases h with h | h
    · exact ⟨r, by simp, gives_provides hP hM hT hU r (hr r (by simp)) h⟩
    · obtain ⟨q, hq, h⟩ := givesOf_provides hP hM hT hU rs (fun r h => hr r (by simp [h])) h
      exact ⟨q, by simp [hq], h⟩
end

theorem findGivers_provides {T : Nat → Bool} (hP : ∀ x, Part E.refs x → Outright x) (hM : ∀ x, Part E.refs x → canMatch T x = true → HasText E (.rule x))
    (hT : ∀ i, T i = true → ∃ q, E.refs[i]? = some q ∧ HasText E (.rule q)) :
    ∀ k i, textAt (findGivers nm T E.refs k) i = true → ∃ q, E.refs[i]? = some q ∧ Provides E nm (.rule q)
  | 0, i, h => by
    simp only [textAt, findGivers, List.getElem?_map] at h
    cases hq : E.refs[i]? <;> simp [hq] at h
  | k + 1, i, h => by
    rw [giverAt_next] at h
    cases hq : E.refs[i]? with
    | none => simp [hq] at h
    | some q =>
      simp only [hq, Option.map_some, Option.getD_some] at h
      exact ⟨q, rfl, gives_provides hP hM hT (findGivers_provides hP hM hT k) q ⟨q, List.mem_of_getElem? hq, .refl⟩ h⟩

end

end Verif.Props
