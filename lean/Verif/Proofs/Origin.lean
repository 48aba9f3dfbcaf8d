import Verif.Spec.Origin
import Verif.Spec.WellFormed
import Verif.Proofs.RunProps
import Verif.Proofs.Occurs
/-
Errors and items come from rules of the syntax, and are true of the text.
-/
namespace Verif
open Spec

/-- The position is in the text. -/
def Inside (text : Str) (p : Pos) : Prop := p.src = text.drop p.off

theorem inside_adv {text : Str} {p : Pos} (h : Inside text p) (n : Nat) : Inside text (adv p n) := by
  simp only [Inside, adv] at *
  rw [h, List.drop_drop]

theorem from_inside {text : Str} {p : Pos} (h : Inside text p) : from_ text p.off = p := by
  simp only [Inside, from_] at *
  rw [← h]

/-- The parts of a goal are parts of the syntax. -/
def GoalPart (refs : List Rule) : Goal → Prop
  | .rule r => Part refs r
  | .sel rs => ∀ r ∈ rs, Part refs r
  | .seq rs => ∀ r ∈ rs, Part refs r
  | .rep r => Part refs r
  | .sepTail r b _ => Part refs r ∧ Part refs b
  | .lines r ind id _ _ => Part refs (.lines r ind id)
  | .line r _ _ => Part refs r

/-- What is claimed of a run. -/
structure Told (E : Env) (text : Str) (o : Outcome) (tr : List RErr) : Prop where
  errs : ∀ e ∈ tr, ∃ x, Part E.refs x ∧ Blames E text x e
  toks : ∀ n ts, o = some (n, ts) → ∀ t ∈ ts, ∃ x, Part E.refs x ∧ Records E text x t

theorem Told.append {E : Env} {text n ts o tr tr'} (h : Told E text (some (n, ts)) tr)
    (h' : Told E text o tr') : Told E text (before n ts o) (tr ++ tr') := by
  refine ⟨fun e he => (List.mem_append.1 he).elim (h.errs e) (h'.errs e), ?_⟩
  intro m us ho t ht
  obtain ⟨k, vs, rfl, -, rfl⟩ := before_some ho
  rcases List.mem_append.1 ht with ht | ht
  · exact h.toks _ _ rfl t ht
  · exact h'.toks _ _ rfl t ht

theorem Told.next {E : Env} {text o o' tr tr'} (h : Told E text o tr)
    (h' : Told E text o' tr') : Told E text o' (tr ++ tr') :=
  ⟨fun e he => (List.mem_append.1 he).elim (h.errs e) (h'.errs e), h'.toks⟩

theorem told_one {E : Env} {text e x} (hx : Part E.refs x) (h : Blames E text x e) :
    Told E text none [e] :=
  ⟨by simpa using ⟨x, hx, h⟩, by simp⟩

theorem told_named {E : Env} {text prop off len f n x} (hx : Part E.refs x)
    (h : ∀ s, prop = some s → Records E text x ⟨⟨off, len⟩, f s⟩) :
    Told E text (some (n, named prop off len f)) [] := by
  refine ⟨by simp, ?_⟩
  intro m ts ho t ht
  cases ho
  cases prop with
  | none => simp [named] at ht
  | some s => simp [named] at ht; subst ht; exact ⟨x, hx, h s rfl⟩

theorem part_child {refs : List Rule} {c r : Rule} (h : Part refs r) (hc : Child c r) : Part refs c := by
  obtain ⟨q, hq, ho⟩ := h
  exact ⟨q, hq, Occurs.trans (.step .refl hc) ho⟩

theorem part_ref {refs : List Rule} {k : Nat} {r : Rule} (h : refs[k]? = some r) : Part refs r :=
  ⟨r, List.mem_of_getElem? h, .refl⟩

/-- Every error met and every item recorded comes from a rule of the syntax and is true of the
text. -/
theorem run_told {E : Env} (hL : E.L.Lawful) (text : Str) {g p i o j tr} (h : Run E g p i o j tr) :
    Inside text p → GoalPart E.refs g → Told E text o tr := by
  induction h with
  | ws_ok h h0 => intro hp hg; exact ⟨by simp, by intro n ts ho; cases ho; simp⟩
  | ws_fail h =>
    intro hp hg
    refine told_one hg (.whitespace ?_)
    intro c hc
    have := h.2.2 c (by simpa [hp.symm] using hc)
    simpa using this
  | tag_ok h =>
    intro hp hg
    refine told_named hg ?_
    rintro s rfl
    exact .tag (by rw [← hp]; exact h)
  | tag_fail h => intro hp hg; exact told_one hg (.tag (by rw [← hp]; exact h))
  | notTag_ok h =>
    intro hp hg
    refine told_named hg ?_
    rintro s rfl
    exact .notTag (by rw [← hp]; exact h)
  | notTag_fail h => intro hp hg; exact told_one hg (.notTag (by rw [← hp]; exact h))
  | until_ok h h0 =>
    intro hp hg
    refine told_named hg ?_
    rintro s rfl
    rw [hp] at h ⊢
    exact .untilAny h
  | until_fail h =>
    intro hp hg
    refine told_one hg (.untilAny ?_)
    intro c hc
    have := h.2.2 c (by simpa [hp.symm] using hc)
    simpa using this
  | untilWs_ok h h0 =>
    intro hp hg
    refine told_named hg ?_
    rintro s rfl
    rw [hp] at h ⊢
    exact .untilAnyOrWs h
  | untilWs_fail h =>
    intro hp hg
    refine told_one hg (.untilAnyOrWs ?_)
    intro c hc
    have := h.2.2 c (by simpa [hp.symm] using hc)
    by_cases hm : c ∈ ‹List Char›
    · exact .inl hm
    · right
      cases hw : isWs c with
      | true => rfl
      | false => exact absurd ⟨hm, hw⟩ this
  | text_ok h h2 ht =>
    intro hp hg
    refine told_named hg ?_
    rintro s rfl
    rw [hp] at h ht
    exact .text h ht
  | text_none h => intro hp hg; exact told_one hg (.noText (by rw [← hp]; exact h))
  | text_empty h => intro hp hg; exact told_one hg (.emptyText (by rw [← hp]; exact h))
  | text_bad h h2 ht => intro hp hg; rw [hp] at h ht; exact told_one hg (.badText h ht)
  | num_ok h hv =>
    intro hp hg
    refine told_named hg ?_
    rintro s rfl
    rw [hp] at h hv
    exact .number h hv
  | num_none h => intro hp hg; exact told_one hg (.noNumber (by rw [← hp]; exact h))
  | num_bad h hv => intro hp hg; rw [hp] at h hv; exact told_one hg (.badNumber h hv)
  | select_empty => intro hp hg; exact told_one hg .emptySelect
  | select h ih => intro hp hg; exact ih hp fun r hr => part_child hg (.select hr)
  | sel_nil => intro hp hg; exact ⟨by simp, by simp⟩
  | sel_here h ih => intro hp hg; exact ih hp (hg _ (by simp))
  | sel_next h h' ih ih' =>
    intro hp hg
    exact (ih hp (hg _ (by simp))).next (ih' hp fun r hr => hg r (by simp [hr]))
  | fast_end h => intro hp hg; exact told_one hg (.fastEnd (by rw [← hp]; exact h))
  | fast_miss h hb ht => intro hp hg; exact told_one hg (.fastMiss (by rw [← hp]; exact h) hb ht)
  | fast_hit h hb ht hr h' ih =>
    intro hp hg; exact ih hp (part_child hg (.fast (List.mem_of_getElem? hr)))
  | fastTail_miss h hb ht hr h' ih =>
    intro hp hg; exact ih hp (part_child hg (.fast (List.mem_of_getLast? hr)))
  | fastTail_hit h hb ht hr h' ih =>
    intro hp hg; exact ih hp (part_child hg (.fast (List.mem_of_getElem? hr)))
  | fastTail_next h hb ht hr h' hr' h'' ih ih' =>
    intro hp hg
    exact (ih hp (part_child hg (.fast (List.mem_of_getElem? hr)))).next
      (ih' hp (part_child hg (.fast (List.mem_of_getLast? hr'))))
  | sequence h ih => intro hp hg; exact ih hp fun r hr => part_child hg (.sequence hr)
  | seq_nil => intro hp hg; exact ⟨by simp, by intro n ts ho; cases ho; simp⟩
  | seq_fail h ih => intro hp hg; exact ih hp (hg _ (by simp))
  | seq_cons h h' ih ih' =>
    intro hp hg
    exact (ih hp (hg _ (by simp))).append (ih' (inside_adv hp _) fun r hr => hg r (by simp [hr]))
  | repeat_opt h ih => intro hp hg; exact ih hp (part_child hg .repeat_)
  | repeat_fail h ih => intro hp hg; exact ih hp (part_child hg .repeat_)
  | repeat_ok h h' ih ih' =>
    intro hp hg
    exact (ih hp (part_child hg .repeat_)).append (ih' (inside_adv hp _) (part_child hg .repeat_))
  | rep_stop h ih =>
    intro hp hg; exact ⟨(ih hp hg).errs, by intro n ts ho; cases ho; simp⟩
  | rep_more h h' ih ih' => intro hp hg; exact (ih hp hg).append (ih' (inside_adv hp _) hg)
  | sep_none h ih =>
    intro hp hg; exact ⟨(ih hp (part_child hg .item)).errs, by intro n ts ho; cases ho; simp⟩
  | sep_fail h ih => intro hp hg; exact ih hp (part_child hg .item)
  | sep_first h h' ih ih' =>
    intro hp hg
    exact (ih hp (part_child hg .item)).append
      (ih' (inside_adv hp _) ⟨part_child hg .item, part_child hg .sep⟩)
  | sep_stop h ih =>
    intro hp hg; exact ⟨(ih hp hg.2).errs, by intro n ts ho; cases ho; simp⟩
  | sep_trail h h' ih ih' =>
    intro hp hg
    have h1 := ih hp hg.2
    have h2 := ih' (inside_adv hp _) hg.1
    exact ⟨(h1.next h2).errs, h1.toks⟩
  | sep_noTrail h h' ih ih' =>
    intro hp hg
    exact (ih hp hg.2).next (ih' (inside_adv hp _) hg.1)
  | sep_more h h' h'' ih ih' ih'' =>
    intro hp hg
    have h1 := ih hp hg.2
    have h2 := ih' (inside_adv hp _) hg.1
    have h3 := ih'' (inside_adv hp _) hg
    have := h1.append (h2.append h3)
    rename_i o _ _
    cases o with
    | none => simpa [before] using this
    | some x => simpa [before, Nat.add_assoc] using this
  | lines h ih => intro hp hg; exact ih hp hg
  | lines_done h => intro hp hg; exact ⟨by simp, by intro n ts ho; cases ho; simp⟩
  | @lines_fail r ind id first item p i k h =>
    intro hp hg
    refine told_one hg (.newLine ?_)
    have h1 := (hL.line_fail h).2.2.2
    have h2 := inside_adv hp k
    rw [← h2]
    exact h1
  | lines_stop h h' ih =>
    intro hp hg
    exact ⟨(ih (inside_adv hp _) (part_child hg .lines)).errs, by intro n ts ho; cases ho; simp⟩
  | lines_more h h' h'' ih ih' =>
    intro hp hg
    have h1 := ih (inside_adv hp _) (part_child hg .lines)
    have h2 := ih' (inside_adv hp _) hg
    have := h1.append h2
    refine ⟨this.errs, ?_⟩
    intro n ts ho t ht
    obtain ⟨m, us, rfl, -, rfl⟩ := before_some ho
    rcases List.mem_append.1 ht with ht | ht
    · exact h1.toks _ _ rfl t ht
    · exact h2.toks _ _ rfl t ht
  | line_plain h ih => intro hp hg; exact ih hp hg
  | line_shallow h => intro hp hg; exact ⟨by simp, by simp⟩
  | line_deep ha h hd => intro hp hg; exact ⟨by simp, by simp⟩
  | line_body ha h hd hi h' ih =>
    intro hp hg
    have h1 := ih (inside_adv hp _) hg
    refine ⟨h1.errs, ?_⟩
    intro n ts ho t ht
    obtain ⟨m, us, rfl, -, rfl⟩ := before_some ho
    exact h1.toks _ _ rfl t (by simpa using ht)
  | line_align ha h hm hi h' ih =>
    intro hp hg
    have h1 := ih (inside_adv hp _) hg
    refine ⟨h1.errs, ?_⟩
    intro n ts ho t ht
    obtain ⟨m, us, rfl, -, rfl⟩ := before_some ho
    exact h1.toks _ _ rfl t (by simpa using ht)
  | node_unresolved => intro hp hg; exact told_one hg .unresolved
  | node_fail hr h ih => intro hp hg; exact ih hp (part_ref hr)
  | @node_ok name prop ix id p i r n ts j tr hr h ih =>
    intro hp hg
    have h1 := ih hp (part_ref hr)
    refine ⟨h1.errs, ?_⟩
    intro m us ho t ht
    cases ho
    cases prop with
    | none => exact h1.toks _ _ rfl t ht
    | some s =>
      simp only [wrapped, List.cons_append, List.mem_cons, List.mem_append, List.not_mem_nil,
        or_false] at ht
      rcases ht with rfl | ht | rfl
      · exact ⟨_, hg, .startNode⟩
      · exact h1.toks _ _ rfl t ht
      · exact ⟨_, hg, .endNode hr ⟨i, ts, j, tr, by rw [from_inside hp]; exact h⟩⟩
  | optional_none h ih =>
    intro hp hg
    exact ⟨(ih hp (part_child hg .optional)).errs, by intro n ts ho; cases ho; simp⟩
  | optional_some h ih => intro hp hg; exact ih hp (part_child hg .optional)
  | not_ok h ih => intro hp hg; exact ⟨by simp, by intro n ts ho; cases ho; simp⟩
  | @not_fail r id p i n ts j tr h ih =>
    intro hp hg
    have := told_one hg (.not (E := E) (text := text) (id := id) (off := p.off) (n := n)
      ⟨i, ts, j, tr, by rw [from_inside hp]; exact h⟩)
    rwa [← hp] at this

end Verif
