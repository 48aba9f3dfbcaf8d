import Verif.Proofs.Boot
import Verif.Proofs.Emits
import Verif.Proofs.Occurs
import Verif.Spec.Written
/-
The data that the bootstrap rules can yield.
-/
namespace Verif
open Spec

section
variable {refs : List Rule} {d : List MetaData}

theorem emits_ws {o id} : Emits refs (.whitespace o id) d ↔ d = [] :=
  ⟨fun h => by cases h; rfl, fun h => h ▸ .whitespace⟩

theorem emits_tag {t neg inv prop id} :
    Emits refs (.tag t neg inv prop id) d ↔ d = datum prop (.bool · (!inv)) :=
  ⟨fun h => by cases h; rfl, fun h => h ▸ .tag⟩

theorem emits_untilWs {any o prop id} :
    Emits refs (.untilAnyOrWs any o prop id) d ↔ ∃ s, d = datum prop (.string · s) :=
  ⟨fun h => by cases h; exact ⟨_, rfl⟩, fun ⟨s, h⟩ => h ▸ .untilAnyOrWs s⟩

theorem emits_text {e prop id} :
    Emits refs (.text e prop id) d ↔ ∃ s, d = datum prop (.string · s) :=
  ⟨fun h => by cases h; exact ⟨_, rfl⟩, fun ⟨s, h⟩ => h ▸ .text s⟩

theorem emits_number {prop us id} :
    Emits refs (.number prop us id) d ↔ ∃ v, d = datum prop (.f64 · v) :=
  ⟨fun h => by cases h; exact ⟨_, rfl⟩, fun ⟨s, h⟩ => h ▸ .number s⟩

theorem emits_select {args id} : Emits refs (.select args id) d ↔ ∃ r ∈ args, Emits refs r d :=
  ⟨fun h => by cases h with | select hr h => exact ⟨_, hr, h⟩, fun ⟨_, hr, h⟩ => .select hr h⟩

theorem emits_nil {id} : Emits refs (.sequence [] id) d ↔ d = [] :=
  ⟨fun h => by cases h; rfl, fun h => h ▸ .seq_nil⟩

theorem emits_cons {r rs id} : Emits refs (.sequence (r :: rs) id) d ↔
    ∃ a, Emits refs r a ∧ ∃ b, Emits refs (.sequence rs id) b ∧ d = a ++ b :=
  ⟨fun h => by cases h with | seq_cons h h' => exact ⟨_, h, _, h', rfl⟩,
   fun ⟨_, h, _, h', e⟩ => e ▸ .seq_cons h h'⟩

theorem emits_node {name prop ix id r} (hr : refs[ix]? = some r) :
    Emits refs (.node name prop (some ix) id) d ↔ ∃ a, Emits refs r a ∧ d = inNode prop a :=
  ⟨fun h => by
    cases h with
    | node hr' h => rw [hr] at hr'; cases hr'; exact ⟨_, h, rfl⟩,
   fun ⟨_, h, e⟩ => e ▸ .node hr h⟩

theorem emits_optional {r id} : Emits refs (.optional r id) d ↔ d = [] ∨ Emits refs r d := by
  constructor
  · intro h
    cases h with
    | opt_none => exact .inl rfl
    | opt_some h => exact .inr h
  · rintro (rfl | h)
    · exact .opt_none
    · exact .opt_some h

/-- Lines one after the other. -/
theorem emits_lines {r i id} (h : Emits refs (.lines r i id) d) :
    ∃ ds : List (List MetaData), d = ds.flatten ∧ ∀ x ∈ ds, Emits refs r x := by
  generalize e : Rule.lines r i id = q at h
  induction h with
  | lines_nil => exact ⟨[], rfl, by simp⟩
  | lines_cons h h' _ ih =>
    cases e
    obtain ⟨ds, rfl, hds⟩ := ih rfl
    exact ⟨_ :: ds, rfl, by simpa using ⟨h, hds⟩⟩
  | _ => cases e

/-- A list separated by whitespace. -/
theorem emits_sep {r o id o' t id'} (h : Emits refs (.separateBy r (.whitespace o id) o' t id') d) :
    ∃ ds : List (List MetaData), d = ds.flatten ∧ (∀ x ∈ ds, Emits refs r x) ∧ (o' = false → ds ≠ []) := by
  generalize e : Rule.separateBy r (.whitespace o id) o' t id' = q at h
  induction h generalizing o' with
  | sep_none => cases e; exact ⟨[], rfl, by simp, by simp⟩
  | sep_one h => cases e; exact ⟨[_], List.flatten_singleton.symm, by simpa using h, by simp⟩
  | sep_trail h h' => cases e; cases h'; exact ⟨[_], rfl, by simpa using h, by simp⟩
  | sep_more h h' h'' _ _ ih =>
    cases e
    cases h'
    obtain ⟨ds, rfl, hds, _⟩ := ih rfl
    exact ⟨_ :: ds, rfl, by simpa using ⟨h, hds⟩, by simp⟩
  | _ => cases e

/-- No data of its own, and references only to `ks`. -/
def quietHere (ks : List Nat) : Rule → Bool
  | .tag _ _ _ p _ => p.isNone
  | .untilAny _ _ p _ => p.isNone
  | .untilAnyOrWs _ _ p _ => p.isNone
  | .text _ p _ => p.isNone
  | .number p _ _ => p.isNone
  | .node _ p ix _ => p.isNone && (match ix with | none => true | some i => ks.contains i)
  | _ => true

theorem quiet_emits {ks : List Nat}
    (hk : ∀ k ∈ ks, ∀ r, refs[k]? = some r → Rule.all (quietHere ks) r = true) {r}
    (h : Emits refs r d) : Rule.all (quietHere ks) r = true → d = [] := by
  induction h with
  | whitespace => exact fun _ => rfl
  | tag | untilAny | untilAnyOrWs | text | number =>
    intro hq
    simp only [Rule.all, quietHere, Option.isNone_iff_eq_none] at hq
    subst hq
    rfl
  | select hr h ih => exact fun hq => ih (Rule.all_child (.select hr) hq)
  | fastSelect hr h ih => exact fun hq => ih (Rule.all_child (.fast hr) hq)
  | seq_nil => exact fun _ => rfl
  | seq_cons h h' ih ih' =>
    intro hq
    simp only [Rule.all, Rule.allL, quietHere, Bool.and_eq_true, true_and] at hq ih'
    rw [ih hq.1, ih' hq.2]
    rfl
  | rep_nil | sep_none | lines_nil | opt_none | not => exact fun _ => rfl
  | rep_cons h h' ih ih' =>
    intro hq
    simp only [Rule.all, quietHere, Bool.and_eq_true, true_and] at hq ih'
    rw [ih hq, ih' hq]
    rfl
  | sep_one h ih => exact fun hq => ih (Rule.all_child .item hq)
  | sep_trail h h' ih ih' =>
    intro hq
    rw [ih (Rule.all_child .item hq), ih' (Rule.all_child .sep hq)]
    rfl
  | sep_more h h' h'' ih ih' ih'' =>
    intro hq
    rw [ih (Rule.all_child .item hq), ih' (Rule.all_child .sep hq),
      ih'' (by simpa [Rule.all, quietHere] using hq)]
    rfl
  | lines_cons h h' ih ih' =>
    intro hq
    rw [ih (Rule.all_child .lines hq), ih' hq]
    rfl
  | node hr h ih =>
    intro hq
    simp only [Rule.all, quietHere, Bool.and_eq_true, Option.isNone_iff_eq_none,
      List.contains_iff_mem] at hq
    obtain ⟨rfl, hq⟩ := hq
    exact ih (hk _ hq _ hr)
  | opt_some h ih => exact fun hq => ih (Rule.all_child .optional hq)

end

namespace Boot
variable {d : List MetaData}

theorem comment_emits (h : Emits refs comment d) : d = [] := by
  refine quiet_emits (ks := [0, 1]) ?_ h (by decide +kernel)
  intro k hk r hr
  simp only [List.mem_cons, List.not_mem_nil, or_false] at hk
  rcases hk with rfl | rfl <;> cases hr <;> decide +kernel

theorem set_emits (h : Emits refs set d) : ∃ v : SetV, ∀ p, inNode (some p) d = v.data p := by
  simp [set, emits_select, emits_text, emits_cons, emits_nil, emits_tag, emits_untilWs, datum] at h
  rcases h with ⟨s, rfl⟩ | ⟨s, rfl⟩
  · exact ⟨.value s, fun p => rfl⟩
  · exact ⟨.ref s, fun p => rfl⟩

theorem setOpt_emits (h : Emits refs setOpt d) : ∃ v : SetV, ∀ p, inNode (some p) d = v.data p := by
  simp [setOpt, emits_select, emits_text, emits_cons, emits_nil, emits_tag, emits_untilWs, datum] at h
  rcases h with ⟨s, rfl⟩ | ⟨s, rfl⟩
  · exact ⟨.value s, fun p => rfl⟩
  · exact ⟨.ref s, fun p => rfl⟩

theorem opt_emits (h : Emits refs opt d) : ∃ b, d = [.bool c!"optional" b] := by
  simp [opt, emits_select, emits_tag, datum, bsOpt] at h
  rcases h with rfl | rfl
  · exact ⟨true, rfl⟩
  · exact ⟨false, rfl⟩

theorem prop_emits {a b e f : Nat} {name : Str} {t : Str}
    (h : Emits refs (.optional (.sequence [.tag t false false none a,
      .node name (some bsProp) (some 4) b] e) f) d) : ∃ p, d = propData p := by
  rw [emits_optional] at h
  rcases h with rfl | h
  · exact ⟨none, rfl⟩
  · rw [emits_cons] at h
    obtain ⟨a, h1, b, h2, rfl⟩ := h
    rw [emits_cons] at h2
    obtain ⟨c, h2, e, h3, rfl⟩ := h2
    rw [emits_node (r := set) rfl] at h2
    obtain ⟨x, h2, rfl⟩ := h2
    rw [emits_nil] at h3
    rw [emits_tag] at h1
    subst h1 h3
    obtain ⟨v, hv⟩ := set_emits h2
    exact ⟨some v, by simp [datum, hv, propData, bsProp]⟩

/-- A named tag that may be left out. -/
theorem flag_emits {t p : Str} {a b : Nat}
    (h : Emits refs (.optional (.tag t false false (some p) a) b) d) : ∃ o, o ≠ some false ∧ d = flag p o := by
  rw [emits_optional, emits_tag] at h
  rcases h with rfl | rfl
  · exact ⟨none, by simp, rfl⟩
  · exact ⟨some true, by simp, rfl⟩

theorem whitespace_emits (h : Emits refs whitespace d) :
    ∃ s : Desc, s.Written ∧ inNode (some c!"whitespace") d = s.data := by
  simp only [whitespace, emits_cons, emits_tag, emits_nil, emits_node (refs := refs) (ix := 6) (r := opt) rfl] at h
  obtain ⟨_, rfl, _, ⟨_, ⟨_, h, rfl⟩, _, rfl, rfl⟩, rfl⟩ := h
  obtain ⟨b, rfl⟩ := opt_emits h
  exact ⟨.whitespace b, trivial, rfl⟩

theorem untilAnyOrWhitespace_emits (h : Emits refs untilAnyOrWhitespace d) :
    ∃ s : Desc, s.Written ∧ inNode (some c!"until_any_or_whitespace") d = s.data := by
  rw [untilAnyOrWhitespace, emits_cons] at h
  obtain ⟨_, h1, _, h, rfl⟩ := h
  rw [emits_cons] at h
  obtain ⟨_, h2, _, h, rfl⟩ := h
  rw [emits_cons] at h
  obtain ⟨_, h3, _, h, rfl⟩ := h
  rw [emits_cons] at h
  obtain ⟨_, h4, _, h, rfl⟩ := h
  rw [emits_tag] at h1
  rw [emits_node (r := setOpt) rfl] at h2
  rw [emits_node (r := opt) rfl] at h3
  rw [emits_nil] at h
  obtain ⟨_, h2, rfl⟩ := h2
  obtain ⟨_, h3, rfl⟩ := h3
  obtain ⟨v, hv⟩ := setOpt_emits h2
  obtain ⟨b, rfl⟩ := opt_emits h3
  obtain ⟨p, rfl⟩ := prop_emits h4
  subst h1 h
  refine ⟨.untilAnyOrWs v (some b) p, by simp [Desc.Written], ?_⟩
  rw [hv]
  simp [inNode, Desc.data, nodeOf, flag, datum, bsAny]

theorem untilAny_emits (h : Emits refs untilAny d) :
    ∃ s : Desc, s.Written ∧ inNode (some c!"until_any") d = s.data := by
  rw [untilAny, emits_cons] at h
  obtain ⟨_, h1, _, h, rfl⟩ := h
  rw [emits_cons] at h
  obtain ⟨_, h2, _, h, rfl⟩ := h
  rw [emits_cons] at h
  obtain ⟨_, h3, _, h, rfl⟩ := h
  rw [emits_cons] at h
  obtain ⟨_, h4, _, h, rfl⟩ := h
  rw [emits_tag] at h1
  rw [emits_node (r := setOpt) rfl] at h2
  rw [emits_node (r := opt) rfl] at h3
  rw [emits_nil] at h
  obtain ⟨_, h2, rfl⟩ := h2
  obtain ⟨_, h3, rfl⟩ := h3
  obtain ⟨v, hv⟩ := setOpt_emits h2
  obtain ⟨b, rfl⟩ := opt_emits h3
  obtain ⟨p, rfl⟩ := prop_emits h4
  subst h1 h
  refine ⟨.untilAny v (some b) p, by simp [Desc.Written], ?_⟩
  rw [hv]
  simp [inNode, Desc.data, nodeOf, flag, datum, bsAny]

theorem number_emits (h : Emits refs number d) :
    ∃ s : Desc, s.Written ∧ inNode (some c!"number") d = s.data := by
  rw [number, emits_cons] at h
  obtain ⟨_, h1, _, h, rfl⟩ := h
  rw [emits_cons] at h
  obtain ⟨_, h2, _, h, rfl⟩ := h
  rw [emits_cons] at h
  obtain ⟨_, h3, _, h, rfl⟩ := h
  rw [emits_tag] at h1
  rw [emits_nil] at h
  obtain ⟨u, hu, rfl⟩ := flag_emits h2
  obtain ⟨p, rfl⟩ := prop_emits h3
  subst h1 h
  exact ⟨.number u p, by simpa [Desc.Written] using hu, by simp [inNode, Desc.data, nodeOf, datum]⟩

theorem text_emits (h : Emits refs text d) :
    ∃ s : Desc, s.Written ∧ inNode (some c!"text") d = s.data := by
  rw [text, emits_cons] at h
  obtain ⟨_, h1, _, h, rfl⟩ := h
  rw [emits_cons] at h
  obtain ⟨_, h2, _, h, rfl⟩ := h
  rw [emits_cons] at h
  obtain ⟨_, h3, _, h, rfl⟩ := h
  rw [emits_tag] at h1
  rw [emits_nil] at h
  simp [emits_select, emits_tag, datum] at h2
  obtain ⟨p, rfl⟩ := prop_emits h3
  subst h1 h
  rcases h2 with rfl | rfl
  · exact ⟨.text (some true) p, by simp [Desc.Written], by simp [inNode, Desc.data, nodeOf, datum, flag]⟩
  · exact ⟨.text (some false) p, by simp [Desc.Written], by simp [inNode, Desc.data, nodeOf, datum, flag]⟩

theorem reference_emits (h : Emits refs reference d) :
    ∃ s : Desc, s.Written ∧ inNode (some c!"reference") d = s.data := by
  rw [reference, emits_cons] at h
  obtain ⟨_, h1, _, h, rfl⟩ := h
  rw [emits_cons] at h
  obtain ⟨_, h2, _, h, rfl⟩ := h
  rw [emits_cons] at h
  obtain ⟨_, h3, _, h, rfl⟩ := h
  rw [emits_cons] at h
  obtain ⟨_, h4, _, h, rfl⟩ := h
  rw [emits_tag] at h1 h2
  rw [emits_untilWs] at h3
  rw [emits_nil] at h
  obtain ⟨name, rfl⟩ := h3
  obtain ⟨p, rfl⟩ := prop_emits h4
  subst h1 h2 h
  exact ⟨.reference name p, trivial, by simp [inNode, Desc.data, nodeOf, datum]⟩

theorem tag_emits (h : Emits refs tag d) :
    ∃ s : Desc, s.Written ∧ inNode (some c!"tag") d = s.data := by
  rw [tag, emits_cons] at h
  obtain ⟨_, h1, _, h, rfl⟩ := h
  rw [emits_cons] at h
  obtain ⟨_, h2, _, h, rfl⟩ := h
  rw [emits_cons] at h
  obtain ⟨_, h3, _, h, rfl⟩ := h
  rw [emits_node (r := set) rfl] at h2
  rw [emits_nil] at h
  obtain ⟨neg, hn, rfl⟩ := flag_emits h1
  obtain ⟨_, h2, rfl⟩ := h2
  obtain ⟨v, hv⟩ := set_emits h2
  subst h
  rw [emits_optional] at h3
  rcases h3 with rfl | h
  · exact ⟨.tag neg v none none, by simpa [Desc.Written] using hn,
      by rw [hv]; simp [inNode, Desc.data, nodeOf, flag, propData]⟩
  · rw [emits_cons] at h
    obtain ⟨_, h1, _, h, rfl⟩ := h
    rw [emits_cons] at h
    obtain ⟨_, h3, _, h, rfl⟩ := h
    rw [emits_cons] at h
    obtain ⟨_, h4, _, h, rfl⟩ := h
    rw [emits_tag] at h1
    rw [emits_node (r := set) rfl] at h4
    rw [emits_nil] at h
    obtain ⟨inv, hi, rfl⟩ := flag_emits h3
    obtain ⟨_, h4, rfl⟩ := h4
    obtain ⟨p, hp⟩ := set_emits h4
    subst h h1
    refine ⟨.tag neg v inv (some p), by simpa [Desc.Written] using ⟨hn, hi⟩, ?_⟩
    rw [hv, hp]
    simp [inNode, Desc.data, nodeOf, propData, datum, bsProp, bsInv]

/-- What holds of the rules inside. -/
abbrev Inner (n : Nat) : Prop :=
  ∀ e : List MetaData, e.length < n → Emits refs rule e → ∃ s : Desc, s.Written ∧ e = s.data

theorem inNode_length {p e} : (inNode (some p) e).length = e.length + 2 := by simp [inNode]

theorem args_emits {ds : List (List MetaData)} {name : Str} {id : Nat}
    (h : ∀ x ∈ ds, Emits refs (.node name (some c!"rule") (some 21) id) x) (ih : Inner (ds.flatten.length + 1)) :
    ∃ args, Desc.WrittenL args ∧ ds.flatten = Desc.dataL args ∧ (ds ≠ [] → args ≠ []) := by
  induction ds with
  | nil => exact ⟨[], trivial, rfl, by simp⟩
  | cons x xs ihx =>
    obtain ⟨args, h1, h2, _⟩ := ihx (fun y hy => h y (by simp [hy]))
      (fun e he => ih e (by simp at he ⊢; omega))
    have hx := h x (by simp)
    rw [emits_node (r := rule) rfl] at hx
    obtain ⟨e, he, rfl⟩ := hx
    obtain ⟨s, h3, h4⟩ := ih e (by simp [inNode]; omega) he
    refine ⟨s :: args, ⟨h3, h1⟩, ?_, by simp⟩
    rw [List.flatten_cons, h2, h4]
    rfl

theorem sequence_emits (h : Emits refs sequence d) (ih : Inner (d.length + 1)) :
    ∃ s : Desc, s.Written ∧ inNode (some c!"sequence") d = s.data := by
  rw [sequence, emits_cons] at h
  obtain ⟨_, h1, _, h, rfl⟩ := h
  rw [emits_cons] at h
  obtain ⟨_, h2, _, h, rfl⟩ := h
  rw [emits_cons] at h
  obtain ⟨_, h3, _, h, rfl⟩ := h
  rw [emits_cons] at h
  obtain ⟨_, h4, _, h, rfl⟩ := h
  rw [emits_tag] at h1 h4
  rw [emits_ws] at h2
  rw [emits_nil] at h
  subst h1 h2 h4 h
  obtain ⟨ds, rfl, hds, hne⟩ := emits_sep h3
  obtain ⟨args, ha, hb, hc⟩ := args_emits hds (by simpa [datum] using ih)
  exact ⟨.sequence args, ⟨hc (hne rfl), ha⟩, by simp [hb, inNode, Desc.data, nodeOf, datum]⟩

theorem select_emits (h : Emits refs select d) (ih : Inner (d.length + 1)) :
    ∃ s : Desc, s.Written ∧ inNode (some c!"select") d = s.data := by
  rw [select, emits_cons] at h
  obtain ⟨_, h1, _, h, rfl⟩ := h
  rw [emits_cons] at h
  obtain ⟨_, h2, _, h, rfl⟩ := h
  rw [emits_cons] at h
  obtain ⟨_, h3, _, h, rfl⟩ := h
  rw [emits_cons] at h
  obtain ⟨_, h4, _, h, rfl⟩ := h
  rw [emits_tag] at h1 h4
  rw [emits_ws] at h2
  rw [emits_nil] at h
  subst h1 h2 h4 h
  obtain ⟨ds, rfl, hds, hne⟩ := emits_sep h3
  obtain ⟨args, ha, hb, hc⟩ := args_emits hds (by simpa [datum] using ih)
  exact ⟨.select args, ⟨hc (hne rfl), ha⟩, by simp [hb, inNode, Desc.data, nodeOf, datum]⟩

theorem optional_emits (h : Emits refs optional d) (ih : Inner (d.length + 1)) :
    ∃ s : Desc, s.Written ∧ inNode (some c!"optional") d = s.data := by
  simp only [optional, emits_cons, emits_tag, emits_nil, emits_node (refs := refs) (ix := 21) (r := rule) rfl] at h
  obtain ⟨_, rfl, _, ⟨_, ⟨e, h, rfl⟩, _, rfl, rfl⟩, rfl⟩ := h
  obtain ⟨s, hs, rfl⟩ := ih e (by simp [inNode, datum]; omega) h
  exact ⟨.optional s, hs, by simp [inNode, Desc.data, nodeOf, datum]⟩

theorem not_emits (h : Emits refs not_ d) (ih : Inner (d.length + 1)) :
    ∃ s : Desc, s.Written ∧ inNode (some c!"not") d = s.data := by
  simp only [not_, emits_cons, emits_tag, emits_nil, emits_node (refs := refs) (ix := 21) (r := rule) rfl] at h
  obtain ⟨_, rfl, _, ⟨_, ⟨e, h, rfl⟩, _, rfl, rfl⟩, rfl⟩ := h
  obtain ⟨s, hs, rfl⟩ := ih e (by simp [inNode, datum]; omega) h
  exact ⟨.not s, hs, by simp [inNode, Desc.data, nodeOf, datum]⟩

theorem repeat_emits (h : Emits refs repeat_ d) (ih : Inner (d.length + 1)) :
    ∃ s : Desc, s.Written ∧ inNode (some c!"repeat") d = s.data := by
  rw [repeat_, emits_cons] at h
  obtain ⟨_, h1, _, h, rfl⟩ := h
  rw [emits_cons] at h
  obtain ⟨_, h2, _, h, rfl⟩ := h
  rw [emits_cons] at h
  obtain ⟨_, h3, _, h, rfl⟩ := h
  rw [emits_cons] at h
  obtain ⟨_, h4, _, h, rfl⟩ := h
  rw [emits_cons] at h
  obtain ⟨_, h5, _, h, rfl⟩ := h
  rw [emits_tag] at h1 h3 h5
  rw [emits_node (r := opt) rfl] at h2
  rw [emits_node (r := rule) rfl] at h4
  rw [emits_nil] at h
  obtain ⟨_, h2, rfl⟩ := h2
  obtain ⟨e, h4, rfl⟩ := h4
  obtain ⟨b, rfl⟩ := opt_emits h2
  subst h1 h3 h5 h
  obtain ⟨s, hs, rfl⟩ := ih e (by simp [inNode, datum]; omega) h4
  exact ⟨.repeat_ b s, hs, by simp [inNode, Desc.data, nodeOf, datum]⟩

theorem lines_emits (h : Emits refs lines d) (ih : Inner (d.length + 1)) :
    ∃ s : Desc, s.Written ∧ inNode (some c!"lines") d = s.data := by
  rw [lines, emits_cons] at h
  obtain ⟨_, h1, _, h, rfl⟩ := h
  rw [emits_cons] at h
  obtain ⟨_, h2, _, h, rfl⟩ := h
  rw [emits_cons] at h
  obtain ⟨_, h3, _, h, rfl⟩ := h
  rw [emits_cons] at h
  obtain ⟨_, h4, _, h, rfl⟩ := h
  rw [emits_cons] at h
  obtain ⟨_, h5, _, h, rfl⟩ := h
  rw [emits_cons] at h
  obtain ⟨_, h6, _, h, rfl⟩ := h
  rw [emits_cons] at h
  obtain ⟨_, h7, _, h, rfl⟩ := h
  rw [emits_tag] at h1 h3 h7
  rw [emits_ws] at h4 h6
  rw [emits_node (r := rule) rfl] at h5
  rw [emits_nil] at h
  obtain ⟨i, hi, rfl⟩ := flag_emits h2
  obtain ⟨e, h5, rfl⟩ := h5
  subst h1 h3 h4 h6 h7 h
  obtain ⟨s, hs, rfl⟩ := ih e (by simp [inNode, datum]; omega) h5
  exact ⟨.lines i s, ⟨hi, hs⟩, by simp [inNode, Desc.data, nodeOf, datum]⟩

theorem separatedBy_emits (h : Emits refs separatedBy d) (ih : Inner (d.length + 1)) :
    ∃ s : Desc, s.Written ∧ inNode (some c!"separated_by") d = s.data := by
  rw [separatedBy, emits_cons] at h
  obtain ⟨_, h1, _, h, rfl⟩ := h
  rw [emits_cons] at h
  obtain ⟨_, h2, _, h, rfl⟩ := h
  rw [emits_cons] at h
  obtain ⟨_, h3, _, h, rfl⟩ := h
  rw [emits_cons] at h
  obtain ⟨_, h4, _, h, rfl⟩ := h
  rw [emits_cons] at h
  obtain ⟨_, h5, _, h, rfl⟩ := h
  rw [emits_cons] at h
  obtain ⟨_, h6, _, h, rfl⟩ := h
  rw [emits_cons] at h
  obtain ⟨_, h7, _, h, rfl⟩ := h
  rw [emits_cons] at h
  obtain ⟨_, h8, _, h, rfl⟩ := h
  rw [emits_cons] at h
  obtain ⟨_, h9, _, h, rfl⟩ := h
  rw [emits_cons] at h
  obtain ⟨_, h10, _, h, rfl⟩ := h
  rw [emits_tag] at h1 h4 h10
  rw [emits_ws] at h5 h7 h9
  rw [emits_node (r := opt) rfl] at h2
  rw [emits_node (r := rule) rfl] at h6 h8
  rw [emits_nil] at h
  obtain ⟨_, h2, rfl⟩ := h2
  obtain ⟨b, rfl⟩ := opt_emits h2
  obtain ⟨t, ht, rfl⟩ := flag_emits h3
  obtain ⟨e, h6, rfl⟩ := h6
  obtain ⟨f, h8, rfl⟩ := h8
  subst h1 h4 h5 h7 h9 h10 h
  obtain ⟨s, hs, rfl⟩ := ih e (by simp [inNode, datum]; omega) h6
  obtain ⟨s', hs', rfl⟩ := ih f (by simp [inNode, datum]; omega) h8
  exact ⟨.separatedBy (some b) t s s', ⟨by simp, ht, hs, hs'⟩,
    by simp [inNode, Desc.data, nodeOf, datum, flag]⟩

/-- The rule `rule` yields descriptions. -/
theorem rule_emits : ∀ n, Inner n
  | 0 => fun _ h => by omega
  | n + 1 => by
    intro d hn h
    have ih := rule_emits n
    rw [rule, emits_select] at h
    obtain ⟨r, hr, h⟩ := h
    simp only [List.mem_cons, List.not_mem_nil, or_false] at hr
    rcases hr with rfl | rfl | rfl | rfl | rfl | rfl | rfl | rfl | rfl | rfl | rfl | rfl | rfl | rfl
    all_goals
      cases h with
      | node hr h =>
        cases hr
        rw [inNode_length] at hn
        have ih' := fun e he => ih e (Nat.lt_of_lt_of_le he (Nat.le_of_lt_succ (Nat.lt_of_succ_lt hn)))
        first
        | exact whitespace_emits h
        | exact untilAnyOrWhitespace_emits h
        | exact untilAny_emits h
        | exact number_emits h
        | exact text_emits h
        | exact reference_emits h
        | exact tag_emits h
        | exact lines_emits h ih'
        | exact repeat_emits h ih'
        | exact sequence_emits h ih'
        | exact select_emits h ih'
        | exact separatedBy_emits h ih'
        | exact optional_emits h ih'
        | exact not_emits h ih'

theorem string_emits (h : Emits refs string d) :
    ∃ s : Str × Str, inNode (some c!"string") d = nodeOf c!"string" [.string c!"name" s.1, .string c!"text" s.2] := by
  simp only [string, emits_cons, emits_tag, emits_nil, emits_untilWs, emits_ws, emits_text] at h
  obtain ⟨_, rfl, _, ⟨_, ⟨a, rfl⟩, _, ⟨_, rfl, _, ⟨_, rfl, _, ⟨_, ⟨b, rfl⟩, _, rfl, rfl⟩, rfl⟩, rfl⟩, rfl⟩, rfl⟩ := h
  exact ⟨(a, b), rfl⟩

theorem node_emits (h : Emits refs node d) :
    ∃ n : F64 × Str × Desc, n.2.2.Written ∧ inNode (some c!"node") d =
      nodeOf c!"node" (.f64 c!"id" n.1 :: .string c!"name" n.2.1 :: nodeOf c!"rule" n.2.2.data) := by
  rw [node, emits_cons] at h
  obtain ⟨_, h1, _, h, rfl⟩ := h
  rw [emits_cons] at h
  obtain ⟨_, h2, _, h, rfl⟩ := h
  rw [emits_cons] at h
  obtain ⟨_, h3, _, h, rfl⟩ := h
  rw [emits_cons] at h
  obtain ⟨_, h4, _, h, rfl⟩ := h
  rw [emits_cons] at h
  obtain ⟨_, h5, _, h, rfl⟩ := h
  rw [emits_cons] at h
  obtain ⟨_, h6, _, h, rfl⟩ := h
  rw [emits_cons] at h
  obtain ⟨_, h7, _, h, rfl⟩ := h
  rw [emits_cons] at h
  obtain ⟨_, h8, _, h, rfl⟩ := h
  rw [emits_cons] at h
  obtain ⟨_, h9, _, h, rfl⟩ := h
  rw [emits_number] at h1
  rw [emits_ws] at h2 h6 h8
  rw [emits_tag] at h3 h4 h7
  rw [emits_untilWs] at h5
  rw [emits_node (r := rule) rfl] at h9
  rw [emits_nil] at h
  obtain ⟨v, rfl⟩ := h1
  obtain ⟨name, rfl⟩ := h5
  obtain ⟨e, h9, rfl⟩ := h9
  subst h2 h3 h4 h6 h7 h8 h
  obtain ⟨s, hs, rfl⟩ := rule_emits _ e (Nat.lt_succ_self _) h9
  exact ⟨(v, name, s), hs, by simp [inNode, nodeOf, datum]⟩

/-- The last rule yields documents. -/
theorem document_emits (h : Emits refs document d) : ∃ doc : Doc, doc.Written ∧ d = doc.data := by
  rw [document, emits_cons] at h
  obtain ⟨_, h1, _, h, rfl⟩ := h
  rw [emits_cons] at h
  obtain ⟨_, h2, _, h, rfl⟩ := h
  rw [emits_cons] at h
  obtain ⟨_, h3, _, h, rfl⟩ := h
  rw [emits_ws] at h3
  rw [emits_nil] at h
  subst h3 h
  obtain ⟨ds, rfl, hds⟩ := emits_lines h1
  obtain ⟨es, rfl, hes⟩ := emits_lines h2
  have hs : ∃ strings : List (Str × Str), ds.flatten = strings.flatMap fun s =>
      nodeOf c!"string" [.string c!"name" s.1, .string c!"text" s.2] := by
    clear h1 h2
    induction ds with
    | nil => exact ⟨[], rfl⟩
    | cons x xs ih =>
      obtain ⟨strings, h1⟩ := ih fun y hy => hds y (by simp [hy])
      have hx := hds x (by simp)
      simp only [emits_cons, emits_ws, emits_nil, emits_select, List.mem_cons, List.not_mem_nil,
        or_false] at hx
      obtain ⟨_, rfl, _, ⟨_, ⟨r, hr, hx⟩, _, rfl, rfl⟩, rfl⟩ := hx
      rcases hr with rfl | rfl
      · rw [emits_node (r := string) rfl] at hx
        obtain ⟨_, hx, rfl⟩ := hx
        obtain ⟨s, hs⟩ := string_emits hx
        exact ⟨s :: strings, by simp [hs, h1]⟩
      · rw [emits_node (r := comment) rfl] at hx
        obtain ⟨_, hx, rfl⟩ := hx
        exact ⟨strings, by simp [comment_emits hx, h1]⟩
  have hn : ∃ nodes : List (F64 × Str × Desc), (∀ n ∈ nodes, n.2.2.Written) ∧
      es.flatten = nodes.flatMap fun n =>
      nodeOf c!"node" (.f64 c!"id" n.1 :: .string c!"name" n.2.1 :: nodeOf c!"rule" n.2.2.data) := by
    clear h1 h2 hs
    induction es with
    | nil => exact ⟨[], by simp, rfl⟩
    | cons x xs ih =>
      obtain ⟨nodes, h0, h1⟩ := ih fun y hy => hes y (by simp [hy])
      have hx := hes x (by simp)
      simp only [emits_cons, emits_ws, emits_nil, emits_select, List.mem_cons, List.not_mem_nil,
        or_false] at hx
      obtain ⟨_, rfl, _, ⟨_, ⟨r, hr, hx⟩, _, rfl, rfl⟩, rfl⟩ := hx
      rcases hr with rfl | rfl
      · rw [emits_node (r := node) rfl] at hx
        obtain ⟨_, hx, rfl⟩ := hx
        obtain ⟨s, hs, hs'⟩ := node_emits hx
        exact ⟨s :: nodes, List.forall_mem_cons.2 ⟨hs, h0⟩, by simp [hs', h1]⟩
      · rw [emits_node (r := comment) rfl] at hx
        obtain ⟨_, hx, rfl⟩ := hx
        exact ⟨nodes, h0, by simp [comment_emits hx, h1]⟩
  obtain ⟨strings, hs⟩ := hs
  obtain ⟨nodes, hn, hn'⟩ := hn
  exact ⟨⟨strings, nodes⟩, hn, by simp [hs, hn', Doc.data]⟩

end Boot
end Verif
