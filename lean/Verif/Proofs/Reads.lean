import Verif.Proofs.RunProps
import Verif.Spec.Notation
/-
Runs that read a known text, or fail on it, whatever the position and the indentation, and without
changing the indentation.
-/
namespace Verif.Boot
open Verif Verif.Spec

/-- Reads `cs` when `rest` follows, with data `ds`. -/
def Reads (E : Env) (g : Goal) (cs rest : Str) (ds : List MetaData) : Prop :=
  ∀ o i, ∃ ts tr, Run E g ⟨cs ++ rest, o⟩ i (some (cs.length, ts)) i tr ∧ ts.map (·.data) = ds

/-- Fails on `cs`. -/
def Refuses (E : Env) (g : Goal) (cs : Str) : Prop :=
  ∀ o i, ∃ tr, Run E g ⟨cs, o⟩ i none i tr

section
variable {E : Env} {cs rest : Str} {ds : List MetaData}

theorem longest_append {P : Char → Prop} (h : ∀ c ∈ cs, P c) (h' : ∀ c, rest.head? = some c → ¬ P c) :
    Longest P (cs ++ rest) cs.length := by
  refine ⟨by simp, ?_, ?_⟩
  · simpa using h
  · simpa using h'

theorem reads_ws {opt id} (h : Space cs) (h' : ∀ c, rest.head? = some c → isWs c = false)
    (h0 : cs = [] → opt = true) : Reads E (.rule (.whitespace opt id)) cs rest [] := fun o i =>
  ⟨[], [], .ws_ok (longest_append h fun c hc => by simp [h' c hc]) (fun e => h0 (List.length_eq_zero_iff.1 e)), rfl⟩

theorem refuses_ws {id} (h : ∀ c, cs.head? = some c → isWs c = false) :
    Refuses E (.rule (.whitespace false id)) cs := fun _ _ =>
  ⟨_, .ws_fail ⟨by simp, by simp, fun c hc => by simp [h c hc]⟩⟩

theorem reads_tag {t inv prop id} : Reads E (.rule (.tag t false inv prop id)) t rest
    (prop.toList.map fun n => .bool n (!inv)) := fun o i =>
  ⟨_, _, .tag_ok (by simp), by cases prop <;> simp [named]⟩

theorem refuses_tag {t inv prop id} (h : ¬ t <+: cs) : Refuses E (.rule (.tag t false inv prop id)) cs :=
  fun _ _ => ⟨_, .tag_fail h⟩

theorem reads_notTag {t inv id} (h : ¬ t <+: rest) : Reads E (.rule (.tag t true inv none id)) [] rest [] :=
  fun o i => ⟨[], _, .notTag_ok h, rfl⟩

theorem refuses_notTag {t inv prop id} (h : t <+: cs) : Refuses E (.rule (.tag t true inv prop id)) cs :=
  fun _ _ => ⟨_, .notTag_fail h⟩

theorem reads_until {any opt id} (h : ∀ c ∈ cs, c ∉ any) (h' : ∀ c, rest.head? = some c → c ∈ any)
    (h0 : cs = [] → opt = true) : Reads E (.rule (.untilAny any opt none id)) cs rest [] := fun o i =>
  ⟨_, _, .until_ok (longest_append h fun c hc => by simp [h' c hc]) (fun e => h0 (List.length_eq_zero_iff.1 e)), by
    simp [named]⟩

theorem reads_untilWs {any opt prop id} (h : ∀ c ∈ cs, c ∉ any ∧ isWs c = false)
    (h' : ∀ c, rest.head? = some c → ¬ (c ∉ any ∧ isWs c = false)) (h0 : cs = [] → opt = true) :
    Reads E (.rule (.untilAnyOrWs any opt (some prop) id)) cs rest [.string prop cs] := fun o i =>
  ⟨_, _, .untilWs_ok (longest_append h h') (fun e => h0 (List.length_eq_zero_iff.1 e)), by simp [named]⟩

theorem refuses_untilWs {any prop id} (h : ∀ c, cs.head? = some c → ¬ (c ∉ any ∧ isWs c = false)) :
    Refuses E (.rule (.untilAnyOrWs any false prop id)) cs := fun _ _ =>
  ⟨_, .untilWs_fail ⟨by simp, by simp, h⟩⟩

theorem refuses_text (hL : E.L.Lawful) {e prop id} (h : cs.head? ≠ some '"') :
    Refuses E (.rule (.text e prop id)) cs := fun _ _ => by
  cases hs : E.L.str cs with
  | none => exact ⟨_, .text_none hs⟩
  | some n => exact absurd (hL.str_some hs).2.2 h

theorem reads_number {us prop id v} (h : E.L.num us (cs ++ rest) = some cs.length)
    (hv : E.L.parseNum us (cs ++ rest) cs.length = .ok v) :
    Reads E (.rule (.number (some prop) us id)) cs rest [.f64 prop v] := fun _ _ =>
  ⟨_, _, .num_ok h hv, by simp [named]⟩

theorem reads_nil : Reads E (.seq []) [] rest [] := fun _ _ => ⟨_, _, .seq_nil, rfl⟩

theorem reads_cons {r rs a b d d'} (h : Reads E (.rule r) a (b ++ rest) d) (h' : Reads E (.seq rs) b rest d') :
    Reads E (.seq (r :: rs)) (a ++ b) rest (d ++ d') := fun o i => by
  obtain ⟨ts, tr, hr, e⟩ := h o i
  obtain ⟨ts', tr', hr', e'⟩ := h' (o + a.length) i
  have : adv ⟨a ++ (b ++ rest), o⟩ a.length = ⟨b ++ rest, o + a.length⟩ := by simp [adv]
  have h := Run.seq_cons hr (o := some (b.length, ts')) (by rw [this]; exact hr')
  exact ⟨ts ++ ts', _, by simpa [before] using h, by simp [e, e']⟩

/-- Any split of the text and of the data. -/
theorem reads_cons' {r rs a b d d'} (hc : cs = a ++ b) (hd : ds = d ++ d')
    (h : Reads E (.rule r) a (b ++ rest) d) (h' : Reads E (.seq rs) b rest d') :
    Reads E (.seq (r :: rs)) cs rest ds := hc ▸ hd ▸ reads_cons h h'

theorem reads_last {r} (h : Reads E (.rule r) cs rest ds) : Reads E (.seq [r]) cs rest ds := by
  have := reads_cons (b := []) (d' := []) (by simpa using h) reads_nil
  simpa using this

/-- One character, then the others. -/
theorem reads_cons1 {r rs c b d d'} (h : Reads E (.rule r) [c] (b ++ rest) d) (h' : Reads E (.seq rs) b rest d') :
    Reads E (.seq (r :: rs)) (c :: b) rest (d ++ d') := reads_cons h h'

/-- Nothing, then the others. -/
theorem reads_consNil {r rs d d'} (h : Reads E (.rule r) [] (cs ++ rest) d) (h' : Reads E (.seq rs) cs rest d') :
    Reads E (.seq (r :: rs)) cs rest (d ++ d') := reads_cons h h'

/-- Nothing is left for the others to read. -/
theorem reads_cons0 {r rs d d'} (h : Reads E (.rule r) cs rest d) (h' : Reads E (.seq rs) [] rest d') :
    Reads E (.seq (r :: rs)) cs rest (d ++ d') := by
  have := reads_cons (b := []) (by simpa using h) h'
  simpa using this

theorem Reads.cast {g ds'} (h : Reads E g cs rest ds) (e : ds = ds') : Reads E g cs rest ds' := e ▸ h

theorem refuses_first {r rs} (h : Refuses E (.rule r) cs) : Refuses E (.seq (r :: rs)) cs := fun o i =>
  let ⟨_, h⟩ := h o i
  ⟨_, .seq_fail h⟩

theorem refuses_later {r rs a b d} (h : Reads E (.rule r) a b d) (h' : Refuses E (.seq rs) b) :
    Refuses E (.seq (r :: rs)) (a ++ b) := fun o i => by
  obtain ⟨ts, tr, hr, e⟩ := h o i
  obtain ⟨tr', hr'⟩ := h' (o + a.length) i
  have : adv ⟨a ++ b, o⟩ a.length = ⟨b, o + a.length⟩ := by simp [adv]
  exact ⟨_, Run.seq_cons hr (o := none) (by rw [this]; exact hr')⟩

theorem refuses_laterNil {r rs d} (h : Reads E (.rule r) [] cs d) (h' : Refuses E (.seq rs) cs) :
    Refuses E (.seq (r :: rs)) cs := refuses_later h h'

theorem refuses_later1 {r rs c b d} (h : Reads E (.rule r) [c] b d) (h' : Refuses E (.seq rs) b) :
    Refuses E (.seq (r :: rs)) (c :: b) := refuses_later h h'

theorem reads_sequence {rs id} (h : Reads E (.seq rs) cs rest ds) : Reads E (.rule (.sequence rs id)) cs rest ds :=
  fun o i => let ⟨ts, tr, h, e⟩ := h o i; ⟨ts, tr, .sequence h, e⟩

theorem refuses_sequence {rs id} (h : Refuses E (.seq rs) cs) : Refuses E (.rule (.sequence rs id)) cs :=
  fun o i => let ⟨tr, h⟩ := h o i; ⟨tr, .sequence h⟩

theorem reads_here {r rs} (h : Reads E (.rule r) cs rest ds) : Reads E (.sel (r :: rs)) cs rest ds :=
  fun o i => let ⟨ts, tr, h, e⟩ := h o i; ⟨ts, tr, .sel_here h, e⟩

theorem reads_next {r rs} (h : Refuses E (.rule r) (cs ++ rest)) (h' : Reads E (.sel rs) cs rest ds) :
    Reads E (.sel (r :: rs)) cs rest ds :=
  fun o i => let ⟨tr, h⟩ := h o i; let ⟨ts, tr', h', e⟩ := h' o i; ⟨ts, tr ++ tr', .sel_next h h', e⟩

theorem reads_select {r rs id} (h : Reads E (.sel (r :: rs)) cs rest ds) :
    Reads E (.rule (.select (r :: rs) id)) cs rest ds :=
  fun o i => let ⟨ts, tr, h, e⟩ := h o i; ⟨ts, tr, .select h, e⟩

theorem refuses_none : Refuses E (.sel []) cs := fun _ _ => ⟨_, .sel_nil⟩

theorem refuses_next {r rs} (h : Refuses E (.rule r) cs) (h' : Refuses E (.sel rs) cs) :
    Refuses E (.sel (r :: rs)) cs :=
  fun o i => let ⟨tr, h⟩ := h o i; let ⟨tr', h'⟩ := h' o i; ⟨tr ++ tr', .sel_next h h'⟩

theorem refuses_select {r rs id} (h : Refuses E (.sel (r :: rs)) cs) : Refuses E (.rule (.select (r :: rs) id)) cs :=
  fun o i => let ⟨tr, h⟩ := h o i; ⟨tr, .select h⟩

theorem reads_node {name p ix id r} (hr : E.refs[ix]? = some r) (h : Reads E (.rule r) cs rest ds) :
    Reads E (.rule (.node name (some p) (some ix) id)) cs rest (nodeOf p ds) := fun o i => by
  obtain ⟨ts, tr, h, e⟩ := h o i
  exact ⟨_, _, .node_ok hr h, by simp [wrapped, nodeOf, e]⟩

theorem reads_nodeNone {name ix id r} (hr : E.refs[ix]? = some r) (h : Reads E (.rule r) cs rest ds) :
    Reads E (.rule (.node name none (some ix) id)) cs rest ds := fun o i => by
  obtain ⟨ts, tr, h, e⟩ := h o i
  exact ⟨_, _, .node_ok hr h, by simp [wrapped, e]⟩

theorem refuses_node {name p ix id r} (hr : E.refs[ix]? = some r) (h : Refuses E (.rule r) cs) :
    Refuses E (.rule (.node name p (some ix) id)) cs := fun o i =>
  let ⟨tr, h⟩ := h o i; ⟨tr, .node_fail hr h⟩

theorem reads_some {r id} (h : Reads E (.rule r) cs rest ds) : Reads E (.rule (.optional r id)) cs rest ds :=
  fun o i => let ⟨ts, tr, h, e⟩ := h o i; ⟨ts, tr, .optional_some h, e⟩

theorem reads_none {r id} (h : Refuses E (.rule r) rest) : Reads E (.rule (.optional r id)) [] rest [] :=
  fun o i => let ⟨tr, h⟩ := h o i; ⟨[], tr, .optional_none h, rfl⟩

theorem reads_repeat {r id} (h : Reads E (.rep r) cs rest ds) : Reads E (.rule (.repeat_ r true id)) cs rest ds :=
  fun o i => let ⟨ts, tr, h, e⟩ := h o i; ⟨ts, tr, .repeat_opt h, e⟩

theorem reads_stop {r} (h : Refuses E (.rule r) rest) : Reads E (.rep r) [] rest [] :=
  fun o i => let ⟨tr, h⟩ := h o i; ⟨[], tr, .rep_stop h, rfl⟩

theorem reads_more {r a b d d'} (h : Reads E (.rule r) a (b ++ rest) d) (h' : Reads E (.rep r) b rest d') :
    Reads E (.rep r) (a ++ b) rest (d ++ d') := fun o i => by
  obtain ⟨ts, tr, hr, e⟩ := h o i
  obtain ⟨ts', tr', hr', e'⟩ := h' (o + a.length) i
  have : adv ⟨a ++ (b ++ rest), o⟩ a.length = ⟨b ++ rest, o + a.length⟩ := by simp [adv]
  have h := Run.rep_more hr (o := some (b.length, ts')) (by rw [this]; exact hr')
  exact ⟨ts ++ ts', _, by simpa [before] using h, by simp [e, e']⟩

theorem reads_sepFirst {r b opt trail id a c d d'} (h : Reads E (.rule r) a (c ++ rest) d)
    (h' : Reads E (.sepTail r b trail) c rest d') :
    Reads E (.rule (.separateBy r b opt trail id)) (a ++ c) rest (d ++ d') := fun o i => by
  obtain ⟨ts, tr, hr, e⟩ := h o i
  obtain ⟨ts', tr', hr', e'⟩ := h' (o + a.length) i
  have : adv ⟨a ++ (c ++ rest), o⟩ a.length = ⟨c ++ rest, o + a.length⟩ := by simp [adv]
  have h := Run.sep_first (opt := opt) (id := id) hr (o := some (c.length, ts')) (by rw [this]; exact hr')
  exact ⟨ts ++ ts', _, by simpa [before] using h, by simp [e, e']⟩

theorem reads_sepStop {r b trail} (h : Refuses E (.rule b) rest) : Reads E (.sepTail r b trail) [] rest [] :=
  fun o i => let ⟨tr, h⟩ := h o i; ⟨[], tr, .sep_stop h, rfl⟩

theorem reads_sepTrail {r b a d} (h : Reads E (.rule b) a rest d) (h' : Refuses E (.rule r) rest) :
    Reads E (.sepTail r b true) a rest d := fun o i => by
  obtain ⟨ts, tr, hr, e⟩ := h o i
  obtain ⟨tr', hr'⟩ := h' (o + a.length) i
  have : adv ⟨a ++ rest, o⟩ a.length = ⟨rest, o + a.length⟩ := by simp [adv]
  exact ⟨ts, _, .sep_trail hr (by rw [this]; exact hr'), e⟩

theorem reads_sepMore {r b trail a c x d d' d''} (h : Reads E (.rule b) a (c ++ (x ++ rest)) d)
    (h' : Reads E (.rule r) c (x ++ rest) d') (h'' : Reads E (.sepTail r b trail) x rest d'') :
    Reads E (.sepTail r b trail) (a ++ (c ++ x)) rest (d ++ (d' ++ d'')) := fun o i => by
  obtain ⟨ts, tr, hr, e⟩ := h o i
  obtain ⟨ts', tr', hr', e'⟩ := h' (o + a.length) i
  obtain ⟨ts'', tr'', hr'', e''⟩ := h'' (o + (a.length + c.length)) i
  have h1 : adv ⟨a ++ (c ++ (x ++ rest)), o⟩ a.length = ⟨c ++ (x ++ rest), o + a.length⟩ := by simp [adv]
  have h2 : adv ⟨a ++ (c ++ (x ++ rest)), o⟩ (a.length + c.length) = ⟨x ++ rest, o + (a.length + c.length)⟩ := by
    have : List.drop (a.length + c.length) (a ++ (c ++ (x ++ rest))) = x ++ rest := by
      rw [← List.append_assoc, ← List.length_append, List.drop_left]
    simp [adv, this]
  have h := Run.sep_more (trail := trail) hr (by rw [h1]; exact hr') (o := some (x.length, ts''))
    (by rw [h2]; exact hr'')
  exact ⟨ts ++ (ts' ++ ts''), _, by simpa [before, Nat.add_assoc] using h, by simp [e, e', e'']⟩

end

end Verif.Boot
