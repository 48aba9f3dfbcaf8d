import Verif.Proofs.Det
import Verif.Proofs.Reads
/-
What a run that succeeded must have read.
-/
namespace Verif.Boot
open Verif Verif.Spec

/-- Once read `cs` when `rest` followed, with data `ds`. -/
def Took (E : Env) (g : Goal) (cs rest : Str) (ds : List MetaData) : Prop :=
  ∃ o i j ts tr, Run E g ⟨cs ++ rest, o⟩ i (some (cs.length, ts)) j tr ∧ ts.map (·.data) = ds

/-- Once failed on `cs`. -/
def Failed (E : Env) (g : Goal) (cs : Str) : Prop := ∃ o i j tr, Run E g ⟨cs, o⟩ i none j tr

section
variable {E : Env} {cs rest : Str} {ds : List MetaData}

theorem reads_took {g a b d} (h : Reads E g a b d) (h' : Took E g cs rest ds) (e : cs ++ rest = a ++ b) :
    cs = a ∧ rest = b ∧ ds = d := by
  obtain ⟨o, i, j, ts, tr, h', rfl⟩ := h'
  obtain ⟨ts', tr', hr, rfl⟩ := h o i
  rw [e] at h'
  obtain ⟨he, -, -⟩ := h'.det hr
  simp only [Option.some.injEq, Prod.mk.injEq] at he
  obtain ⟨h1, h2⟩ := List.append_inj e he.1
  exact ⟨h1, h2, by rw [he.2]⟩

theorem refuses_took {g} (h : Refuses E g (cs ++ rest)) (h' : Took E g cs rest ds) : False := by
  obtain ⟨o, i, j, ts, tr, h', rfl⟩ := h'
  obtain ⟨tr', h⟩ := h o i
  cases (h'.det h).1

theorem reads_failed {g} (h : Reads E g cs rest ds) (h' : Failed E g (cs ++ rest)) : False := by
  obtain ⟨o, i, j, tr, h'⟩ := h'
  obtain ⟨ts, tr', h, -⟩ := h o i
  cases (h'.det h).1

/-- A text read in two parts. -/
theorem took_parts {n m : Nat} (e : cs.length = n + m) :
    ∃ a b, cs = a ++ b ∧ a.length = n ∧ b.length = m ∧
      (∀ o, (⟨cs ++ rest, o⟩ : Pos) = ⟨a ++ (b ++ rest), o⟩) ∧
      ∀ o, adv ⟨cs ++ rest, o⟩ n = ⟨b ++ rest, o + n⟩ := by
  refine ⟨cs.take n, cs.drop n, by simp, by simp; omega, by simp; omega, fun o => ?_, fun o => ?_⟩
  · rw [← List.append_assoc, List.take_append_drop]
  · simp [adv, List.drop_append_of_le_length (show n ≤ cs.length by omega)]

theorem longest_took {P : Char → Prop} {n : Nat} (h : Longest P (cs ++ rest) n) (e : n = cs.length) :
    (∀ c ∈ cs, P c) ∧ ∀ c, rest.head? = some c → ¬ P c := by
  subst e
  obtain ⟨-, h1, h2⟩ := h
  exact ⟨by simpa using h1, by simpa using h2⟩

theorem took_ws {opt id} (h : Took E (.rule (.whitespace opt id)) cs rest ds) :
    Space cs ∧ (∀ c, rest.head? = some c → isWs c = false) ∧ (cs = [] → opt = true) ∧ ds = [] := by
  obtain ⟨o, i, j, ts, tr, h, rfl⟩ := h
  cases h with
  | ws_ok h h0 =>
    obtain ⟨h1, h2⟩ := longest_took h rfl
    exact ⟨h1, fun c hc => by simpa using h2 c hc, fun e => h0 (by simp [e]), rfl⟩

theorem took_tag {t inv prop id} (h : Took E (.rule (.tag t false inv prop id)) cs rest ds) :
    cs = t ∧ ds = prop.toList.map fun n => .bool n (!inv) := by
  obtain ⟨o, i, j, ts, tr, h, rfl⟩ := h
  generalize hx : some (cs.length, ts) = x at h
  cases h with
  | tag_ok h =>
    simp only [Option.some.injEq, Prod.mk.injEq] at hx
    obtain ⟨hl, rfl⟩ := hx
    refine ⟨?_, by cases prop <;> simp [named]⟩
    obtain ⟨s, hs⟩ := h
    exact (List.append_inj hs hl.symm).1.symm
  | tag_fail => cases hx

theorem took_notTag {t inv id} (h : Took E (.rule (.tag t true inv none id)) cs rest ds) :
    cs = [] ∧ ds = [] ∧ ¬ t <+: rest := by
  obtain ⟨o, i, j, ts, tr, h, rfl⟩ := h
  generalize hx : some (cs.length, ts) = x at h
  cases h with
  | notTag_ok h =>
    simp only [Option.some.injEq, Prod.mk.injEq, List.length_eq_zero_iff] at hx
    obtain ⟨rfl, rfl⟩ := hx
    exact ⟨rfl, rfl, h⟩
  | notTag_fail => cases hx

theorem took_until {any opt id} (h : Took E (.rule (.untilAny any opt none id)) cs rest ds) :
    (∀ c ∈ cs, c ∉ any) ∧ (∀ c, rest.head? = some c → c ∈ any) ∧ ds = [] := by
  obtain ⟨o, i, j, ts, tr, h, rfl⟩ := h
  generalize hx : some (cs.length, ts) = x at h
  cases h with
  | until_ok h h0 =>
    cases hx
    obtain ⟨h1, h2⟩ := longest_took h rfl
    exact ⟨h1, fun c hc => by simpa using h2 c hc, by simp [named]⟩
  | until_fail => cases hx

theorem took_untilWs {any opt prop id} (h : Took E (.rule (.untilAnyOrWs any opt (some prop) id)) cs rest ds) :
    (∀ c ∈ cs, c ∉ any ∧ isWs c = false) ∧ (∀ c, rest.head? = some c → ¬ (c ∉ any ∧ isWs c = false)) ∧
      (cs = [] → opt = true) ∧ ds = [.string prop cs] := by
  obtain ⟨o, i, j, ts, tr, h, rfl⟩ := h
  generalize hx : some (cs.length, ts) = x at h
  cases h with
  | @untilWs_ok _ _ _ _ _ _ n h h0 =>
    simp only [Option.some.injEq, Prod.mk.injEq] at hx
    obtain ⟨rfl, rfl⟩ := hx
    obtain ⟨h1, h2⟩ := longest_took h rfl
    exact ⟨h1, h2, fun e => h0 (by simp [e]), by simp [named]⟩
  | untilWs_fail => cases hx

theorem took_text (hX : E.L.Exact) {e prop id} (h : Took E (.rule (.text e (some prop) id)) cs rest ds) :
    ∃ s, IsLit E.L s cs ∧ (cs.length = 2 → e = true) ∧ ds = [.string prop s] := by
  obtain ⟨o, i, j, ts, tr, h, rfl⟩ := h
  generalize hx : some (cs.length, ts) = x at h
  cases h with
  | @text_ok _ _ _ _ _ n t h h2 ht =>
    simp only [Option.some.injEq, Prod.mk.injEq] at hx
    obtain ⟨rfl, rfl⟩ := hx
    refine ⟨t, fun r => ?_, h2, by simp [named]⟩
    have := hX.str_local h r
    rw [ht] at this
    simpa using this
  | text_none => cases hx
  | text_empty => cases hx
  | text_bad => cases hx

theorem took_number {us prop id} (h : Took E (.rule (.number (some prop) us id)) cs rest ds) :
    ∃ v, E.L.num us (cs ++ rest) = some cs.length ∧ E.L.parseNum us (cs ++ rest) cs.length = .ok v ∧
      ds = [.f64 prop v] := by
  obtain ⟨o, i, j, ts, tr, h, rfl⟩ := h
  generalize hx : some (cs.length, ts) = x at h
  cases h with
  | @num_ok _ _ _ _ _ n v h hv =>
    simp only [Option.some.injEq, Prod.mk.injEq] at hx
    obtain ⟨rfl, rfl⟩ := hx
    exact ⟨v, h, hv, by simp [named]⟩
  | num_none => cases hx
  | num_bad => cases hx

theorem took_nil (h : Took E (.seq []) cs rest ds) : cs = [] ∧ ds = [] := by
  obtain ⟨o, i, j, ts, tr, h, rfl⟩ := h
  generalize hx : some (cs.length, ts) = x at h
  cases h with
  | seq_nil =>
    simp only [Option.some.injEq, Prod.mk.injEq, List.length_eq_zero_iff] at hx
    obtain ⟨rfl, rfl⟩ := hx
    exact ⟨rfl, rfl⟩

theorem took_cons {r rs} (h : Took E (.seq (r :: rs)) cs rest ds) :
    ∃ a b d d', cs = a ++ b ∧ ds = d ++ d' ∧ Took E (.rule r) a (b ++ rest) d ∧ Took E (.seq rs) b rest d' := by
  obtain ⟨o, i, j, ts, tr, h, rfl⟩ := h
  generalize hx : some (cs.length, ts) = x at h
  cases h with
  | seq_fail => cases hx
  | seq_cons h h' =>
    obtain ⟨m, us, rfl, e, rfl⟩ := before_some hx.symm
    obtain ⟨a, b, rfl, rfl, rfl, e1, e2⟩ := took_parts (rest := rest) e
    rw [e1] at h
    rw [e2] at h'
    exact ⟨a, b, _, _, rfl, List.map_append, ⟨_, _, _, _, _, h, rfl⟩, ⟨_, _, _, _, _, h', rfl⟩⟩

theorem took_sequence {rs id} (h : Took E (.rule (.sequence rs id)) cs rest ds) : Took E (.seq rs) cs rest ds := by
  obtain ⟨o, i, j, ts, tr, h, rfl⟩ := h
  cases h with
  | sequence h => exact ⟨_, _, _, _, _, h, rfl⟩

theorem took_last {r} (h : Took E (.seq [r]) cs rest ds) : Took E (.rule r) cs rest ds := by
  obtain ⟨a, b, d, d', rfl, rfl, h1, h'⟩ := took_cons h
  obtain ⟨rfl, rfl⟩ := took_nil h'
  simpa using h1

theorem took_select {rs id} (h : Took E (.rule (.select rs id)) cs rest ds) : Took E (.sel rs) cs rest ds := by
  obtain ⟨o, i, j, ts, tr, h, rfl⟩ := h
  cases h with
  | select h => exact ⟨_, _, _, _, _, h, rfl⟩

theorem took_none (h : Took E (.sel []) cs rest ds) : False := by
  obtain ⟨o, i, j, ts, tr, h, rfl⟩ := h
  cases h

theorem took_alt {r rs} (h : Took E (.sel (r :: rs)) cs rest ds) :
    Took E (.rule r) cs rest ds ∨ Failed E (.rule r) (cs ++ rest) ∧ Took E (.sel rs) cs rest ds := by
  obtain ⟨o, i, j, ts, tr, h, rfl⟩ := h
  cases h with
  | sel_here h => exact .inl ⟨_, _, _, _, _, h, rfl⟩
  | sel_next h h' => exact .inr ⟨⟨_, _, _, _, h⟩, _, _, _, _, _, h', rfl⟩

theorem took_node {name p ix id r} (hr : E.refs[ix]? = some r)
    (h : Took E (.rule (.node name (some p) (some ix) id)) cs rest ds) :
    ∃ d, ds = nodeOf p d ∧ Took E (.rule r) cs rest d := by
  obtain ⟨o, i, j, ts, tr, h, rfl⟩ := h
  generalize hx : some (cs.length, ts) = x at h
  cases h with
  | node_fail => cases hx
  | node_ok hr' h =>
    simp only [Option.some.injEq, Prod.mk.injEq] at hx
    obtain ⟨rfl, rfl⟩ := hx
    rw [hr] at hr'
    cases hr'
    exact ⟨_, by simp [wrapped, nodeOf], _, _, _, _, _, h, rfl⟩

theorem took_nodeNone {name ix id r} (hr : E.refs[ix]? = some r)
    (h : Took E (.rule (.node name none (some ix) id)) cs rest ds) : Took E (.rule r) cs rest ds := by
  obtain ⟨o, i, j, ts, tr, h, rfl⟩ := h
  generalize hx : some (cs.length, ts) = x at h
  cases h with
  | node_fail => cases hx
  | node_ok hr' h =>
    simp only [Option.some.injEq, Prod.mk.injEq] at hx
    obtain ⟨rfl, rfl⟩ := hx
    rw [hr] at hr'
    cases hr'
    exact ⟨_, _, _, _, _, h, by simp⟩

theorem failed_node {name p ix id r} (hr : E.refs[ix]? = some r)
    (h : Failed E (.rule (.node name p (some ix) id)) cs) : Failed E (.rule r) cs := by
  obtain ⟨o, i, j, tr, h⟩ := h
  cases h with
  | node_fail hr' h => rw [hr] at hr'; cases hr'; exact ⟨_, _, _, _, h⟩

theorem took_optional {r id} (h : Took E (.rule (.optional r id)) cs rest ds) :
    cs = [] ∧ ds = [] ∨ Took E (.rule r) cs rest ds := by
  obtain ⟨o, i, j, ts, tr, h, rfl⟩ := h
  generalize hx : some (cs.length, ts) = x at h
  cases h with
  | optional_none h =>
    simp only [Option.some.injEq, Prod.mk.injEq, List.length_eq_zero_iff] at hx
    obtain ⟨rfl, rfl⟩ := hx
    exact .inl ⟨rfl, rfl⟩
  | optional_some h => cases hx; exact .inr ⟨_, _, _, _, _, h, rfl⟩

theorem took_sep {r b opt trail id} (h : Took E (.rule (.separateBy r b opt trail id)) cs rest ds) :
    opt = true ∧ cs = [] ∧ ds = [] ∨
    ∃ a c d d', cs = a ++ c ∧ ds = d ++ d' ∧ Took E (.rule r) a (c ++ rest) d ∧
      Took E (.sepTail r b trail) c rest d' := by
  obtain ⟨o, i, j, ts, tr, h, rfl⟩ := h
  generalize hx : some (cs.length, ts) = x at h
  cases h with
  | sep_none h =>
    simp only [Option.some.injEq, Prod.mk.injEq, List.length_eq_zero_iff] at hx
    obtain ⟨rfl, rfl⟩ := hx
    exact .inl ⟨rfl, rfl, rfl⟩
  | sep_fail => cases hx
  | sep_first h h' =>
    obtain ⟨m, us, rfl, e, rfl⟩ := before_some hx.symm
    obtain ⟨a, b, rfl, rfl, rfl, e1, e2⟩ := took_parts (rest := rest) e
    rw [e1] at h
    rw [e2] at h'
    exact .inr ⟨a, b, _, _, rfl, List.map_append, ⟨_, _, _, _, _, h, rfl⟩, ⟨_, _, _, _, _, h', rfl⟩⟩

theorem took_sepTail {r b trail} (h : Took E (.sepTail r b trail) cs rest ds) :
    cs = [] ∧ ds = [] ∨ Took E (.rule b) cs rest ds ∨
    ∃ a c x d d' d'', cs = a ++ (c ++ x) ∧ ds = d ++ (d' ++ d'') ∧ Took E (.rule b) a (c ++ (x ++ rest)) d ∧
      Took E (.rule r) c (x ++ rest) d' ∧ Took E (.sepTail r b trail) x rest d'' := by
  obtain ⟨o, i, j, ts, tr, h, rfl⟩ := h
  generalize hx : some (cs.length, ts) = x at h
  cases h with
  | sep_stop h =>
    simp only [Option.some.injEq, Prod.mk.injEq, List.length_eq_zero_iff] at hx
    obtain ⟨rfl, rfl⟩ := hx
    exact .inl ⟨rfl, rfl⟩
  | sep_trail h h' =>
    simp only [Option.some.injEq, Prod.mk.injEq] at hx
    obtain ⟨rfl, rfl⟩ := hx
    exact .inr (.inl ⟨_, _, _, _, _, h, rfl⟩)
  | sep_noTrail => cases hx
  | sep_more h h' h'' =>
    obtain ⟨m, us, rfl, e, rfl⟩ := before_some hx.symm
    rw [Nat.add_assoc] at e
    obtain ⟨a, c, rfl, rfl, hl, e1, e2⟩ := took_parts (rest := rest) e
    obtain ⟨b, x, rfl, rfl, rfl, e3, e4⟩ := took_parts (rest := rest) hl
    rw [e1, List.append_assoc] at h
    rw [e2, e3] at h'
    rw [← adv_adv, e2, e4] at h''
    exact .inr (.inr ⟨a, b, x, _, _, _, rfl, by simp, ⟨_, _, _, _, _, h, rfl⟩, ⟨_, _, _, _, _, h', rfl⟩,
      ⟨_, _, _, _, _, h'', rfl⟩⟩)

theorem took_lines {r ind id} (h : Took E (.rule (.lines r ind id)) cs rest ds) :
    Took E (.lines r ind id true []) cs rest ds := by
  obtain ⟨o, i, j, ts, tr, h, rfl⟩ := h
  cases h with
  | lines h => exact ⟨_, _, _, _, _, h, rfl⟩

theorem took_linesCase {r id first item} (h : Took E (.lines r false id first item) cs rest ds) :
    (E.L.lineNext first item (cs ++ rest) = .done cs.length ∧ ds = []) ∨
    (E.L.lineNext first item (cs ++ rest) = .call cs.length ∧ ds = [] ∧ Failed E (.rule r) rest) ∨
    ∃ k a u d d', cs = k ++ (a ++ u) ∧ ds = d ++ d' ∧ E.L.lineNext first item (cs ++ rest) = .call k.length ∧
      Took E (.rule r) a (u ++ rest) d ∧ Took E (.lines r false id false a) u rest d' := by
  obtain ⟨o, i, j, ts, tr, h, rfl⟩ := h
  generalize hx : some (cs.length, ts) = x at h
  cases h with
  | lines_done h =>
    simp only [Option.some.injEq, Prod.mk.injEq] at hx
    obtain ⟨rfl, rfl⟩ := hx
    exact .inl ⟨h, rfl⟩
  | lines_fail => cases hx
  | lines_stop h h' =>
    simp only [Option.some.injEq, Prod.mk.injEq] at hx
    obtain ⟨rfl, rfl⟩ := hx
    cases h' with
    | line_plain h' =>
      refine .inr (.inl ⟨h, rfl, ?_⟩)
      have : adv ⟨cs ++ rest, o⟩ cs.length = ⟨rest, o + cs.length⟩ := by simp [adv]
      rw [this] at h'
      exact ⟨_, _, _, _, h'⟩
  | lines_more h h' h'' =>
    obtain ⟨m, us, rfl, e, rfl⟩ := before_some hx.symm
    rw [Nat.add_assoc] at e
    obtain ⟨k, c, rfl, rfl, hl, e1, e2⟩ := took_parts (rest := rest) e
    obtain ⟨a, u, rfl, rfl, rfl, e3, e4⟩ := took_parts (rest := rest) hl
    have e5 : ((k ++ (a ++ u) ++ rest).drop k.length).take a.length = a := by simp
    rw [← adv_adv, e2, e4] at h''
    simp only [e5] at h''
    cases h' with
    | line_plain h' =>
      rw [e2, e3] at h'
      exact .inr (.inr ⟨k, a, u, _, _, rfl, by simp, h, ⟨_, _, _, _, _, h', rfl⟩, ⟨_, _, _, _, _, h'', rfl⟩⟩)

theorem failed_sequence {rs id} (h : Failed E (.rule (.sequence rs id)) cs) : Failed E (.seq rs) cs := by
  obtain ⟨o, i, j, tr, h⟩ := h
  cases h with
  | sequence h => exact ⟨_, _, _, _, h⟩

theorem failed_optional {r id} (h : Failed E (.rule (.optional r id)) cs) : False := by
  obtain ⟨o, i, j, tr, h⟩ := h
  cases h

theorem failed_nil (h : Failed E (.seq []) cs) : False := by
  obtain ⟨o, i, j, tr, h⟩ := h
  cases h

theorem failed_cons (hL : E.L.Lawful) {r rs} (h : Failed E (.seq (r :: rs)) cs) :
    Failed E (.rule r) cs ∨ ∃ a b d, cs = a ++ b ∧ Took E (.rule r) a b d ∧ Failed E (.seq rs) b := by
  obtain ⟨o, i, j, tr, h⟩ := h
  generalize hx : (none : Outcome) = x at h
  cases h with
  | seq_fail h => exact .inl ⟨_, _, _, _, h⟩
  | @seq_cons _ _ _ _ n ts j1 tr1 o1 k tr' h h' =>
    have hn := ((run_bounded hL h).1 _ _ rfl).1
    have h0 := before_eq_none.1 hx.symm
    subst h0
    refine .inr ⟨cs.take n, cs.drop n, _, (List.take_append_drop n cs).symm, ⟨o, i, j1, ts, tr1, ?_, rfl⟩, ⟨_, _, _, _, h'⟩⟩
    rw [List.take_append_drop, List.length_take_of_le hn]
    exact h

end
end Verif.Boot
