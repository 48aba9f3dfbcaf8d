import Verif.Proofs.NotationRule
import Verif.Proofs.Took
/-
What the bootstrap rule `rule` reads is in the notation.
-/
namespace Verif
open Spec

namespace Boot

variable {pl : Bool} {E : Env} {cs rest : Str} {ds : List MetaData}

theorem name_took {prop id} (h : Took E (.rule (.untilAnyOrWs bsSeps false (some prop) id)) cs rest ds) :
    IsName cs ∧ NoName rest ∧ ds = [.string prop cs] := by
  obtain ⟨h1, h2, h3, h4⟩ := took_untilWs h
  exact ⟨⟨fun e => by simpa using h3 e, h1⟩, h2, h4⟩

theorem set_took (hL : E.L.Lawful) (hX : E.L.Exact) (h : Took E (.rule set) cs rest ds) :
    ∃ v : SetV, v.Text E.L false cs ∧ (∀ p, nodeOf p ds = v.data p) ∧ Reads E (.rule set) cs rest ds := by
  replace h := took_alt (took_select h)
  rcases h with h | ⟨-, h⟩
  · obtain ⟨s, h1, h2, rfl⟩ := took_text hX h
    exact ⟨.value s, ⟨h1, h2⟩, fun _ => rfl, reads_select (reads_here (isLit_reads h1 h2))⟩
  · replace h := took_alt h
    rcases h with h | ⟨-, h⟩
    · replace h := took_cons (took_sequence h)
      obtain ⟨a, n, d, d', rfl, rfl, h1, h2⟩ := h
      obtain ⟨rfl, rfl⟩ := took_tag h1
      replace h2 := name_took (took_last h2)
      obtain ⟨hn, hr, rfl⟩ := h2
      exact ⟨.ref n, ⟨hn, rfl⟩, fun _ => rfl, reads_select (reads_next (refuses_text hL (by simp)) (reads_here
        (reads_sequence (reads_cons reads_tag (reads_last (name_reads hn hr))))))⟩
    · exact (took_none h).elim

theorem setOpt_took (hX : E.L.Exact) (h : Took E (.rule setOpt) cs rest ds) :
    ∃ v : SetV, v.Text E.L true cs ∧ ∀ p, nodeOf p ds = v.data p := by
  replace h := took_alt (took_select h)
  rcases h with h | ⟨-, h⟩
  · obtain ⟨s, h1, h2, rfl⟩ := took_text hX h
    exact ⟨.value s, ⟨h1, h2⟩, fun _ => rfl⟩
  · replace h := took_alt h
    rcases h with h | ⟨-, h⟩
    · replace h := took_cons (took_sequence h)
      obtain ⟨a, n, d, d', rfl, rfl, h1, h2⟩ := h
      obtain ⟨rfl, rfl⟩ := took_tag h1
      replace h2 := name_took (took_last h2)
      obtain ⟨hn, hr, rfl⟩ := h2
      exact ⟨.ref n, ⟨hn, rfl⟩, fun _ => rfl⟩
    · exact (took_none h).elim

theorem sign_took {prop i j k} (h : Took E (.rule (.select
    [.tag c!"?" false false (some prop) i, .tag c!"!" false true (some prop) j] k)) cs rest ds) :
    ∃ b, cs = [sign b] ∧ ds = [.bool prop b] := by
  replace h := took_alt (took_select h)
  rcases h with h | ⟨-, h⟩
  · obtain ⟨rfl, rfl⟩ := took_tag h
    exact ⟨true, rfl, rfl⟩
  · replace h := took_alt h
    rcases h with h | ⟨-, h⟩
    · obtain ⟨rfl, rfl⟩ := took_tag h
      exact ⟨false, rfl, rfl⟩
    · exact (took_none h).elim

theorem switch_took {c : Char} {prop : Str} {i id}
    (h : Took E (.rule (.optional (.tag [c] false false (some prop) i) id)) cs rest ds) :
    ∃ b, Switch c b cs ∧ ds = flag prop b := by
  replace h := took_optional h
  rcases h with ⟨rfl, rfl⟩ | h
  · exact ⟨none, rfl, rfl⟩
  · obtain ⟨rfl, rfl⟩ := took_tag h
    exact ⟨some true, ⟨rfl, rfl⟩, rfl⟩

theorem prop_took (hE : E.refs = refsOf pl) (hL : E.L.Lawful) (hX : E.L.Exact) {i j k l : Nat}
    (h : Took E (.rule (.optional (.sequence
        [.tag c!":" false false none i, .node c!"set" (some bsProp) (some 4) j] k) l)) cs rest ds) :
    ∃ p, PropText E.L p cs ∧ ds = propData p := by
  replace h := took_optional h
  rcases h with ⟨rfl, rfl⟩ | h
  · exact ⟨none, rfl, rfl⟩
  · replace h := took_cons (took_sequence h)
    obtain ⟨a, b, d, d', rfl, rfl, h1, h2⟩ := h
    obtain ⟨rfl, rfl⟩ := took_tag h1
    replace h2 := took_node (r := set) (by rw [hE]; rfl) (took_last h2)
    obtain ⟨x, rfl, h3⟩ := h2
    obtain ⟨v, hv, e, -⟩ := set_took hL hX h3
    exact ⟨some v, ⟨b, hv, rfl⟩, e _⟩

/-- A token after `!` is read by the alternative for tokens. -/
theorem tag_not_failed (hE : E.refs = refsOf pl) (hL : E.L.Lawful) (h : Reads E (.rule set) cs rest ds) :
    ¬ Failed E (.rule tag) ('!' :: (cs ++ rest)) := by
  intro hf
  rcases failed_cons hL (failed_sequence hf) with hf | ⟨a, b, d, e, ht, hf⟩
  · exact failed_optional hf
  · have hr : Reads E (.rule (.optional (.tag c!"!" false false (some c!"not") 13003) 13002)) ['!'] (cs ++ rest) _ :=
      reads_some reads_tag
    obtain ⟨rfl, rfl, -⟩ := reads_took hr ht e.symm
    rcases failed_cons hL hf with hf | ⟨a, b, d, e, ht, hf⟩
    · exact reads_failed h (failed_node (by rw [hE]; rfl) hf)
    · rcases failed_cons hL hf with hf | ⟨a, b, d, e, ht, hf⟩
      · exact failed_optional hf
      · exact failed_nil hf

/-- What `rule` reads is a rule in the notation. -/
def RuleTook (pl : Bool) (E : Env) (n : Nat) : Prop := ∀ cs rest ds, cs.length < n → Took E (.rule rule) cs rest ds →
  ∃ d : Desc, d.Text E.L cs ∧ (pl = false → d.plain = true) ∧ ds = d.data ∧
    (cs.head? = some '"' ∨ cs.head? = some '_' → ∃ a b x, cs = a ++ b ∧ Reads E (.rule set) a (b ++ rest) x)

theorem tail_took (hE : E.refs = refsOf pl) {n : Nat} (ih : RuleTook pl E n) {i j : Nat} :
    ∀ m cs rest ds, cs.length ≤ m → m < n →
      Took E (.sepTail (.node c!"rule" (some c!"rule") (some 21) i) (.whitespace false j) true) cs rest ds →
      ∃ dl, Desc.TextL E.L dl cs ∧ (pl = false → Desc.plainL dl = true) ∧ ds = Desc.dataL dl ∧ (dl ≠ [] → ∃ c, cs.head? = some c ∧ isWs c = true)
  | 0, cs, rest, ds, hm, hn, h => by
    replace h := took_sepTail h
    rcases h with ⟨rfl, rfl⟩ | h | ⟨a, c, x, d, d', d'', rfl, rfl, h, -, -⟩
    · exact ⟨[], by simp [Desc.TextL, Space], fun _ => rfl, rfl, by simp⟩
    · obtain ⟨h1, -, -, rfl⟩ := took_ws h
      exact ⟨[], h1, fun _ => rfl, rfl, by simp⟩
    · obtain ⟨-, -, h1, -⟩ := took_ws h
      simp at hm
      exact absurd (h1 hm.1) (by simp)
  | m + 1, cs, rest, ds, hm, hn, h => by
    replace h := took_sepTail h
    rcases h with ⟨rfl, rfl⟩ | h | ⟨a, c, x, d, d', d'', rfl, rfl, h, h', h''⟩
    · exact ⟨[], by simp [Desc.TextL, Space], fun _ => rfl, rfl, by simp⟩
    · obtain ⟨h1, -, -, rfl⟩ := took_ws h
      exact ⟨[], h1, fun _ => rfl, rfl, by simp⟩
    · obtain ⟨hw, -, hw0, rfl⟩ := took_ws h
      obtain ⟨w, a, rfl⟩ : ∃ w t, a = w :: t := by
        cases a with
        | nil => exact absurd (hw0 rfl) (by simp)
        | cons w t => exact ⟨w, t, rfl⟩
      simp only [List.cons_append, List.length_cons, List.length_append] at hm
      replace h' := took_node (r := rule) (by rw [hE]; rfl) h'
      obtain ⟨d1, rfl, h'⟩ := h'
      obtain ⟨d, hd, hq, rfl, -⟩ := ih _ _ _ (by omega) h'
      obtain ⟨dl, hdl, hql, rfl, h0⟩ := tail_took hE ih m _ _ _ (by omega) (by omega) h''
      exact ⟨d :: dl, ⟨w :: a, c, x, hw, hd, hdl, h0, rfl⟩, fun e => (by rw [Desc.plainL, hq e, hql e]; rfl), rfl, fun _ => ⟨w, rfl, hw w (by simp)⟩⟩

theorem list_took (hE : E.refs = refsOf pl) {n : Nat} (ih : RuleTook pl E n) {i j k : Nat} (hn : cs.length < n)
    (h : Took E (.rule (.separateBy (.node c!"rule" (some c!"rule") (some 21) i) (.whitespace false j) false true k))
      cs rest ds) {w : Str} (hw : Space w) :
    ∃ dl, dl ≠ [] ∧ Desc.TextL E.L dl (w ++ cs) ∧ (pl = false → Desc.plainL dl = true) ∧ ds = Desc.dataL dl := by
  replace h := took_sep h
  rcases h with ⟨h, -⟩ | ⟨a, c, d, d', rfl, rfl, h, h'⟩
  · cases h
  · simp only [List.length_append] at hn
    replace h := took_node (r := rule) (by rw [hE]; rfl) h
    obtain ⟨d1, rfl, h⟩ := h
    obtain ⟨d, hd, hq, rfl, -⟩ := ih _ _ _ (by omega) h
    obtain ⟨dl, hdl, hql, rfl, h0⟩ := tail_took hE ih _ _ _ _ (Nat.le_refl _) (by omega) h'
    exact ⟨d :: dl, by simp, ⟨w, a, c, hw, hd, hdl, h0, rfl⟩, fun e => (by rw [Desc.plainL, hq e, hql e]; rfl), rfl⟩

theorem rule_took (hE : E.refs = refsOf pl) (hL : E.L.Lawful) (hX : E.L.Exact) : ∀ n, RuleTook pl E n
  | 0, cs, rest, ds, hn, h => absurd hn (by simp)
  | n + 1, cs, rest, ds, hn, h => by
    have ih := rule_took hE hL hX n
    replace h := took_alt (took_select h)
    rcases h with h | ⟨-, h⟩
    · -- whitespace
      replace h := took_node (r := whitespace) (by rw [hE]; rfl) h
      obtain ⟨d, rfl, h⟩ := h
      replace h := took_cons (took_sequence h)
      obtain ⟨a, b, d, d', rfl, rfl, h1, h2⟩ := h
      obtain ⟨rfl, rfl⟩ := took_tag h1
      replace h2 := sign_took (took_nodeNone (r := opt) (by rw [hE]; rfl) (took_last h2))
      obtain ⟨o, rfl, rfl⟩ := h2
      exact ⟨.whitespace o, rfl, fun _ => rfl, rfl, by simp⟩
    replace h := took_alt h
    rcases h with h | ⟨-, h⟩
    · -- until any or whitespace
      replace h := took_node (r := untilAnyOrWhitespace) (by rw [hE]; rfl) h
      obtain ⟨d, rfl, h⟩ := h
      replace h := took_cons (took_sequence h)
      obtain ⟨a, b, d, d', rfl, rfl, h1, h⟩ := h
      obtain ⟨rfl, rfl⟩ := took_tag h1
      replace h := took_cons h
      obtain ⟨a, b, d, d', rfl, rfl, h1, h⟩ := h
      replace h1 := took_node (r := setOpt) (by rw [hE]; rfl) h1
      obtain ⟨x, rfl, h1⟩ := h1
      obtain ⟨v, hv, e⟩ := setOpt_took hX h1
      replace h := took_cons h
      obtain ⟨s, q, d, d', rfl, rfl, h1, h⟩ := h
      replace h1 := sign_took (took_nodeNone (r := opt) (by rw [hE]; rfl) h1)
      obtain ⟨o, rfl, rfl⟩ := h1
      replace h := prop_took hE hL hX (took_last h)
      obtain ⟨p, hp, rfl⟩ := h
      exact ⟨.untilAnyOrWs v (some o) p, ⟨a, o, q, hv, rfl, hp, rfl⟩, fun _ => rfl, by simp [Desc.data, e, flag, bsAny, bsOpt], by simp⟩
    replace h := took_alt h
    rcases h with h | ⟨-, h⟩
    · -- until any
      replace h := took_node (r := untilAny) (by rw [hE]; rfl) h
      obtain ⟨d, rfl, h⟩ := h
      replace h := took_cons (took_sequence h)
      obtain ⟨a, b, d, d', rfl, rfl, h1, h⟩ := h
      obtain ⟨rfl, rfl⟩ := took_tag h1
      replace h := took_cons h
      obtain ⟨a, b, d, d', rfl, rfl, h1, h⟩ := h
      replace h1 := took_node (r := setOpt) (by rw [hE]; rfl) h1
      obtain ⟨x, rfl, h1⟩ := h1
      obtain ⟨v, hv, e⟩ := setOpt_took hX h1
      replace h := took_cons h
      obtain ⟨s, q, d, d', rfl, rfl, h1, h⟩ := h
      replace h1 := sign_took (took_nodeNone (r := opt) (by rw [hE]; rfl) h1)
      obtain ⟨o, rfl, rfl⟩ := h1
      replace h := prop_took hE hL hX (took_last h)
      obtain ⟨p, hp, rfl⟩ := h
      exact ⟨.untilAny v (some o) p, ⟨a, o, q, hv, rfl, hp, rfl⟩, fun _ => rfl, by simp [Desc.data, e, flag, bsAny, bsOpt], by simp⟩
    replace h := took_alt h
    rcases h with h | ⟨-, h⟩
    · -- lines
      cases pl with
      | false =>
        replace h := took_node (r := linesOf false) (by rw [hE]; rfl) h
        obtain ⟨d, rfl, h⟩ := h
        replace h := took_cons (took_sequence h)
        obtain ⟨a, b, d, d', rfl, rfl, h1, h⟩ := h
        obtain ⟨rfl, rfl⟩ := took_tag h1
        replace h := took_cons h
        obtain ⟨v, b, d, d', rfl, rfl, h1, h⟩ := h
        obtain ⟨hv, -, -, rfl⟩ := took_ws h1
        replace h := took_cons h
        obtain ⟨a, b, d, d', rfl, rfl, h1, h⟩ := h
        replace h1 := took_node (r := rule) (by rw [hE]; rfl) h1
        obtain ⟨x, rfl, h1⟩ := h1
        obtain ⟨d, hd, hq, rfl, -⟩ := ih _ _ _ (by simp only [List.length_append, List.length_cons] at hn; omega) h1
        replace h := took_cons h
        obtain ⟨u, b, d, d', rfl, rfl, h1, h⟩ := h
        obtain ⟨hu, -, -, rfl⟩ := took_ws h1
        replace h := took_tag (took_last h)
        obtain ⟨rfl, rfl⟩ := h
        exact ⟨.lines none d, ⟨[], v, a, u, rfl, hv, hd, hu, by simp⟩, hq, by simp [Desc.data, flag], by simp⟩
      | true =>
        replace h := took_node (r := lines) (by rw [hE]; rfl) h
        obtain ⟨d, rfl, h⟩ := h
        replace h := took_cons (took_sequence h)
        obtain ⟨a, b, d, d', rfl, rfl, h1, h⟩ := h
        obtain ⟨rfl, rfl⟩ := took_tag h1
        replace h := took_cons h
        obtain ⟨i, b, d, d', rfl, rfl, h1, h⟩ := h
        obtain ⟨ind, hi, rfl⟩ := switch_took h1
        replace h := took_cons h
        obtain ⟨a, b, d, d', rfl, rfl, h1, h⟩ := h
        obtain ⟨rfl, rfl⟩ := took_tag h1
        replace h := took_cons h
        obtain ⟨v, b, d, d', rfl, rfl, h1, h⟩ := h
        obtain ⟨hv, -, -, rfl⟩ := took_ws h1
        replace h := took_cons h
        obtain ⟨a, b, d, d', rfl, rfl, h1, h⟩ := h
        replace h1 := took_node (r := rule) (by rw [hE]; rfl) h1
        obtain ⟨x, rfl, h1⟩ := h1
        obtain ⟨d, hd, hq, rfl, -⟩ := ih _ _ _ (by simp only [List.length_append, List.length_cons] at hn; omega) h1
        replace h := took_cons h
        obtain ⟨u, b, d, d', rfl, rfl, h1, h⟩ := h
        obtain ⟨hu, -, -, rfl⟩ := took_ws h1
        replace h := took_tag (took_last h)
        obtain ⟨rfl, rfl⟩ := h
        exact ⟨.lines ind d, ⟨i, v, a, u, hi, hv, hd, hu, rfl⟩, by simp, by simp [Desc.data], by simp⟩
    replace h := took_alt h
    rcases h with h | ⟨-, h⟩
    · -- repeat
      replace h := took_node (r := repeat_) (by rw [hE]; rfl) h
      obtain ⟨d, rfl, h⟩ := h
      replace h := took_cons (took_sequence h)
      obtain ⟨a, b, d, d', rfl, rfl, h1, h⟩ := h
      obtain ⟨rfl, rfl⟩ := took_tag h1
      replace h := took_cons h
      obtain ⟨s, b, d, d', rfl, rfl, h1, h⟩ := h
      replace h1 := sign_took (took_nodeNone (r := opt) (by rw [hE]; rfl) h1)
      obtain ⟨o, rfl, rfl⟩ := h1
      replace h := took_cons h
      obtain ⟨a, b, d, d', rfl, rfl, h1, h⟩ := h
      obtain ⟨rfl, rfl⟩ := took_tag h1
      replace h := took_cons h
      obtain ⟨a, b, d, d', rfl, rfl, h1, h⟩ := h
      replace h1 := took_node (r := rule) (by rw [hE]; rfl) h1
      obtain ⟨x, rfl, h1⟩ := h1
      obtain ⟨d, hd, hq, rfl, -⟩ := ih _ _ _ (by simp only [List.length_append, List.length_cons] at hn; omega) h1
      replace h := took_tag (took_last h)
      obtain ⟨rfl, rfl⟩ := h
      exact ⟨.repeat_ o d, ⟨a, hd, rfl⟩, hq, by simp [Desc.data, bsOpt], by simp⟩
    replace h := took_alt h
    rcases h with h | ⟨-, h⟩
    · -- number
      replace h := took_node (r := number) (by rw [hE]; rfl) h
      obtain ⟨d, rfl, h⟩ := h
      replace h := took_cons (took_sequence h)
      obtain ⟨a, b, d, d', rfl, rfl, h1, h⟩ := h
      obtain ⟨rfl, rfl⟩ := took_tag h1
      replace h := took_cons h
      obtain ⟨u, q, d, d', rfl, rfl, h1, h⟩ := h
      obtain ⟨us, hu, rfl⟩ := switch_took h1
      replace h := prop_took hE hL hX (took_last h)
      obtain ⟨p, hp, rfl⟩ := h
      exact ⟨.number us p, ⟨u, q, hu, hp, rfl⟩, fun _ => rfl, by simp [Desc.data], by simp⟩
    replace h := took_alt h
    rcases h with h | ⟨-, h⟩
    · -- text
      replace h := took_node (r := text) (by rw [hE]; rfl) h
      obtain ⟨d, rfl, h⟩ := h
      replace h := took_cons (took_sequence h)
      obtain ⟨a, b, d, d', rfl, rfl, h1, h⟩ := h
      obtain ⟨rfl, rfl⟩ := took_tag h1
      replace h := took_cons h
      obtain ⟨s, q, d, d', rfl, rfl, h1, h⟩ := h
      obtain ⟨o, rfl, rfl⟩ := sign_took h1
      replace h := prop_took hE hL hX (took_last h)
      obtain ⟨p, hp, rfl⟩ := h
      exact ⟨.text (some o) p, ⟨o, q, rfl, hp, rfl⟩, fun _ => rfl, by simp [Desc.data, flag], by simp⟩
    replace h := took_alt h
    rcases h with h | ⟨-, h⟩
    · -- reference
      replace h := took_node (r := reference) (by rw [hE]; rfl) h
      obtain ⟨d, rfl, h⟩ := h
      replace h := took_cons (took_sequence h)
      obtain ⟨a, b, d, d', rfl, rfl, h1, h⟩ := h
      replace h1 := took_notTag h1; obtain ⟨rfl, rfl, h1⟩ := h1
      replace h := took_cons h
      obtain ⟨a, b, d, d', rfl, rfl, h2, h⟩ := h
      obtain ⟨rfl, rfl, -⟩ := took_notTag h2
      replace h := took_cons h
      obtain ⟨name, q, d, d', rfl, rfl, h2, h⟩ := h
      obtain ⟨hname, -, rfl⟩ := name_took h2
      replace h := prop_took hE hL hX (took_last h)
      obtain ⟨p, hp, rfl⟩ := h
      obtain ⟨c, t, rfl, hc⟩ := name_cons hname
      have h0 : c ≠ '_' := by
        rintro rfl
        exact h1 (by simp)
      refine ⟨.reference (c :: t) p, ⟨q, hname, by simpa using h0, hp, rfl⟩, fun _ => rfl, by simp [Desc.data], ?_⟩
      have h3 : c ≠ '"' := nameChar_ne hc (by decide)
      simp [h0, h3]
    replace h := took_alt h
    rcases h with h | ⟨-, h⟩
    · -- sequence
      replace h := took_node (r := sequence) (by rw [hE]; rfl) h
      obtain ⟨d, rfl, h⟩ := h
      replace h := took_cons (took_sequence h)
      obtain ⟨a, b, d, d', rfl, rfl, h1, h⟩ := h
      obtain ⟨rfl, rfl⟩ := took_tag h1
      replace h := took_cons h
      obtain ⟨w, b, d, d', rfl, rfl, h1, h⟩ := h
      obtain ⟨hw, -, -, rfl⟩ := took_ws h1
      replace h := took_cons h
      obtain ⟨a, b, d, d', rfl, rfl, h1, h⟩ := h
      obtain ⟨dl, h0, hd, hq, rfl⟩ := list_took hE ih (by simp only [List.length_append, List.length_cons] at hn; omega) h1 hw
      replace h := took_tag (took_last h)
      obtain ⟨rfl, rfl⟩ := h
      exact ⟨.sequence dl, ⟨h0, _, hd, by simp⟩, hq, by simp [Desc.data], by simp⟩
    replace h := took_alt h
    rcases h with h | ⟨-, h⟩
    · -- select
      replace h := took_node (r := select) (by rw [hE]; rfl) h
      obtain ⟨d, rfl, h⟩ := h
      replace h := took_cons (took_sequence h)
      obtain ⟨a, b, d, d', rfl, rfl, h1, h⟩ := h
      obtain ⟨rfl, rfl⟩ := took_tag h1
      replace h := took_cons h
      obtain ⟨w, b, d, d', rfl, rfl, h1, h⟩ := h
      obtain ⟨hw, -, -, rfl⟩ := took_ws h1
      replace h := took_cons h
      obtain ⟨a, b, d, d', rfl, rfl, h1, h⟩ := h
      obtain ⟨dl, h0, hd, hq, rfl⟩ := list_took hE ih (by simp only [List.length_append, List.length_cons] at hn; omega) h1 hw
      replace h := took_tag (took_last h)
      obtain ⟨rfl, rfl⟩ := h
      exact ⟨.select dl, ⟨h0, _, hd, by simp⟩, hq, by simp [Desc.data], by simp⟩
    replace h := took_alt h
    rcases h with h | ⟨-, h⟩
    · -- separated by
      replace h := took_node (r := separatedBy) (by rw [hE]; rfl) h
      obtain ⟨d, rfl, h⟩ := h
      replace h := took_cons (took_sequence h)
      obtain ⟨a, b, d, d', rfl, rfl, h1, h⟩ := h
      obtain ⟨rfl, rfl⟩ := took_tag h1
      replace h := took_cons h
      obtain ⟨s, b, d, d', rfl, rfl, h1, h⟩ := h
      replace h1 := sign_took (took_nodeNone (r := opt) (by rw [hE]; rfl) h1)
      obtain ⟨o, rfl, rfl⟩ := h1
      replace h := took_cons h
      obtain ⟨i, b, d, d', rfl, rfl, h1, h⟩ := h
      obtain ⟨trail, hi, rfl⟩ := switch_took h1
      replace h := took_cons h
      obtain ⟨a, b, d, d', rfl, rfl, h1, h⟩ := h
      obtain ⟨rfl, rfl⟩ := took_tag h1
      replace h := took_cons h
      obtain ⟨v, b, d, d', rfl, rfl, h1, h⟩ := h
      obtain ⟨hv, -, -, rfl⟩ := took_ws h1
      replace h := took_cons h
      obtain ⟨a, b, d, d', rfl, rfl, h1, h⟩ := h
      replace h1 := took_node (r := rule) (by rw [hE]; rfl) h1
      obtain ⟨x, rfl, h1⟩ := h1
      obtain ⟨d1, hd1, hq1, rfl, -⟩ := ih _ _ _ (by simp only [List.length_append, List.length_cons] at hn; omega) h1
      replace h := took_cons h
      obtain ⟨w, b, d, d', rfl, rfl, h1, h⟩ := h
      obtain ⟨hw, -, hw0, rfl⟩ := took_ws h1
      replace h := took_cons h
      obtain ⟨c, b, d, d', rfl, rfl, h1, h⟩ := h
      replace h1 := took_node (r := rule) (by rw [hE]; rfl) h1
      obtain ⟨x, rfl, h1⟩ := h1
      obtain ⟨d2, hd2, hq2, rfl, -⟩ := ih _ _ _ (by simp only [List.length_append, List.length_cons] at hn; omega) h1
      replace h := took_cons h
      obtain ⟨u, b, d, d', rfl, rfl, h1, h⟩ := h
      obtain ⟨hu, -, -, rfl⟩ := took_ws h1
      replace h := took_tag (took_last h)
      obtain ⟨rfl, rfl⟩ := h
      exact ⟨.separatedBy (some o) trail d1 d2, ⟨o, i, v, a, w, c, u, rfl, hi, hv, hd1, hw, fun e => by simpa using hw0 e,
        hd2, hu, rfl⟩, fun e => (by rw [Desc.plain, hq1 e, hq2 e]; rfl), by simp [Desc.data, flag, bsOpt], by simp⟩
    replace h := took_alt h
    rcases h with h | ⟨hf, h⟩
    · -- tag
      replace h := took_node (r := tag) (by rw [hE]; rfl) h
      obtain ⟨d, rfl, h⟩ := h
      replace h := took_cons (took_sequence h)
      obtain ⟨s, b, d, d', rfl, rfl, h1, h⟩ := h
      obtain ⟨neg, hs, rfl⟩ := switch_took h1
      replace h := took_cons h
      obtain ⟨a, b, d, d', rfl, rfl, h1, h⟩ := h
      replace h1 := took_node (r := set) (by rw [hE]; rfl) h1
      obtain ⟨x, rfl, h1⟩ := h1
      obtain ⟨t, ht, e, hr⟩ := set_took hL hX h1
      have hset : ∀ b', (s ++ (a ++ b')).head? = some '"' ∨ (s ++ (a ++ b')).head? = some '_' → s = [] := by
        intro b' hh
        cases neg with
        | none => exact hs
        | some x => obtain ⟨rfl, rfl⟩ := hs; simp at hh
      replace h := took_optional (took_last h)
      rcases h with ⟨rfl, rfl⟩ | h
      · refine ⟨.tag neg t none none, ⟨s, a, hs, ht, rfl, by simp⟩, fun _ => rfl, by simp [Desc.data, flag, propData, e], fun hh => ?_⟩
        obtain rfl := hset _ hh
        exact ⟨a, [], _, by simp, hr⟩
      · replace h := took_cons (took_sequence h)
        obtain ⟨a', b, d, d', rfl, rfl, h2, h⟩ := h
        obtain ⟨rfl, rfl⟩ := took_tag h2
        replace h := took_cons h
        obtain ⟨i, b, d, d', rfl, rfl, h2, h⟩ := h
        obtain ⟨inv, hi, rfl⟩ := switch_took h2
        replace h := took_node (r := set) (by rw [hE]; rfl) (took_last h)
        obtain ⟨x, rfl, h2⟩ := h
        obtain ⟨v, hv, e', -⟩ := set_took hL hX h2
        refine ⟨.tag neg t inv (some v), ⟨s, a, i, b, hs, ht, hi, hv, rfl⟩, fun _ => rfl,
          by simp [Desc.data, propData, e, e', bsProp, bsInv], fun hh => ?_⟩
        obtain rfl := hset _ hh
        exact ⟨a, _, _, rfl, hr⟩
    replace h := took_alt h
    rcases h with h | ⟨-, h⟩
    · -- optional
      replace h := took_node (r := optional) (by rw [hE]; rfl) h
      obtain ⟨d, rfl, h⟩ := h
      replace h := took_cons (took_sequence h)
      obtain ⟨a, b, d, d', rfl, rfl, h1, h⟩ := h
      obtain ⟨rfl, rfl⟩ := took_tag h1
      replace h := took_node (r := rule) (by rw [hE]; rfl) (took_last h)
      obtain ⟨x, rfl, h1⟩ := h
      obtain ⟨d, hd, hq, rfl, -⟩ := ih _ _ _ (by simp only [List.length_append, List.length_cons] at hn; omega) h1
      exact ⟨.optional d, ⟨b, hd, rfl⟩, hq, by simp [Desc.data], by simp⟩
    replace h := took_alt h
    rcases h with h | ⟨-, h⟩
    · -- not
      replace h := took_node (r := not_) (by rw [hE]; rfl) h
      obtain ⟨d, rfl, h⟩ := h
      replace h := took_cons (took_sequence h)
      obtain ⟨a, b, d, d', rfl, rfl, h1, h⟩ := h
      obtain ⟨rfl, rfl⟩ := took_tag h1
      replace h := took_node (r := rule) (by rw [hE]; rfl) (took_last h)
      obtain ⟨x, rfl, h1⟩ := h
      obtain ⟨d, hd, hq, rfl, hs⟩ := ih _ _ _ (by simp only [List.length_append, List.length_cons] at hn; omega) h1
      have hno : ¬ (b.head? = some '"' ∨ b.head? = some '_') := by
        intro hh
        obtain ⟨a', b', x, rfl, hr⟩ := hs hh
        refine tag_not_failed hE hL hr ?_
        have := failed_node (r := tag) (by rw [hE]; rfl) hf
        simpa using this
      exact ⟨.not d, ⟨b, hd, fun e => hno (.inl e), fun e => hno (.inr e), rfl⟩, hq, by simp [Desc.data], by simp⟩
    exact (took_none h).elim

end Boot
end Verif
