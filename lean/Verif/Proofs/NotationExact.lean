import Verif.Proofs.DataInj
import Verif.Proofs.NotationConv
import Verif.Proofs.NotationDoc
/-
What the bootstrap rule `document` reads is a document in the notation.
-/
namespace Verif
open Spec

namespace Boot

variable {pl : Bool} {E : Env} {cs rest : Str} {ds : List MetaData}

/-! ### The last character -/

/-- Ends with a character that is not whitespace. -/
def Ends (cs : Str) : Prop := ∃ t c, cs = t ++ [c] ∧ isWs c = false

theorem ends_one {c : Char} (h : isWs c = false) : Ends [c] := ⟨[], c, rfl, h⟩

theorem Ends.app {a b : Str} (h : Ends b) : Ends (a ++ b) := by
  obtain ⟨t, c, rfl, h⟩ := h
  exact ⟨a ++ t, c, by simp, h⟩

theorem Ends.cons {c : Char} {b : Str} (h : Ends b) : Ends (c :: b) := Ends.app (a := [c]) h

theorem name_ends {n : Str} (h : IsName n) : Ends n := by
  refine ⟨n.dropLast, n.getLast h.1, (List.dropLast_concat_getLast h.1).symm, (h.2 _ (List.getLast_mem h.1)).2⟩

theorem lit_ends {L : Lexer} (hX : L.Exact) {s : Str} (h : IsLit L s cs) : Ends cs := by
  have := hX.str_last (h []).1
  simp only [List.append_nil, List.take_length] at this
  obtain ⟨t, rfl⟩ := List.getLast?_eq_some_iff.1 this
  exact ⟨t, '"', rfl, by decide⟩

theorem set_ends {L : Lexer} (hX : L.Exact) {v : SetV} {e : Bool} (h : v.Text L e cs) : Ends cs := by
  cases v with
  | value s => exact lit_ends hX h.1
  | ref n => obtain ⟨hn, rfl⟩ := h; exact (name_ends hn).cons

theorem prop_ends {L : Lexer} (hX : L.Exact) {p : Option SetV} {a : Str} (h : PropText L p cs) (ha : Ends a) :
    Ends (a ++ cs) := by
  cases p with
  | none => cases h; simpa using ha
  | some v => obtain ⟨b, hb, rfl⟩ := h; exact (set_ends hX hb).cons.app

theorem sign_ends (b : Bool) : Ends [sign b] := by
  cases b <;> exact ends_one (by decide)

theorem desc_ends {L : Lexer} (hX : L.Exact) : (d : Desc) → (cs : Str) → d.Text L cs → Ends cs
  | .whitespace o, cs, h => by cases h; exact Ends.app (a := c!".w") (sign_ends o)
  | .untilAnyOrWs any o p, cs, h => by
    obtain ⟨a, b, q, -, -, hq, rfl⟩ := h
    exact Ends.app (Ends.app (prop_ends hX hq (sign_ends b)))
  | .untilAny any o p, cs, h => by
    obtain ⟨a, b, q, -, -, hq, rfl⟩ := h
    exact Ends.app (Ends.app (prop_ends hX hq (sign_ends b)))
  | .tag neg t inv none, cs, h => by
    obtain ⟨n, a, -, ha, -, rfl⟩ := h
    exact Ends.app (set_ends hX ha)
  | .tag neg t inv (some v), cs, h => by
    obtain ⟨n, a, i, b, -, -, -, hb, rfl⟩ := h
    exact Ends.app (Ends.app (Ends.cons (Ends.app (set_ends hX hb))))
  | .text e p, cs, h => by
    obtain ⟨b, q, -, hq, rfl⟩ := h
    exact Ends.app (prop_ends hX hq (sign_ends b))
  | .number u p, cs, h => by
    obtain ⟨n, q, hn, hq, rfl⟩ := h
    rw [← List.append_assoc]
    refine prop_ends hX hq ?_
    cases u with
    | none => cases hn; exact ⟨c!".", '$', rfl, by decide⟩
    | some b => obtain ⟨-, rfl⟩ := hn; exact ⟨c!".$", '_', rfl, by decide⟩
  | .reference name p, cs, h => by
    obtain ⟨q, hn, -, hq, rfl⟩ := h
    exact prop_ends hX hq (name_ends hn)
  | .sequence args, cs, h => by
    obtain ⟨-, a, -, rfl⟩ := h
    exact Ends.cons (Ends.app (ends_one (by decide)))
  | .select args, cs, h => by
    obtain ⟨-, a, -, rfl⟩ := h
    exact Ends.cons (Ends.app (ends_one (by decide)))
  | .optional d, cs, h => by
    obtain ⟨a, ha, rfl⟩ := h
    exact (desc_ends hX d a ha).cons
  | .not d, cs, h => by
    obtain ⟨a, ha, -, -, rfl⟩ := h
    exact (desc_ends hX d a ha).cons
  | .separatedBy o t b d, cs, h => by
    obtain ⟨s, n, v, a, w, c, u, -, -, -, -, -, -, -, -, rfl⟩ := h
    have h0 : Ends [')'] := ends_one (by decide)
    exact Ends.app (Ends.cons (Ends.app (Ends.cons (Ends.app (Ends.app (Ends.app (Ends.app h0.app)))))))
  | .lines i d, cs, h => by
    obtain ⟨n, v, a, u, -, -, -, -, rfl⟩ := h
    have h0 : Ends [')'] := ends_one (by decide)
    exact Ends.app (Ends.app (Ends.cons (Ends.app (Ends.app h0.app))))
  | .repeat_ o d, cs, h => by
    obtain ⟨a, -, rfl⟩ := h
    have h0 : Ends [')'] := ends_one (by decide)
    exact Ends.app (Ends.cons (Ends.cons h0.app))

/-- The text does not end with whitespace in which there is a new line. -/
def NoTrail (item : Str) : Prop := ∀ x w, item = x ++ '\n' :: w → ¬ ∀ c ∈ w, isWs c = true

theorem ends_noTrail (h : Ends cs) : NoTrail cs := by
  obtain ⟨t, c, rfl, hc⟩ := h
  intro x w e hw
  have h1 : (t ++ [c]).getLast? = ('\n' :: w).getLast? := by
    rw [e, List.getLast?_append, List.getLast?_eq_some_getLast (by simp : '\n' :: w ≠ [])]; rfl
  have h2 : c ∈ '\n' :: w := List.mem_of_getLast? (by rw [← h1]; simp)
  rcases List.mem_cons.1 h2 with rfl | h2
  · cases hc
  · rw [hw c h2] at hc; cases hc

theorem entry_noTrail {L : Lexer} (hX : L.Exact) {e : Entry} {w a : Str} (h : e.Text L a rest) :
    NoTrail (w ++ a) := by
  cases e with
  | comment =>
    cases h with
    | @block b => exact ends_noTrail (Ends.app (Ends.cons (Ends.cons (Ends.app (Ends.cons (ends_one (by decide)))))))
    | @line b _ h hr =>
      intro x y e hy
      rcases List.append_eq_append_iff.1 e with ⟨z, rfl, hz⟩ | ⟨z, rfl, hz⟩
      · have : '\n' ∈ '/' :: '/' :: b := by rw [hz]; simp
        simp at this
        exact h this
      · have : '/' ∈ '\n' :: y := by rw [hz]; simp
        simp at this
        have := hy _ this
        exact absurd this (by decide)
  | string name t =>
    obtain ⟨v, a, -, -, ha, rfl⟩ := h
    exact ends_noTrail (Ends.app (Ends.cons (Ends.app (Ends.cons (Ends.app (lit_ends hX ha))))))
  | node k name d =>
    obtain ⟨n, v, y, x, a, -, -, -, -, -, -, -, -, ha, rfl⟩ := h
    exact ends_noTrail (Ends.app (Ends.app (Ends.app (Ends.app (Ends.app (Ends.cons (Ends.app (desc_ends hX d a ha))))))))

/-! ### Comments -/

/-- Every text begins with the body of a comment. -/
theorem body_total : ∀ n (s : Str), s.length < n → ∃ b r, s = b ++ r ∧ CommentBody b r ∧ Closed r
  | 0, s, h => absurd h (by simp)
  | n + 1, [], _ => ⟨[], [], rfl, .nil, .inl rfl⟩
  | n + 1, c :: s, h => by
    simp only [List.length_cons] at h
    obtain ⟨b, r, e, hb, hr⟩ := body_total n s (by omega)
    by_cases h1 : c = '*'
    · subst h1
      by_cases h2 : s.head? = some '/'
      · cases s with
        | nil => cases h2
        | cons x t => cases h2; exact ⟨[], _, rfl, .nil, .inr ⟨t, rfl⟩⟩
      · exact ⟨'*' :: b, r, by simp [e], .star (by rwa [← e]) hb, hr⟩
    · by_cases h2 : c = '/'
      · subst h2
        by_cases h3 : s.head? = some '*'
        · cases s with
          | nil => cases h3
          | cons x t =>
            cases h3
            obtain ⟨b', r', e', hb', hr'⟩ := body_total n t (by simp only [List.length_cons] at h; omega)
            rcases hr' with rfl | ⟨u, rfl⟩
            · rw [List.append_nil] at e'
              subst e'
              exact ⟨'/' :: b, r, by simp [e], .unclosed (t := t) e.symm hb' hb, hr⟩
            · obtain ⟨b2, r2, e2, hb2, hr2⟩ := body_total n u (by
                rw [e'] at h; simp only [List.length_cons, List.length_append] at h; omega)
              subst e2
              exact ⟨_, r2, by rw [e']; simp, .nested hb' hb2, hr2⟩
        · exact ⟨'/' :: b, r, by simp [e], .slash (by rwa [← e]) hb, hr⟩
      · exact ⟨c :: b, r, by simp [e], .plain h1 h2 hb, hr⟩

theorem multiLine_took (hE : E.refs = refsOf pl) (h : Took E (.rule multiLineComment) cs rest ds) :
    IsComment cs rest ∧ ds = [] := by
  obtain ⟨a, s, d, d', e1, -, h1, -⟩ := took_cons (took_sequence h)
  obtain ⟨rfl, -⟩ := took_tag h1
  obtain ⟨b, r, e2, hb, hr⟩ := body_total _ (s ++ rest) (Nat.lt_succ_self _)
  obtain ⟨p, b', rfl, hp, hs, hb'⟩ := body_reads hE hb hr
  have e3 : cs ++ rest = '/' :: '*' :: (p ++ (b' ++ r)) := by rw [e1, List.append_assoc, e2]; simp
  rcases hr with rfl | ⟨t, rfl⟩
  · exact (refuses_took (by rw [e3]; simpa using unclosed_refuses hp hs hb') h).elim
  · obtain ⟨rfl, rfl, rfl⟩ := reads_took (nested_reads hp hs hb') h (by rw [e3]; simp)
    have := IsComment.block hb
    exact ⟨by simpa using this, rfl⟩

theorem comment_took (hE : E.refs = refsOf pl) (h : Took E (.rule comment) cs rest ds) : IsComment cs rest ∧ ds = [] := by
  rcases took_alt (took_select h) with h | ⟨-, h⟩
  · exact multiLine_took hE (took_nodeNone (by rw [hE]; rfl) h)
  · rcases took_alt h with h | ⟨-, h⟩
    · obtain ⟨a, b, d, d', rfl, rfl, h1, h2⟩ := took_cons (took_sequence h)
      obtain ⟨rfl, rfl⟩ := took_tag h1
      obtain ⟨h3, h4, rfl⟩ := took_until (took_last h2)
      refine ⟨.line (fun hc => h3 _ hc (by simp)) ?_, rfl⟩
      cases rest with
      | nil => exact .inl rfl
      | cons x t => have := h4 x rfl; simp at this; subst this; exact .inr rfl
    · exact (took_none h).elim

/-! ### Entries -/

theorem string_took (hX : E.L.Exact) (h : Took E (.rule string) cs rest ds) :
    ∃ name t, (Entry.string name t).Text E.L cs rest ∧ ds = [.string c!"name" name, .string c!"text" t] := by
  replace h := took_cons (took_sequence h)
  obtain ⟨a, b, d, d', rfl, rfl, h1, h⟩ := h
  obtain ⟨rfl, rfl⟩ := took_tag h1
  replace h := took_cons h
  obtain ⟨name, b, d, d', rfl, rfl, h1, h⟩ := h
  obtain ⟨hn, -, rfl⟩ := name_took h1
  replace h := took_cons h
  obtain ⟨a, b, d, d', rfl, rfl, h1, h⟩ := h
  obtain ⟨rfl, rfl⟩ := took_tag h1
  replace h := took_cons h
  obtain ⟨w, b, d, d', rfl, rfl, h1, h⟩ := h
  obtain ⟨hw, -, -, rfl⟩ := took_ws h1
  obtain ⟨t, ht, -, rfl⟩ := took_text hX (took_last h)
  exact ⟨name, t, ⟨w, b, hn, hw, ht, rfl⟩, rfl⟩

theorem node_took (hE : E.refs = refsOf pl) (hL : E.L.Lawful) (hX : E.L.Exact) (h : Took E (.rule node) cs rest ds) :
    ∃ k name d, (Entry.node k name d).Text E.L cs rest ∧ (pl = false → d.plain = true) ∧
      ds = .f64 c!"id" k :: .string c!"name" name :: nodeOf c!"rule" d.data := by
  replace h := took_cons (took_sequence h)
  obtain ⟨n, b, d, d', rfl, rfl, h1, h⟩ := h
  obtain ⟨k, hk, hk', rfl⟩ := took_number h1
  replace h := took_cons h
  obtain ⟨v, b, d, d', rfl, rfl, h1, h⟩ := h
  obtain ⟨hv, -, hv0, rfl⟩ := took_ws h1
  replace h := took_cons h
  obtain ⟨a, b, d, d', rfl, rfl, h1, h⟩ := h
  replace h1 := took_notTag h1
  obtain ⟨rfl, rfl, h0⟩ := h1
  replace h := took_cons h
  obtain ⟨a, b, d, d', rfl, rfl, h1, h⟩ := h
  replace h1 := took_notTag h1
  obtain ⟨rfl, rfl, -⟩ := h1
  replace h := took_cons h
  obtain ⟨name, b, d, d', rfl, rfl, h1, h⟩ := h
  obtain ⟨hn, hname, rfl⟩ := name_took h1
  replace h := took_cons h
  obtain ⟨w, b, d, d', rfl, rfl, h1, h⟩ := h
  obtain ⟨hw, -, -, rfl⟩ := took_ws h1
  replace h := took_cons h
  obtain ⟨a, b, d, d', rfl, rfl, h1, h⟩ := h
  obtain ⟨rfl, rfl⟩ := took_tag h1
  replace h := took_cons h
  obtain ⟨x, a, d, d', rfl, rfl, h1, h⟩ := h
  obtain ⟨hx, -, -, rfl⟩ := took_ws h1
  replace h := took_node (r := rule) (by rw [hE]; rfl) (took_last h)
  obtain ⟨y, rfl, h⟩ := h
  obtain ⟨d, hd, hq, rfl, -⟩ := rule_took hE hL hX _ _ _ _ (Nat.lt_succ_self _) h
  refine ⟨k, name, d, ⟨n, v, w, x, a, ⟨?_, by simpa using hk, by simpa using hk'⟩, hv, fun e => by simpa using hv0 e,
    hn, ?_, hw, ?_, hx, hd, by simp⟩, hq, by simp⟩
  · intro c hc
    cases n with
    | nil => cases hc
    | cons x t => cases hc; exact hX.num_head hk
  · intro hh
    cases name with
    | nil => cases hh
    | cons x t => cases hh; exact h0 (by simp)
  · rintro rfl
    exact hname '=' rfl ⟨by decide, by decide⟩

theorem item1_took (hE : E.refs = refsOf pl) (hX : E.L.Exact) (h : Took E (.rule item1) cs rest ds) :
    ∃ w a e, cs = w ++ a ∧ Space w ∧ Entry.Text E.L e a rest ∧ e.isNode = false ∧ ds = stringData (stringsIn [e]) := by
  replace h := took_cons (took_sequence h)
  obtain ⟨w, a, d, d', rfl, rfl, h1, h⟩ := h
  obtain ⟨hw, -, -, rfl⟩ := took_ws h1
  replace h := took_alt (took_select (took_last h))
  rcases h with h | ⟨-, h⟩
  · replace h := took_node (r := string) (by rw [hE]; rfl) h
    obtain ⟨x, rfl, h⟩ := h
    obtain ⟨name, t, ht, rfl⟩ := string_took hX h
    exact ⟨w, a, _, rfl, hw, ht, rfl, by simp [stringsIn]⟩
  · rcases took_alt h with h | ⟨-, h⟩
    · obtain ⟨hc, rfl⟩ := comment_took hE (took_nodeNone (r := comment) (by rw [hE]; rfl) h)
      exact ⟨w, a, .comment, rfl, hw, hc, rfl, rfl⟩
    · exact (took_none h).elim

theorem item2_took (hE : E.refs = refsOf pl) (hL : E.L.Lawful) (hX : E.L.Exact) (h : Took E (.rule item2) cs rest ds) :
    ∃ w a e, cs = w ++ a ∧ Space w ∧ Entry.Text E.L e a rest ∧ e.isString = false ∧ (pl = false → e.plain = true) ∧ ds = nodeData (nodesIn [e]) := by
  replace h := took_cons (took_sequence h)
  obtain ⟨w, a, d, d', rfl, rfl, h1, h⟩ := h
  obtain ⟨hw, -, -, rfl⟩ := took_ws h1
  replace h := took_alt (took_select (took_last h))
  rcases h with h | ⟨-, h⟩
  · replace h := took_node (r := node) (by rw [hE]; rfl) h
    obtain ⟨x, rfl, h⟩ := h
    obtain ⟨k, name, d, ht, hq, rfl⟩ := node_took hE hL hX h
    exact ⟨w, a, _, rfl, hw, ht, rfl, hq, by simp [nodesIn]⟩
  · rcases took_alt h with h | ⟨-, h⟩
    · obtain ⟨hc, rfl⟩ := comment_took hE (took_nodeNone (r := comment) (by rw [hE]; rfl) h)
      exact ⟨w, a, .comment, rfl, hw, hc, rfl, fun _ => rfl, rfl⟩
    · exact (took_none h).elim

/-- What is skipped before a line. -/
theorem call_space {L : Lexer} (hL : L.Lawful) (hX : L.Exact) {first : Bool} {item k s : Str}
    (hi : first = false → NoTrail item) (h : L.lineNext first item (k ++ s) = .call k.length) :
    Space k ∧ (first = false → '\n' ∈ k) ∧ NonBlankLine s := by
  obtain ⟨-, h1, -, h2, -⟩ := hL.line_call h
  simp only [List.take_left, List.drop_left] at h1 h2
  refine ⟨h1, fun hf => ?_, h2⟩
  subst hf
  rcases hX.line_newline h with h3 | ⟨x, w, e, hw⟩
  · simpa using h3
  · exact absurd hw (hi rfl x w e)

/-- Whitespace before the entries. -/
theorem entries_before {L : Lexer} {k s : Str} {first : Bool} (hk : Space k) (hn : first = false → '\n' ∈ k)
    {es : List Entry} (h : EntriesText L true es s) : EntriesText L first es (k ++ s) := by
  cases es with
  | nil =>
    intro c hc
    rcases List.mem_append.1 hc with hc | hc
    · exact hk c hc
    · exact h c hc
  | cons e es =>
    obtain ⟨w, a, u, hw, -, ha, hu, rfl⟩ := h
    refine ⟨k ++ w, a, u, ?_, fun hf => List.mem_append_left _ (hn hf), ha, hu, by simp⟩
    intro c hc
    rcases List.mem_append.1 hc with hc | hc
    · exact hk c hc
    · exact hw c hc

theorem space_app {a b : Str} (ha : Space a) (hb : Space b) : Space (a ++ b) := by
  intro c hc
  rcases List.mem_append.1 hc with hc | hc
  · exact ha c hc
  · exact hb c hc

theorem block1_took (hE : E.refs = refsOf pl) (hL : E.L.Lawful) (hX : E.L.Exact) {id : DebugId} :
    ∀ n first item cs rest ds, cs.length < n → (first = false → NoTrail item) →
      Took E (.lines item1 false id first item) cs rest ds →
      ∃ es, (∀ e ∈ es, Entry.isNode e = false) ∧ ds = stringData (stringsIn es) ∧
        ∀ es', EntriesText E.L true es' rest → EntriesText E.L first (es ++ es') (cs ++ rest)
  | 0, first, item, cs, rest, ds, hn, _, _ => absurd hn (by simp)
  | n + 1, first, item, cs, rest, ds, hn, hi, h => by
    replace h := took_linesCase h
    rcases h with ⟨h, rfl⟩ | ⟨h, rfl, -⟩ | ⟨k, a, u, d, d', rfl, rfl, h, h1, h2⟩
    · refine ⟨[], by simp, rfl, fun es' he => ?_⟩
      obtain ⟨h1, h2⟩ := hL.line_done h
      have : rest = [] := by
        have := h1
        simp at this
        exact this
      subst this
      cases es' with
      | nil => exact h2
      | cons e es' =>
        obtain ⟨w, a, u, -, -, ha, -, e0⟩ := he
        obtain ⟨c, t, rfl, -⟩ := entry_head hL ha
        simp at e0
    · obtain ⟨h1, h2, -⟩ := call_space hL hX hi h
      exact ⟨[], by simp, rfl, fun es' he => entries_before h1 h2 he⟩
    · obtain ⟨hk, hk', -⟩ := call_space hL hX hi (k := k) (s := a ++ u ++ rest) (by simpa using h)
      replace h1 := item1_took hE hX h1
      obtain ⟨w, a, e, rfl, hw, ha, he, rfl⟩ := h1
      have hlen : u.length < n := by
        obtain ⟨c, t, rfl, -⟩ := entry_head hL ha
        simp only [List.length_append, List.length_cons] at hn
        omega
      obtain ⟨es, hes, rfl, h3⟩ := block1_took hE hL hX n false _ u rest _ hlen (fun _ => entry_noTrail hX ha) h2
      refine ⟨e :: es, ?_, by rw [stringsIn_cons e es]; simp, fun es' he' => ?_⟩
      · intro x hx
        rcases List.mem_cons.1 hx with rfl | hx
        · exact he
        · exact hes x hx
      · exact ⟨k ++ w, a, u ++ rest, space_app hk hw, fun hf => List.mem_append_left _ (hk' hf), ha, h3 es' he', by simp⟩

theorem block2_took (hE : E.refs = refsOf pl) (hL : E.L.Lawful) (hX : E.L.Exact) {id : DebugId} :
    ∀ n first item cs rest ds, cs.length < n → (first = false → NoTrail item) → Space rest →
      Took E (.lines item2 false id first item) cs rest ds →
      ∃ es, (∀ e ∈ es, Entry.isString e = false) ∧ (pl = false → ∀ e ∈ es, Entry.plain e = true) ∧ ds = nodeData (nodesIn es) ∧ EntriesText E.L first es (cs ++ rest)
  | 0, first, item, cs, rest, ds, hn, _, _, _ => absurd hn (by simp)
  | n + 1, first, item, cs, rest, ds, hn, hi, hr, h => by
    replace h := took_linesCase h
    rcases h with ⟨h, rfl⟩ | ⟨h, rfl, -⟩ | ⟨k, a, u, d, d', rfl, rfl, h, h1, h2⟩
    · exact ⟨[], by simp, by simp, rfl, (hL.line_done h).2⟩
    · obtain ⟨-, -, x, c, y, rfl, hc, -⟩ := call_space hL hX hi h
      rw [hr c (by simp)] at hc
      cases hc
    · obtain ⟨hk, hk', -⟩ := call_space hL hX hi (k := k) (s := a ++ u ++ rest) (by simpa using h)
      replace h1 := item2_took hE hL hX h1
      obtain ⟨w, a, e, rfl, hw, ha, he, hq, rfl⟩ := h1
      have hlen : u.length < n := by
        obtain ⟨c, t, rfl, -⟩ := entry_head hL ha
        simp only [List.length_append, List.length_cons] at hn
        omega
      obtain ⟨es, hes, hqs, rfl, h3⟩ := block2_took hE hL hX n false _ u rest _ hlen (fun _ => entry_noTrail hX ha) hr h2
      refine ⟨e :: es, ?_, fun hf x hx => ?_, by rw [nodesIn_cons e es]; simp, ?_⟩
      · intro x hx
        rcases List.mem_cons.1 hx with rfl | hx
        · exact he
        · exact hes x hx
      · rcases List.mem_cons.1 hx with rfl | hx
        · exact hq hf
        · exact hqs hf x hx
      · exact ⟨k ++ w, a, u ++ rest, space_app hk hw, fun hf => List.mem_append_left _ (hk' hf), ha, h3, by simp⟩

theorem all_plain {es : List Entry} (h : ∀ e ∈ es, e.plain = true) :
    (nodesIn es).all (fun n => n.2.2.plain) = true := by
  induction es with
  | nil => rfl
  | cons e es ih =>
    have h1 := ih fun x hx => h x (by simp [hx])
    cases e with
    | node k n d =>
      have h2 := h (.node k n d) (by simp)
      simp only [nodesIn, List.all_cons, h1, Bool.and_true]
      exact h2
    | comment => exact h1
    | string n t => exact h1

theorem document_took (hE : E.refs = refsOf pl) (hL : E.L.Lawful) (hX : E.L.Exact)
    (h : Took E (.rule document) cs [] ds) : 
    ∃ doc : Doc, doc.Text E.L cs ∧ (pl = false → doc.plain = true) ∧ ds = doc.data := by
  replace h := took_cons (took_sequence h)
  obtain ⟨a, b, d, d', rfl, rfl, h1, h⟩ := h
  replace h := took_cons h
  obtain ⟨b, c, d2, d', rfl, rfl, h2, h⟩ := h
  obtain ⟨hc, -, -, rfl⟩ := took_ws (took_last h)
  obtain ⟨es', hes', hq, rfl, h3⟩ := block2_took hE hL hX _ _ _ _ _ _ (Nat.lt_succ_self _) (by simp) (by simpa using hc)
    (took_lines h2)
  obtain ⟨es, hes, rfl, h4⟩ := block1_took hE hL hX _ _ _ _ _ _ (Nat.lt_succ_self _) (by simp) (took_lines h1)
  refine ⟨⟨stringsIn es, nodesIn es'⟩, ⟨es, es', hes, hes', ?_, rfl, rfl⟩, fun hf => all_plain (hq hf), by simp [Doc.data, stringData, nodeData]⟩
  have := h4 es' (by simpa using h3)
  simpa using this

end Boot

/-- The rules without `.l+` read what stands for a document without it. -/
theorem text_parses10 {L : Lexer} (hL : L.Lawful) (hs : ∀ s, L.num false ('/' :: s) = none) {syn : Syntax}
    (hr : syn.rules = Boot.refsOf false) {doc : Doc} {text : Str} (h : doc.Text L text) (hp : doc.plain = true) :
    ∃ toks, Parses L syn text [] Indent.default (.ok toks) ∧ toks.map (·.data) = doc.data := by
  obtain ⟨ts, tr, h1, e⟩ := Boot.document_reads (E := envOf L syn.rules Indent.default) hr hL hs
    (fun _ => hp) h 0 Indent.default.indent
  exact ⟨ts, parses_ok_run.2 ⟨Boot.document, text.length, ts, _, tr, by rw [hr]; rfl, by simpa using h1,
    Nat.le_refl _, rfl⟩, e⟩

/-- And nothing else. -/
theorem parses_text10 {L : Lexer} (hL : L.Lawful) (hX : L.Exact) {syn : Syntax}
    (hs : syn.rules = Boot.refsOf false) {text : Str} {toks : List Tok}
    (h : Parses L syn text [] Indent.default (.ok toks)) :
    ∃ doc : Doc, doc.Text L text ∧ doc.plain = true ∧ toks.map (·.data) = doc.data := by
  obtain ⟨r, n, ts, j, tr, hr, h, hn, rfl⟩ := parses_ok_run.1 h
  rw [hs] at hr
  cases hr
  have hb := ((run_bounded hL h).1 _ _ rfl).1
  have : n = text.length := Nat.le_antisymm hb hn
  subst this
  obtain ⟨doc, h1, h2, h3⟩ := Boot.document_took (E := envOf L syn.rules Indent.default) hs hL hX
    ⟨_, _, _, _, _, by rw [List.append_nil]; exact h, rfl⟩
  exact ⟨doc, h1, h2 rfl, h3⟩

/-- A text that the bootstrap rules accept stands for a document, and the data is its data. -/
theorem parses_text {L : Lexer} (hL : L.Lawful) (hX : L.Exact) {text : Str} {toks : List Tok}
    (h : Parses L bootstrapRules text [] Indent.default (.ok toks)) :
    ∃ doc : Doc, doc.Text L text ∧ toks.map (·.data) = doc.data := by
  obtain ⟨r, n, ts, j, tr, hr, h, hn, rfl⟩ := parses_ok_run.1 h
  cases hr
  have hb := ((run_bounded hL h).1 _ _ rfl).1
  have : n = text.length := Nat.le_antisymm hb hn
  subst this
  obtain ⟨doc, h1, -, h2⟩ := Boot.document_took (E := envOf L bootstrapRules.rules Indent.default) (pl := true) rfl hL hX
    ⟨_, _, _, _, _, by rw [List.append_nil]; exact h, rfl⟩
  exact ⟨doc, h1, h2⟩

theorem writes_text {L : Lexer} (hL : L.Lawful) (hX : L.Exact) {doc : Doc} {text : Str} (h : Writes L text doc) :
    doc.Text L text := by
  obtain ⟨toks, h, e⟩ := h
  obtain ⟨doc', h', e'⟩ := parses_text hL hX h
  cases doc_inj (e.symm.trans e')
  exact h'

end Verif
