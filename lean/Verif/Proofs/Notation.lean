import Verif.Proofs.Boot
import Verif.Proofs.Reads
/-
The bootstrap rules read the notation.
-/
namespace Verif
open Spec

namespace Boot

/-- What may follow a rule. -/
def Follow (rest : Str) : Prop := ∀ c, rest.head? = some c → isWs c = true ∨ c = ']' ∨ c = '}' ∨ c = ')'

variable {pl : Bool} {E : Env} {cs rest : Str} {ds : List MetaData}

theorem refuses_tagged {t inv prop i rs id} (h : ¬ t <+: cs) :
    Refuses E (.rule (.sequence (.tag t false inv prop i :: rs) id)) cs :=
  refuses_sequence (refuses_first (refuses_tag h))

/-! ### Sets -/

theorem isLit_reads {s : Str} (h : IsLit E.L s cs) {e prop id} (he : cs.length = 2 → e = true) :
    Reads E (.rule (.text e (some prop) id)) cs rest [.string prop s] := fun o i => by
  obtain ⟨h1, h2⟩ := h rest
  exact ⟨_, _, .text_ok h1 he h2, by simp [named]⟩

theorem isLit_head {L : Lexer} (hL : L.Lawful) {s : Str} (h : IsLit L s cs) : ∃ t, cs = '"' :: t := by
  have := hL.str_some (h []).1
  simp only [List.append_nil] at this
  cases cs with
  | nil => simp at this
  | cons c t => exact ⟨t, by simp at this; rw [this.2]⟩

/-- The usual strings in quotes. -/
theorem isLit_items {L : Lexer} (hL : L.Lawful) (items : List StrItem) :
    IsLit L (items.map StrItem.char) ('"' :: items.flatMap StrItem.text ++ ['"']) := fun rest => by
  have := hL.str_items items rest
  simpa using this

theorem sep_mem {c : Char} : c ∈ bsSeps ↔ c ∈ c!"[]{}():.!?\"" := Iff.rfl

theorem name_reads {n : Str} (h : IsName n) {prop id} (hr : ∀ c, rest.head? = some c → ¬ NameChar c) :
    Reads E (.rule (.untilAnyOrWs bsSeps false (some prop) id)) n rest [.string prop n] :=
  reads_untilWs (fun c hc => h.2 c hc) hr (fun e => absurd e h.1)

/-- After a set: no character of a name. -/
def NoName (rest : Str) : Prop := ∀ c, rest.head? = some c → ¬ NameChar c

theorem noName_cons {c : Char} {s : Str} (h : c ∈ bsSeps) : NoName (c :: s) := by
  intro c' hc hn
  simp only [List.head?_cons, Option.some.injEq] at hc
  subst hc
  exact hn.1 h

theorem noName_refs {c : Char} {s : Str} (h : c ∈ bsSeps) :
    ∀ c', (c :: s).head? = some c' → ¬ NameChar c' ∨ c' = '_' := fun c' hc => .inl (noName_cons h c' hc)

theorem follow_noName (h : Follow rest) : NoName rest := by
  intro c hc hn
  rcases h c hc with h | rfl | rfl | rfl
  · rw [hn.2] at h; cases h
  · exact hn.1 (by decide)
  · exact hn.1 (by decide)
  · exact hn.1 (by decide)

theorem follow_ne (h : Follow rest) {c : Char} (hc : isWs c = false) (h1 : c ≠ ']') (h2 : c ≠ '}') (h3 : c ≠ ')') :
    rest.head? ≠ some c := by
  intro e
  rcases h c e with h | h | h | h
  · rw [hc] at h; cases h
  · exact h1 h
  · exact h2 h
  · exact h3 h

theorem not_prefix {c : Char} {t : Str} (h : cs.head? ≠ some c) : ¬ (c :: t) <+: cs := by
  intro hp
  obtain ⟨s, rfl⟩ := hp
  simp at h

theorem set_reads (hL : E.L.Lawful) {v : SetV} (h : v.Text E.L false cs) (hr : NoName rest) :
    ∃ d, Reads E (.rule set) cs rest d ∧ ∀ p, nodeOf p d = v.data p := by
  cases v with
  | value s =>
    exact ⟨_, reads_select (reads_here (isLit_reads h.1 h.2)), fun _ => rfl⟩
  | ref n =>
    obtain ⟨hn, rfl⟩ := h
    exact ⟨_, reads_select (reads_next (refuses_text hL (by simp)) (reads_here (reads_sequence
      (reads_cons (a := ['_']) (b := n) reads_tag (reads_last (name_reads hn hr)))))), fun _ => rfl⟩

theorem setOpt_reads (hL : E.L.Lawful) {v : SetV} (h : v.Text E.L true cs) (hr : NoName rest) :
    ∃ d, Reads E (.rule setOpt) cs rest d ∧ ∀ p, nodeOf p d = v.data p := by
  cases v with
  | value s =>
    exact ⟨_, reads_select (reads_here (isLit_reads h.1 h.2)), fun _ => rfl⟩
  | ref n =>
    obtain ⟨hn, rfl⟩ := h
    exact ⟨_, reads_select (reads_next (refuses_text hL (by simp)) (reads_here (reads_sequence
      (reads_cons (a := ['_']) (b := n) reads_tag (reads_last (name_reads hn hr)))))), fun _ => rfl⟩

theorem set_refuses (hL : E.L.Lawful) (h1 : cs.head? ≠ some '"') (h2 : cs.head? ≠ some '_') :
    Refuses E (.rule set) cs :=
  refuses_select (refuses_next (refuses_text hL h1) (refuses_next (refuses_tagged (not_prefix h2)) refuses_none))

theorem setOpt_refuses (hL : E.L.Lawful) (h1 : cs.head? ≠ some '"') (h2 : cs.head? ≠ some '_') :
    Refuses E (.rule setOpt) cs :=
  refuses_select (refuses_next (refuses_text hL h1) (refuses_next (refuses_tagged (not_prefix h2)) refuses_none))

theorem setText_head {L : Lexer} (hL : L.Lawful) {v : SetV} {e : Bool} (h : v.Text L e cs) : ∃ c t, cs = c :: t ∧ (c = '"' ∨ c = '_') := by
  cases v with
  | value s => obtain ⟨t, rfl⟩ := isLit_head hL h.1; exact ⟨_, _, rfl, .inl rfl⟩
  | ref n => obtain ⟨_, rfl⟩ := h; exact ⟨_, _, rfl, .inr rfl⟩

/-! ### Signs and properties -/

theorem opt_reads (b : Bool) : Reads E (.rule opt) [sign b] rest [.bool c!"optional" b] := by
  cases b with
  | true => exact reads_select (reads_here reads_tag)
  | false => exact reads_select (reads_next (refuses_tag (by simp [sign])) (reads_here reads_tag))

theorem switch_reads {c : Char} {b : Option Bool} {prop : Str} {i id} (h : Switch c b cs)
    (hr : b = none → rest.head? ≠ some c) :
    Reads E (.rule (.optional (.tag [c] false false (some prop) i) id)) cs rest (flag prop b) := by
  cases b with
  | none => cases h; exact reads_none (refuses_tag (not_prefix (hr rfl)))
  | some b => obtain ⟨rfl, rfl⟩ := h; exact reads_some reads_tag

theorem prop_reads (hE : E.refs = refsOf pl) (hL : E.L.Lawful) {p : Option SetV} {i j k l : Nat} (h : PropText E.L p cs)
    (hf : Follow rest) :
    Reads E (.rule (.optional (.sequence
        [.tag c!":" false false none i, .node c!"set" (some bsProp) (some 4) j] k) l)) cs rest (propData p) := by
  cases p with
  | none => cases h; exact reads_none (refuses_tagged (not_prefix (follow_ne hf (by decide) (by decide) (by decide) (by decide))))
  | some v =>
    obtain ⟨a, ha, rfl⟩ := h
    obtain ⟨d, hd, e⟩ := set_reads hL ha (follow_noName hf)
    refine (reads_some (reads_sequence (reads_cons (a := [':']) reads_tag
      (reads_last (reads_node (by rw [hE]; rfl) hd))))).cast ?_
    simp [propData, e, bsProp]

theorem propText_noName {p : Option SetV} (h : PropText E.L p cs) (hf : Follow rest) : NoName (cs ++ rest) := by
  cases p with
  | none => cases h; exact follow_noName hf
  | some v => obtain ⟨a, _, rfl⟩ := h; exact noName_cons (by decide)

theorem propText_ne {p : Option SetV} (h : PropText E.L p cs) (hf : Follow rest) {c : Char} (hc : isWs c = false)
    (h0 : c ≠ ':') (h1 : c ≠ ']') (h2 : c ≠ '}') (h3 : c ≠ ')') : (cs ++ rest).head? ≠ some c := by
  cases p with
  | none => cases h; exact follow_ne hf hc h1 h2 h3
  | some v => obtain ⟨a, _, rfl⟩ := h; simp [h0.symm]

/-! ### Rules without parts -/

theorem whitespace_reads (hE : E.refs = refsOf pl) (o : Bool) :
    Reads E (.rule whitespace) ['.', 'w', sign o] rest [.bool c!"optional" o] :=
  reads_sequence (reads_cons (a := c!".w") (b := [sign o]) reads_tag
    (reads_last (reads_nodeNone (by rw [hE]; rfl) (opt_reads o))))

theorem untilAnyOrWs_reads (hE : E.refs = refsOf pl) (hL : E.L.Lawful) {any : SetV} {b : Bool} {p : Option SetV} {a q : Str}
    (ha : any.Text E.L true a) (hq : PropText E.L p q) (hf : Follow rest) :
    Reads E (.rule untilAnyOrWhitespace) (c!".." ++ (a ++ sign b :: q)) rest
      (any.data c!"any_characters" ++ flag c!"optional" (some b) ++ propData p) := by
  obtain ⟨d, hd, e⟩ := setOpt_reads (rest := sign b :: (q ++ rest)) hL ha (by cases b <;> exact noName_cons (by decide))
  refine (reads_sequence (reads_cons reads_tag (reads_cons (b := sign b :: q)
    (reads_node (by rw [hE]; rfl) hd) (reads_cons (a := [sign b]) (b := q)
    (reads_nodeNone (by rw [hE]; rfl) (opt_reads b)) (reads_last (prop_reads hE hL hq hf)))))).cast ?_
  simp [e, bsAny, flag]

theorem untilAny_reads (hE : E.refs = refsOf pl) (hL : E.L.Lawful) {any : SetV} {b : Bool} {p : Option SetV} {a q : Str}
    (ha : any.Text E.L true a) (hq : PropText E.L p q) (hf : Follow rest) :
    Reads E (.rule untilAny) (c!"..." ++ (a ++ sign b :: q)) rest
      (any.data c!"any_characters" ++ flag c!"optional" (some b) ++ propData p) := by
  obtain ⟨d, hd, e⟩ := setOpt_reads (rest := sign b :: (q ++ rest)) hL ha (by cases b <;> exact noName_cons (by decide))
  refine (reads_sequence (reads_cons reads_tag (reads_cons (b := sign b :: q)
    (reads_node (by rw [hE]; rfl) hd) (reads_cons (a := [sign b]) (b := q)
    (reads_nodeNone (by rw [hE]; rfl) (opt_reads b)) (reads_last (prop_reads hE hL hq hf)))))).cast ?_
  simp [e, bsAny, flag]

theorem number_reads (hE : E.refs = refsOf pl) (hL : E.L.Lawful) {u : Option Bool} {p : Option SetV} {n q : Str}
    (hn : Switch '_' u n) (hq : PropText E.L p q) (hf : Follow rest) :
    Reads E (.rule number) (c!".$" ++ (n ++ q)) rest (flag c!"underscore" u ++ propData p) :=
  (reads_sequence (reads_cons reads_tag (reads_cons
    (switch_reads hn fun _ => propText_ne hq hf (by decide) (by decide) (by decide) (by decide) (by decide))
    (reads_last (prop_reads hE hL hq hf))))).cast rfl

theorem text_reads (hE : E.refs = refsOf pl) (hL : E.L.Lawful) {b : Bool} {p : Option SetV} {q : Str}
    (hq : PropText E.L p q) (hf : Follow rest) :
    Reads E (.rule text) (c!".t" ++ sign b :: q) rest (flag c!"allow_empty" (some b) ++ propData p) := by
  refine (reads_sequence (reads_cons reads_tag (reads_cons (a := [sign b]) (b := q) (d := flag c!"allow_empty" (some b)) ?_
    (reads_last (prop_reads hE hL hq hf))))).cast rfl
  cases b with
  | true => exact reads_select (reads_here reads_tag)
  | false => exact reads_select (reads_next (refuses_tag (by simp [sign])) (reads_here reads_tag))

theorem name_cons {name : Str} (hn : IsName name) : ∃ c t, name = c :: t ∧ NameChar c := by
  cases name with
  | nil => exact absurd rfl hn.1
  | cons c t => exact ⟨c, t, rfl, hn.2 c (by simp)⟩

theorem nameChar_ne {c : Char} (h : NameChar c) {c' : Char} (h' : c' ∈ bsSeps) : c ≠ c' := by
  rintro rfl
  exact h.1 h'

theorem reference_reads (hE : E.refs = refsOf pl) (hL : E.L.Lawful) {name : Str} {p : Option SetV} {q : Str}
    (hn : IsName name) (h0 : name.head? ≠ some '_') (hq : PropText E.L p q) (hf : Follow rest) :
    Reads E (.rule reference) (name ++ q) rest (.string c!"name" name :: propData p) := by
  obtain ⟨c, t, rfl, hc⟩ := name_cons hn
  have hdot : c ≠ '.' := nameChar_ne hc (by decide)
  exact reads_sequence (reads_cons (a := []) (reads_notTag (not_prefix (by simpa using h0)))
    (reads_cons (a := []) (reads_notTag (not_prefix (by simpa using hdot)))
    (reads_cons (d := [_]) (name_reads hn (propText_noName hq hf)) (reads_last (prop_reads hE hL hq hf)))))

theorem tag_reads (hE : E.refs = refsOf pl) (hL : E.L.Lawful) {neg : Option Bool} {t : SetV} {n a : Str}
    (hn : Switch '!' neg n) (ha : t.Text E.L false a) (hf : Follow rest) :
    Reads E (.rule tag) (n ++ a) rest (flag c!"not" neg ++ t.data c!"text") := by
  obtain ⟨d, hd, e⟩ := set_reads (rest := rest) hL ha (follow_noName hf)
  have h1 : (a ++ rest).head? ≠ some '!' := by
    obtain ⟨c, s, rfl, hc⟩ := setText_head hL ha
    rcases hc with rfl | rfl <;> simp
  have h3 : ¬ c!":" <+: rest := not_prefix (follow_ne hf (by decide) (by decide) (by decide) (by decide))
  refine (reads_sequence (reads_cons (switch_reads hn fun _ => h1)
    (reads_cons0 (reads_node (by rw [hE]; rfl) hd) (reads_last (reads_none (refuses_tagged h3)))))).cast ?_
  simp [e]

theorem tagProp_reads (hE : E.refs = refsOf pl) (hL : E.L.Lawful) {neg inv : Option Bool} {t v : SetV} {n a i b : Str}
    (hn : Switch '!' neg n) (ha : t.Text E.L false a) (hi : Switch '!' inv i) (hb : v.Text E.L false b) (hf : Follow rest) :
    Reads E (.rule tag) (n ++ (a ++ ':' :: (i ++ b))) rest
      (flag c!"not" neg ++ t.data c!"text" ++ flag c!"inverted" inv ++ v.data c!"property") := by
  obtain ⟨d, hd, e⟩ := set_reads (rest := ':' :: (i ++ b) ++ rest) hL ha (noName_cons (by decide))
  obtain ⟨d', hd', e'⟩ := set_reads (rest := rest) hL hb (follow_noName hf)
  have h1 : ∀ {v : SetV} {a r : Str}, v.Text E.L false a → (a ++ r).head? ≠ some '!' := by
    intro v a r ha
    obtain ⟨c, s, rfl, hc⟩ := setText_head hL ha
    rcases hc with rfl | rfl <;> simp
  refine (reads_sequence (reads_cons (switch_reads hn fun _ => by rw [List.append_assoc]; exact h1 ha)
    (reads_cons (reads_node (by rw [hE]; rfl) hd)
    (reads_last (reads_some (reads_sequence (reads_cons (a := [':']) (b := i ++ b) reads_tag (reads_cons
      (switch_reads hi fun _ => h1 hb) (reads_last (reads_node (by rw [hE]; rfl) hd')))))))))).cast ?_
  simp [e, e', bsProp, bsInv]

/-! ### Rules with parts -/

theorem head_append_ne {a b : Str} {c x : Char} {t : Str} (e : a = c :: t) (h : c ≠ x) : (a ++ b).head? ≠ some x := by
  subst e; simpa using h

theorem desc_head {L : Lexer} (hL : L.Lawful) {d : Desc} (h : d.Text L cs) : ∃ c t, cs = c :: t ∧ isWs c = false := by
  cases d with
  | whitespace o => cases h; exact ⟨_, _, rfl, by decide⟩
  | untilAnyOrWs any o p => obtain ⟨a, b, q, _, _, _, rfl⟩ := h; exact ⟨_, _, rfl, by decide⟩
  | untilAny any o p => obtain ⟨a, b, q, _, _, _, rfl⟩ := h; exact ⟨_, _, rfl, by decide⟩
  | tag neg t inv p =>
    have key : ∀ {n a r : Str}, Switch '!' neg n → t.Text L false a → ∃ c t, n ++ (a ++ r) = c :: t ∧ isWs c = false := by
      intro n a r hn ha
      cases neg with
      | none =>
        cases hn
        obtain ⟨c, s, rfl, hc⟩ := setText_head hL ha
        exact ⟨c, s ++ r, rfl, by rcases hc with rfl | rfl <;> decide⟩
      | some b => obtain ⟨rfl, rfl⟩ := hn; exact ⟨_, _, rfl, by decide⟩
    cases p with
    | none => obtain ⟨n, a, hn, ha, _, rfl⟩ := h; simpa using key (r := []) hn ha
    | some v => obtain ⟨n, a, i, b, hn, ha, _, _, rfl⟩ := h; exact key hn ha
  | text e p => obtain ⟨b, q, _, _, rfl⟩ := h; exact ⟨_, _, rfl, by decide⟩
  | number u p => obtain ⟨n, q, _, _, rfl⟩ := h; exact ⟨_, _, rfl, by decide⟩
  | reference name p =>
    obtain ⟨q, hn, _, _, rfl⟩ := h
    obtain ⟨c, t, rfl, hc⟩ := name_cons hn
    exact ⟨c, t ++ q, rfl, hc.2⟩
  | sequence args => obtain ⟨_, a, _, rfl⟩ := h; exact ⟨_, _, rfl, by decide⟩
  | select args => obtain ⟨_, a, _, rfl⟩ := h; exact ⟨_, _, rfl, by decide⟩
  | optional d => obtain ⟨a, _, rfl⟩ := h; exact ⟨_, _, rfl, by decide⟩
  | not d => obtain ⟨a, _, _, _, rfl⟩ := h; exact ⟨_, _, rfl, by decide⟩
  | separatedBy o t b d => obtain ⟨s, n, v, a, w, c, u, _, _, _, _, _, _, _, _, rfl⟩ := h; exact ⟨_, _, rfl, by decide⟩
  | lines i d => obtain ⟨n, v, a, u, _, _, _, _, rfl⟩ := h; exact ⟨_, _, rfl, by decide⟩
  | repeat_ o d => obtain ⟨a, _, rfl⟩ := h; exact ⟨_, _, rfl, by decide⟩

/-- Skips an alternative that begins with a token. -/
theorem skip {name p ix id rs t inv prop i xs j}
    (hr : E.refs[ix]? = some (.sequence (.tag t false inv prop i :: xs) j)) (h : ¬ t <+: cs ++ rest)
    (h' : Reads E (.sel rs) cs rest ds) : Reads E (.sel (.node name p (some ix) id :: rs)) cs rest ds :=
  reads_next (refuses_node hr (refuses_tagged h)) h'

theorem refuses_skip {name p ix id rs t inv prop i xs j}
    (hr : E.refs[ix]? = some (.sequence (.tag t false inv prop i :: xs) j)) (h : ¬ t <+: cs)
    (h' : Refuses E (.sel rs) cs) : Refuses E (.sel (.node name p (some ix) id :: rs)) cs :=
  refuses_next (refuses_node hr (refuses_tagged h)) h'

theorem reference_refuses (h : ∀ c, cs.head? = some c → ¬ NameChar c ∨ c = '_') : Refuses E (.rule reference) cs := by
  refine refuses_sequence ?_
  by_cases h1 : c!"_" <+: cs
  · exact refuses_first (refuses_notTag h1)
  · refine refuses_laterNil (reads_notTag h1) ?_
    by_cases h2 : c!"." <+: cs
    · exact refuses_first (refuses_notTag h2)
    · refine refuses_laterNil (reads_notTag h2) (refuses_first (refuses_untilWs ?_))
      intro c hc
      rcases h c hc with h | rfl
      · exact h
      · cases cs with
        | nil => cases hc
        | cons x t => cases hc; exact absurd (by simp) h1

theorem tag_refuses (hE : E.refs = refsOf pl) (hL : E.L.Lawful) (h0 : cs.head? ≠ some '!') (h1 : cs.head? ≠ some '"')
    (h2 : cs.head? ≠ some '_') : Refuses E (.rule tag) cs :=
  refuses_sequence (refuses_laterNil (reads_none (refuses_tag (not_prefix h0)))
    (refuses_first (refuses_node (by rw [hE]; rfl) (set_refuses hL h1 h2))))

theorem tag_refusesNot (hE : E.refs = refsOf pl) (hL : E.L.Lawful) (h1 : cs.head? ≠ some '"')
    (h2 : cs.head? ≠ some '_') : Refuses E (.rule tag) ('!' :: cs) :=
  refuses_sequence (refuses_later1 (reads_some reads_tag)
    (refuses_first (refuses_node (by rw [hE]; rfl) (set_refuses hL h1 h2))))

theorem untilWs_refuses (hE : E.refs = refsOf pl) (hL : E.L.Lawful) (h1 : cs.head? ≠ some '"')
    (h2 : cs.head? ≠ some '_') : Refuses E (.rule untilAnyOrWhitespace) (c!".." ++ cs) :=
  refuses_sequence (refuses_later reads_tag
    (refuses_first (refuses_node (by rw [hE]; rfl) (setOpt_refuses hL h1 h2))))

/-- A bracket ends a list. -/
theorem rule_refuses (hE : E.refs = refsOf pl) (hL : E.L.Lawful) {b : Char} (hb : b = ']' ∨ b = '}') :
    Refuses E (.rule rule) (b :: rest) := by
  have h1 : b ≠ '.' := by rcases hb with rfl | rfl <;> decide
  have h2 : b ≠ '[' := by rcases hb with rfl | rfl <;> decide
  have h3 : b ≠ '{' := by rcases hb with rfl | rfl <;> decide
  have h4 : b ≠ '?' := by rcases hb with rfl | rfl <;> decide
  have h5 : b ≠ '!' := by rcases hb with rfl | rfl <;> decide
  have h6 : b ≠ '"' := by rcases hb with rfl | rfl <;> decide
  have h7 : b ≠ '_' := by rcases hb with rfl | rfl <;> decide
  have h8 : b ∈ bsSeps := by rcases hb with rfl | rfl <;> decide
  have hd : ∀ t, ¬ ('.' :: t) <+: b :: rest := fun t => not_prefix (by simpa using h1)
  refine refuses_select ?_
  iterate 7 refine refuses_skip (by rw [hE]; rfl) (hd _) ?_
  refine refuses_next (refuses_node (by rw [hE]; rfl) (reference_refuses (noName_refs h8))) ?_
  refine refuses_skip (by rw [hE]; rfl) (not_prefix (by simpa using h2)) ?_
  refine refuses_skip (by rw [hE]; rfl) (not_prefix (by simpa using h3)) ?_
  refine refuses_skip (by rw [hE]; rfl) (hd _) ?_
  refine refuses_next (refuses_node (by rw [hE]; rfl)
    (tag_refuses hE hL (by simpa using h5) (by simpa using h6) (by simpa using h7))) ?_
  refine refuses_skip (by rw [hE]; rfl) (not_prefix (by simpa using h4)) ?_
  refine refuses_skip (by rw [hE]; rfl) (not_prefix (by simpa using h5)) ?_
  exact refuses_none

/-- A token is the twelfth alternative. -/
theorem tag_select (hE : E.refs = refsOf pl) (hL : E.L.Lawful) {neg : Option Bool} {t : SetV} {n a r : Str}
    (hn : Switch '!' neg n) (ha : t.Text E.L false a) (h : Reads E (.rule tag) (n ++ (a ++ r)) rest ds) :
    Reads E (.rule rule) (n ++ (a ++ r)) rest (nodeOf c!"tag" ds) := by
  have key : ∃ c s, n ++ (a ++ r) = c :: s ∧ (c = '!' ∨ c = '"' ∨ c = '_') := by
    cases neg with
    | none =>
      cases hn
      obtain ⟨c, s, rfl, hc⟩ := setText_head hL ha
      exact ⟨c, s ++ r, rfl, .inr hc⟩
    | some b => obtain ⟨rfl, rfl⟩ := hn; exact ⟨_, _, rfl, .inl rfl⟩
  obtain ⟨c, s, e, hc⟩ := key
  rw [e] at h ⊢
  have hd : ∀ x t, x = '.' ∨ x = '[' ∨ x = '{' → ¬ (x :: t) <+: c :: s ++ rest := by
    intro x t hx
    refine not_prefix ?_
    rcases hc with rfl | rfl | rfl <;> rcases hx with rfl | rfl | rfl <;> simp
  refine reads_select ?_
  iterate 7 refine skip (by rw [hE]; rfl) (hd _ _ (by simp)) ?_
  refine reads_next (refuses_node (by rw [hE]; rfl) (reference_refuses ?_)) ?_
  · intro x hx
    simp only [List.cons_append, List.head?_cons, Option.some.injEq] at hx
    subst hx
    rcases hc with rfl | rfl | rfl
    · exact .inl fun h => h.1 (by decide)
    · exact .inl fun h => h.1 (by decide)
    · exact .inr rfl
  iterate 3 refine skip (by rw [hE]; rfl) (hd _ _ (by simp)) ?_
  exact reads_here (reads_node (by rw [hE]; rfl) h)

end Boot
end Verif
