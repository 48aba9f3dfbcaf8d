import Verif.Spec.Sayable
import Verif.Spec.Ids
import Verif.Spec.Renumber
import Verif.Proofs.Print
/-
What the notation can say.
-/
namespace Verif
open Spec

/-! ### Nothing else -/

theorem lit_head {L : Lexer} (hL : L.Lawful) {s a : Str} (h : IsLit L s a) (rest : Str) :
    (a ++ rest).head? = some '"' := by
  have h1 := hL.str_some (h []).1
  have h2 := hL.str_some (h rest).1
  exact h2.2.2

theorem set_head {L : Lexer} (hL : L.Lawful) {e : Bool} {v : SetV} {a : Str} (h : v.Text L e a) (rest : Str) :
    (a ++ rest).head? = some '"' ∨ (a ++ rest).head? = some '_' := by
  cases v with
  | value s => exact .inl (lit_head hL h.1 rest)
  | ref n =>
    obtain ⟨-, rfl⟩ := h
    exact .inr rfl

theorem switch_false {c : Char} {o : Option Bool} {a : Str} (h : Switch c o a) (ho : o.getD false = false) : a = [] := by
  cases o with
  | none => exact h
  | some b => cases h.1; cases ho

theorem switch_true {c : Char} {o : Option Bool} {a : Str} (h : Switch c o a) : o.getD true = true := by
  cases o with
  | none => rfl
  | some b => exact h.1

/-- If the rule is a token that is wanted, the text begins with a quote or an underscore. -/
def TokenHead (r : Rule) (cs : Str) : Prop :=
  ∀ t inv p id, r = .tag t false inv p id → cs.head? = some '"' ∨ cs.head? = some '_'

theorem needs_say {t : Option Str} {i m : Nat} {f : Str → Nat → Rule} {r : Rule} (h : (needs t i m f).1 = some r) :
    ∃ s id, r = f s id := by
  cases t with
  | none => cases h
  | some s => exact ⟨s, _, by simpa [needs] using h.symm⟩

theorem around_say {x : Option Rule × Nat × Nat} {f : Rule → Nat → Rule} {r : Rule} (h : (around x f).1 = some r) :
    ∃ r' id, x.1 = some r' ∧ r = f r' id := by
  obtain ⟨x, i, m⟩ := x
  cases x with
  | none => cases h
  | some s => exact ⟨s, _, rfl, by simpa [around] using h.symm⟩

theorem sayableAll_append {rs rs' : List Rule} (h : SayableAll rs) (h' : SayableAll rs') : SayableAll (rs ++ rs') := by
  induction rs with
  | nil => exact h'
  | cons r rs ih => exact ⟨h.1, ih h.2⟩

mutual
theorem desc_sayable {L : Lexer} (hL : L.Lawful) (ss : List (Str × Str)) : (d : Desc) → ∀ {cs : Str} {i : Nat} {r : Rule},
    d.Text L cs → (d.read ss i).1 = some r → Sayable r ∧ TokenHead r cs
  | .whitespace o, cs, i, r, _, h => by
    simp only [Desc.read, Option.some.injEq] at h
    subst h
    exact ⟨trivial, by simp [TokenHead]⟩
  | .untilAnyOrWs any o p, cs, i, r, _, h => by
    simp only [Desc.read] at h
    obtain ⟨s, id, rfl⟩ := needs_say h
    exact ⟨trivial, by simp [TokenHead]⟩
  | .untilAny any o p, cs, i, r, _, h => by
    simp only [Desc.read] at h
    obtain ⟨s, id, rfl⟩ := needs_say h
    exact ⟨trivial, by simp [TokenHead]⟩
  | .tag neg t inv none, cs, i, r, hd, h => by
    simp only [Desc.read] at h
    obtain ⟨s, id, rfl⟩ := needs_say h
    refine ⟨trivial, ?_⟩
    rintro _ _ _ _ e
    cases hn : neg.getD false with
    | true => rw [hn] at e; cases e
    | false =>
      obtain ⟨n, a, h1, h2, -, rfl⟩ := hd
      rw [switch_false h1 hn]
      simpa using set_head hL h2 []
  | .tag neg t inv (some v), cs, i, r, hd, h => by
    simp only [Desc.read] at h
    obtain ⟨s, id, rfl⟩ := needs_say h
    refine ⟨trivial, ?_⟩
    rintro _ _ _ _ e
    cases hn : neg.getD false with
    | true => rw [hn] at e; cases e
    | false =>
      obtain ⟨n, a, _, _, h1, h2, -, -, rfl⟩ := hd
      rw [switch_false h1 hn]
      exact set_head hL h2 _
  | .text e p, cs, i, r, _, h => by
    simp only [Desc.read, Option.some.injEq] at h
    subst h
    exact ⟨trivial, by simp [TokenHead]⟩
  | .number u p, cs, i, r, _, h => by
    simp only [Desc.read, Option.some.injEq] at h
    subst h
    exact ⟨trivial, by simp [TokenHead]⟩
  | .reference name p, cs, i, r, hd, h => by
    simp only [Desc.read, Option.some.injEq] at h
    subst h
    obtain ⟨_, h1, h2, -⟩ := hd
    exact ⟨⟨h1, h2⟩, by simp [TokenHead]⟩
  | .sequence args, cs, i, r, hd, h => by
    simp only [Desc.read, Option.some.injEq] at h
    subst h
    obtain ⟨-, a, ha, -⟩ := hd
    exact ⟨desc_sayableL hL ss args ha, by simp [TokenHead]⟩
  | .select args, cs, i, r, hd, h => by
    simp only [Desc.read, Option.some.injEq] at h
    subst h
    obtain ⟨-, a, ha, -⟩ := hd
    exact ⟨desc_sayableL hL ss args ha, by simp [TokenHead]⟩
  | .optional d, cs, i, r, hd, h => by
    simp only [Desc.read] at h
    obtain ⟨r', id, h', rfl⟩ := around_say h
    obtain ⟨a, ha, -⟩ := hd
    exact ⟨(desc_sayable hL ss d ha h').1, by simp [TokenHead]⟩
  | .not d, cs, i, r, hd, h => by
    simp only [Desc.read] at h
    obtain ⟨r', id, h', rfl⟩ := around_say h
    obtain ⟨a, ha, h1, h2, -⟩ := hd
    obtain ⟨h3, h4⟩ := desc_sayable hL ss d ha h'
    refine ⟨⟨h3, fun t inv p id e => ?_⟩, by simp [TokenHead]⟩
    rcases h4 t inv p id e with h | h
    · exact h1 h
    · exact h2 h
  | .separatedBy o t b d, cs, i, r, hd, h => by
    obtain ⟨s, n, v, a, w, c, u, -, ht, -, hb, -, -, hr, -, -⟩ := hd
    simp only [Desc.read] at h
    split at h
    · cases h
    · rename_i b' e
      obtain ⟨r', id, h', rfl⟩ := around_say h
      exact ⟨⟨(desc_sayable hL ss d hr h').1, (desc_sayable hL ss b hb e).1, switch_true ht⟩, by simp [TokenHead]⟩
  | .lines l d, cs, i, r, hd, h => by
    simp only [Desc.read] at h
    obtain ⟨r', id, h', rfl⟩ := around_say h
    obtain ⟨_, _, a, _, -, -, ha, -⟩ := hd
    exact ⟨(desc_sayable hL ss d ha h').1, by simp [TokenHead]⟩
  | .repeat_ o d, cs, i, r, hd, h => by
    simp only [Desc.read] at h
    obtain ⟨r', id, h', rfl⟩ := around_say h
    obtain ⟨a, ha, -⟩ := hd
    exact ⟨(desc_sayable hL ss d ha h').1, by simp [TokenHead]⟩
theorem desc_sayableL {L : Lexer} (hL : L.Lawful) (ss : List (Str × Str)) : (ds : List Desc) → ∀ {cs : Str} {i : Nat},
    Desc.TextL L ds cs → SayableAll (Desc.readL ss ds i).1
  | [], _, _, _ => by simp only [Desc.readL]; trivial
  | d :: ds, cs, i, h => by
    obtain ⟨w, a, u, -, ha, hu, -, -⟩ := h
    simp only [Desc.readL]
    refine sayableAll_append ?_ (desc_sayableL hL ss ds hu)
    cases e : (d.read ss i).1 with
    | none => trivial
    | some r => exact ⟨(desc_sayable hL ss d ha e).1, trivial⟩
end

theorem entries_nodes {L : Lexer} : ∀ {es : List Entry} {first : Bool} {cs : Str}, EntriesText L first es cs →
    ∀ x ∈ nodesIn es, GoodName x.2.1 ∧ ∃ a, x.2.2.Text L a
  | [], _, _, _ => by simp [nodesIn]
  | e :: es, first, cs, h => by
    obtain ⟨w, a, u, -, -, he, hu, -⟩ := h
    have ih := entries_nodes hu
    cases e with
    | comment => exact ih
    | string => exact ih
    | node k name d =>
      intro x hx
      simp only [nodesIn, List.mem_cons] at hx
      rcases hx with rfl | hx
      · obtain ⟨_, _, _, _, a, -, -, -, h1, h2, -, -, -, h3, -⟩ := he
        exact ⟨⟨h1, h2⟩, a, h3⟩
      · exact ih x hx

theorem nodesIn_append (es es' : List Entry) : nodesIn (es ++ es') = nodesIn es ++ nodesIn es' := by
  induction es with
  | nil => rfl
  | cons e es ih => cases e <;> simp [nodesIn, ih]

theorem docRead_sayable {L : Lexer} (hL : L.Lawful) (ss : List (Str × Str)) : ∀ {ns : List (F64 × Str × Desc)} {rs},
    (∀ x ∈ ns, GoodName x.2.1 ∧ ∃ a, x.2.2.Text L a) → (Doc.read ss ns).1 = some rs →
    ∀ x ∈ rs, GoodName x.1 ∧ Sayable x.2
  | [], rs, _, h => by
    simp only [Doc.read, Option.some.injEq] at h
    subst h
    simp
  | (k, name, d) :: ns, rs, hn, h => by
    simp only [Doc.read] at h
    split at h
    · cases h
    · rename_i r e
      simp only [Option.map_eq_some_iff] at h
      obtain ⟨rs', h, rfl⟩ := h
      obtain ⟨h1, a, h2⟩ := hn (k, name, d) (by simp)
      intro x hx
      rcases List.mem_cons.1 hx with rfl | hx
      · exact ⟨h1, (desc_sayable hL ss d h2 e).1⟩
      · exact docRead_sayable hL ss (fun x hx => hn x (by simp [hx])) h x hx

theorem says_sayable {L : Lexer} (hL : L.Lawful) {text : Str} {rs : List (Str × Rule)} (h : Says L text rs) :
    ∀ x ∈ rs, GoodName x.1 ∧ Sayable x.2 := by
  obtain ⟨doc, ⟨es, es', -, -, h1, -, h2⟩, -, h3⟩ := h
  refine docRead_sayable hL _ (fun x hx => ?_) h3
  refine entries_nodes h1 x ?_
  rw [nodesIn_append, ← h2]
  exact List.mem_append_right _ hx

/-! ### All of them -/

/-- The name of the empty string, and a name without a definition. -/
def sayStrings : List (Str × Str) := [(c!"e", [])]

def sayV (s : Str) : SetV := if s = [] then .ref c!"e" else .value s

mutual
/-- A description of the rule.  A text that must not be empty is referred to by name if it is; an
empty list is a list of a token that does not exist; a token is inverted without a name of data by a
name that is not defined. -/
def say : Rule → Desc
  | .whitespace o _ => .whitespace o
  | .untilAnyOrWs any o p _ => .untilAnyOrWs (sayV any) (some o) (p.map sayV)
  | .untilAny any o p _ => .untilAny (sayV any) (some o) (p.map sayV)
  | .tag t neg inv (some p) _ => .tag (ifSet neg) (sayV t) (ifSet inv) (some (sayV p))
  | .tag t neg true none _ => .tag (ifSet neg) (sayV t) (some true) (some (.ref c!"u"))
  | .tag t neg false none _ => .tag (ifSet neg) (sayV t) none none
  | .text e p _ => .text (some e) (p.map sayV)
  | .number p u _ => .number (ifSet u) (p.map sayV)
  | .node name p _ _ => .reference name (p.map sayV)
  | .sequence [] _ => .sequence [.tag none (.ref c!"u") none none]
  | .sequence (r :: rs) _ => .sequence (say r :: sayAll rs)
  | .select [] _ => .select [.tag none (.ref c!"u") none none]
  | .select (r :: rs) _ => .select (say r :: sayAll rs)
  | .fastSelect _ _ _ _ => .select []
  | .optional r _ => .optional (say r)
  | .not r _ => .not (say r)
  | .separateBy r b o t _ => .separatedBy (some o) (ifSet t) (say b) (say r)
  | .lines r i _ => .lines (ifSet i) (say r)
  | .repeat_ r o _ => .repeat_ o (say r)
def sayAll : List Rule → List Desc
  | [] => []
  | r :: rs => say r :: sayAll rs
end

theorem name_e : IsName c!"e" := by
  refine ⟨by decide, ?_⟩
  simp only [List.mem_singleton, forall_eq]
  exact ⟨by decide, by decide⟩

theorem name_u : IsName c!"u" := by
  refine ⟨by decide, ?_⟩
  simp only [List.mem_singleton, forall_eq]
  exact ⟨by decide, by decide⟩

theorem sayV_text {L : Lexer} (hL : L.Lawful) (b : Bool) (s : Str) : ∃ a, (sayV s).Text L b a := by
  unfold sayV
  split
  · exact ⟨_, name_e, rfl⟩
  · rename_i h
    exact ⟨_, quoted_lit hL s, fun e => absurd (quoted_empty e) h⟩

theorem sayP_text {L : Lexer} (hL : L.Lawful) (p : Option Str) : ∃ a, PropText L (p.map sayV) a := by
  cases p with
  | none => exact ⟨[], rfl⟩
  | some s =>
    obtain ⟨a, h⟩ := sayV_text hL false s
    exact ⟨_, a, h, rfl⟩

/-- What is said begins with a quote or underscore only if it is a token that is wanted. -/
def HeadOk (r : Rule) (cs : Str) : Prop :=
  ∃ c t, cs = c :: t ∧ (c = '"' ∨ c = '_' → ∃ s inv p id, r = .tag s false inv p id)

theorem mark_append (c : Char) (b : Bool) (t : Str) : mark c b ++ t = if b then c :: t else t := by
  cases b <;> rfl

theorem tag_head {L : Lexer} (hL : L.Lawful) {t : Str} {neg inv : Bool} {p : Option Str} {id : DebugId} {a : Str}
    (ha : (sayV t).Text L false a) (rest : Str) : HeadOk (.tag t neg inv p id) (mark '!' neg ++ (a ++ rest)) := by
  have := set_head hL ha rest
  cases neg with
  | true => exact ⟨'!', _, rfl, by simp⟩
  | false =>
    cases e : a ++ rest with
    | nil => rw [e] at this; simp at this
    | cons c u => exact ⟨c, u, by simp [mark], fun _ => ⟨t, inv, p, id, rfl⟩⟩

theorem name_head {name : Str} (h : GoodName name) : ∃ c t, name = c :: t ∧ ¬ (c = '"' ∨ c = '_') := by
  obtain ⟨⟨h1, h2⟩, h3⟩ := h
  cases name with
  | nil => exact absurd rfl h1
  | cons c t =>
    refine ⟨c, t, rfl, ?_⟩
    rintro (rfl | rfl)
    · exact absurd (h2 '"' (by simp)).1 (by decide)
    · exact h3 rfl

theorem undefined_list {L : Lexer} : Desc.TextL L [.tag none (.ref c!"u") none none] c!"_u" :=
  ⟨[], c!"_u", [], by simp [Space], ⟨[], c!"_u", rfl, ⟨name_u, rfl⟩, rfl, rfl⟩, by simp [Desc.TextL, Space], by simp, rfl⟩

mutual
theorem say_text {L : Lexer} (hL : L.Lawful) : (r : Rule) → Sayable r → ∃ cs, (say r).Text L cs ∧ HeadOk r cs
  | .whitespace o _, _ => ⟨['.', 'w', sign o], by simp only [say, Desc.Text], _, _, rfl, by simp⟩
  | .untilAnyOrWs any o p _, _ => by
    obtain ⟨a, ha⟩ := sayV_text hL true any
    obtain ⟨q, hq⟩ := sayP_text hL p
    exact ⟨_, ⟨a, o, q, ha, rfl, hq, rfl⟩, _, _, rfl, by simp⟩
  | .untilAny any o p _, _ => by
    obtain ⟨a, ha⟩ := sayV_text hL true any
    obtain ⟨q, hq⟩ := sayP_text hL p
    exact ⟨_, ⟨a, o, q, ha, rfl, hq, rfl⟩, _, _, rfl, by simp⟩
  | .tag t neg inv (some p) id, _ => by
    obtain ⟨a, ha⟩ := sayV_text hL false t
    obtain ⟨b, hb⟩ := sayV_text hL false p
    exact ⟨_, ⟨_, a, _, b, mark_switch '!' neg, ha, mark_switch '!' inv, hb, rfl⟩, tag_head hL ha _⟩
  | .tag t neg true none id, _ => by
    obtain ⟨a, ha⟩ := sayV_text hL false t
    exact ⟨_, ⟨_, a, _, _, mark_switch '!' neg, ha, ⟨rfl, rfl⟩, ⟨name_u, rfl⟩, rfl⟩, tag_head hL ha _⟩
  | .tag t neg false none id, _ => by
    obtain ⟨a, ha⟩ := sayV_text hL false t
    exact ⟨_, ⟨_, a, mark_switch '!' neg, ha, rfl, rfl⟩, by simpa using tag_head hL ha []⟩
  | .text e p _, _ => by
    obtain ⟨q, hq⟩ := sayP_text hL p
    exact ⟨_, ⟨e, q, rfl, hq, rfl⟩, _, _, rfl, by simp⟩
  | .number p u _, _ => by
    obtain ⟨q, hq⟩ := sayP_text hL p
    exact ⟨_, ⟨_, q, mark_switch '_' u, hq, rfl⟩, _, _, rfl, by simp⟩
  | .node name p _ _, h => by
    obtain ⟨q, hq⟩ := sayP_text hL p
    obtain ⟨c, t, e, hc⟩ := name_head h
    exact ⟨_, ⟨q, h.1, h.2, hq, rfl⟩, c, t ++ q, by rw [e]; rfl, fun h => absurd h hc⟩
  | .sequence [] _, _ => ⟨_, ⟨by simp, _, undefined_list, rfl⟩, _, _, rfl, by simp⟩
  | .sequence (r :: rs) _, h => by
    obtain ⟨a, ha⟩ := sayAll_text hL (r :: rs) h
    exact ⟨_, ⟨by simp, a, ha, rfl⟩, _, _, rfl, by simp⟩
  | .select [] _, _ => ⟨_, ⟨by simp, _, undefined_list, rfl⟩, _, _, rfl, by simp⟩
  | .select (r :: rs) _, h => by
    obtain ⟨a, ha⟩ := sayAll_text hL (r :: rs) h
    exact ⟨_, ⟨by simp, a, ha, rfl⟩, _, _, rfl, by simp⟩
  | .fastSelect .., h => h.elim
  | .optional r _, h => by
    obtain ⟨a, ha, -⟩ := say_text hL r h
    exact ⟨_, ⟨a, ha, rfl⟩, _, _, rfl, by simp⟩
  | .not r _, h => by
    obtain ⟨a, ha, c, t, rfl, hc⟩ := say_text hL r h.1
    refine ⟨_, ⟨c :: t, ha, ?_, ?_, rfl⟩, _, _, rfl, by simp⟩
    · simp only [List.head?_cons, ne_eq, Option.some.injEq]
      intro e
      obtain ⟨s, inv, p, id, e⟩ := hc (.inl e)
      exact h.2 s inv p id e
    · simp only [List.head?_cons, ne_eq, Option.some.injEq]
      intro e
      obtain ⟨s, inv, p, id, e⟩ := hc (.inr e)
      exact h.2 s inv p id e
  | .separateBy r b o t _, h => by
    obtain ⟨a, ha, -⟩ := say_text hL r h.1
    obtain ⟨c, hc, -⟩ := say_text hL b h.2.1
    exact ⟨_, ⟨o, _, [], c, [' '], a, [], rfl, mark_switch '.' t, by simp [Space], hc, by simp [Space]; decide, by simp, ha,
      by simp [Space], rfl⟩, _, _, rfl, by simp⟩
  | .lines r i _, h => by
    obtain ⟨a, ha, -⟩ := say_text hL r h
    exact ⟨_, ⟨_, [], a, [], mark_switch '+' i, by simp [Space], ha, by simp [Space], rfl⟩, _, _, rfl, by simp⟩
  | .repeat_ r o _, h => by
    obtain ⟨a, ha, -⟩ := say_text hL r h
    exact ⟨_, ⟨a, ha, rfl⟩, _, _, rfl, by simp⟩
theorem sayAll_text {L : Lexer} (hL : L.Lawful) : (rs : List Rule) → SayableAll rs → ∃ cs, Desc.TextL L (sayAll rs) cs
  | [], _ => ⟨[], by simp [sayAll, Desc.TextL, Space]⟩
  | r :: rs, h => by
    obtain ⟨a, ha, -⟩ := say_text hL r h.1
    obtain ⟨u, hu⟩ := sayAll_text hL rs h.2
    exact ⟨_, [], a, ' ' :: u, by simp [Space], ha, textL_space hu, fun _ => ⟨' ', rfl, by decide⟩, rfl⟩
end

theorem sayV_get (s : Str) : (sayV s).get sayStrings = some s := by
  unfold sayV
  split
  · rename_i h
    subst h
    rfl
  · rfl

theorem sayP_get (p : Option Str) : (p.map sayV).bind (·.get sayStrings) = p := by
  cases p with
  | none => rfl
  | some s => exact sayV_get s

mutual
/-- The description is read as the rule; it takes as many ids as the rule has. -/
theorem say_read : (r : Rule) → Sayable r → ∀ i, ∃ r' m,
    (say r).read sayStrings i = (some r', i + (Rule.ids r).length, m) ∧ renumber (fun _ => 0) r' = bare r
  | .whitespace o _, _, i => ⟨.whitespace o (i + 1), 0, by simp only [say, Desc.read, Rule.ids, List.length_singleton], rfl⟩
  | .untilAnyOrWs any o p _, h, i => ⟨.untilAnyOrWs any o p (i + 1), _, by
    simp [say, Desc.read, needs, sayV_get, sayP_get, Rule.ids]; rfl, rfl⟩
  | .untilAny any o p _, h, i => ⟨.untilAny any o p (i + 1), _, by
    simp [say, Desc.read, needs, sayV_get, sayP_get, Rule.ids]; rfl, rfl⟩
  | .tag t neg inv (some p) id, h, i => ⟨.tag t neg inv (some p) (i + 1), _, by
    simp [say, Desc.read, needs, sayV_get, ifSet_getD, Rule.ids]; rfl, rfl⟩
  | .tag t neg true none id, h, i => ⟨.tag t neg true none (i + 1), _, by
    simp [say, Desc.read, needs, sayV_get, ifSet_getD, Rule.ids]
    exact ⟨rfl, rfl⟩, rfl⟩
  | .tag t neg false none id, h, i => ⟨.tag t neg false none (i + 1), _, by
    simp [say, Desc.read, needs, sayV_get, ifSet_getD, Rule.ids]; rfl, rfl⟩
  | .text e p _, h, i => ⟨.text e p (i + 1), _, by
    simp [say, Desc.read, sayP_get, Rule.ids]; rfl, rfl⟩
  | .number p u _, h, i => ⟨.number p u (i + 1), _, by
    simp [say, Desc.read, sayP_get, ifSet_getD, Rule.ids]; rfl, rfl⟩
  | .node name p _ _, h, i => ⟨.node name p none (i + 1), _, by
    simp [say, Desc.read, sayP_get, Rule.ids]; rfl, rfl⟩
  | .sequence [] _, h, i => ⟨.sequence [] (i + 1), 2, by
    simp only [say, Desc.read, Desc.readL, Rule.ids, Rule.idsL]; rfl, rfl⟩
  | .select [] _, h, i => ⟨.select [] (i + 1), 2, by
    simp only [say, Desc.read, Desc.readL, Rule.ids, Rule.idsL]; rfl, rfl⟩
  | .sequence (r :: rs) _, h, i => by
    obtain ⟨rs', m, e, hb⟩ := sayAll_read (r :: rs) h i
    simp only [sayAll] at e
    exact ⟨.sequence rs' (i + (Rule.idsL (r :: rs)).length + 1), _, by
      simp only [say, Desc.read, e, Rule.ids, List.length_append, List.length_singleton, Nat.add_assoc]; rfl, by simp [bare, renumber, hb]⟩
  | .select (r :: rs) _, h, i => by
    obtain ⟨rs', m, e, hb⟩ := sayAll_read (r :: rs) h i
    simp only [sayAll] at e
    exact ⟨.select rs' (i + (Rule.idsL (r :: rs)).length + 1), _, by
      simp only [say, Desc.read, e, Rule.ids, List.length_append, List.length_singleton, Nat.add_assoc]; rfl, by simp [bare, renumber, hb]⟩
  | .fastSelect .., h, i => h.elim
  | .optional r _, h, i => by
    obtain ⟨r', m, e, hb⟩ := say_read r h i
    exact ⟨.optional r' (i + (Rule.ids r).length + 1), _, by simp only [say, Desc.read, e, around, Rule.ids, List.length_append, List.length_singleton, Nat.add_assoc]; rfl, by simp [bare, renumber, hb]⟩
  | .not r _, h, i => by
    obtain ⟨r', m, e, hb⟩ := say_read r h.1 i
    exact ⟨.not r' (i + (Rule.ids r).length + 1), _, by simp only [say, Desc.read, e, around, Rule.ids, List.length_append, List.length_singleton, Nat.add_assoc]; rfl, by simp [bare, renumber, hb]⟩
  | .separateBy r b o t _, h, i => by
    obtain ⟨hr, hb, rfl⟩ := h
    obtain ⟨b', m, e, hb⟩ := say_read b hb i
    obtain ⟨r', m', e', hb'⟩ := say_read r hr (i + (Rule.ids b).length)
    exact ⟨.separateBy r' b' o true (i + (Rule.ids b).length + (Rule.ids r).length + 1), _,
      by simp only [say, Desc.read, e, e', around, drop1, ifSet, Rule.ids, List.length_append, List.length_singleton, Nat.add_assoc]; rfl, by simp [bare, renumber, hb, hb']⟩
  | .lines r l _, h, i => by
    obtain ⟨r', m, e, hb⟩ := say_read r h i
    exact ⟨.lines r' l (i + (Rule.ids r).length + 1), _, by simp only [say, Desc.read, e, around, ifSet_getD, Rule.ids, List.length_append, List.length_singleton, Nat.add_assoc]; rfl, by simp [bare, renumber, hb]⟩
  | .repeat_ r o _, h, i => by
    obtain ⟨r', m, e, hb⟩ := say_read r h i
    exact ⟨.repeat_ r' o (i + (Rule.ids r).length + 1), _, by simp only [say, Desc.read, e, around, drop1, Rule.ids, List.length_append, List.length_singleton, Nat.add_assoc]; rfl, by simp [bare, renumber, hb]⟩
theorem sayAll_read : (rs : List Rule) → SayableAll rs → ∀ i, ∃ rs' m,
    Desc.readL sayStrings (sayAll rs) i = (rs', i + (Rule.idsL rs).length, m) ∧ renumberAll (fun _ => 0) rs' = bareAll rs
  | [], _, i => ⟨[], 0, by simp only [sayAll, Desc.readL, Rule.idsL]; rfl, rfl⟩
  | r :: rs, h, i => by
    obtain ⟨r', m, e, hb⟩ := say_read r h.1 i
    obtain ⟨rs', m', e', hb'⟩ := sayAll_read rs h.2 (i + (Rule.ids r).length)
    exact ⟨r' :: rs', _, by simp only [sayAll, Desc.readL, e, e', drop1, Rule.idsL, List.length_append, Nat.add_assoc]; rfl, by simp [bareAll, renumberAll, hb, hb']⟩
end

/-! ### Documents -/

/-- The digit zero is read as the number zero before whitespace. -/
def ReadsZero (L : Lexer) : Prop := ∀ c rest, isWs c = true → IsNumber L ⟨0⟩ c!"0" (c :: rest)

def sayNodes (rs : List (Str × Rule)) : List (F64 × Str × Desc) := rs.map fun x => (⟨0⟩, x.1, say x.2)

theorem sayNodes_text {L : Lexer} (hL : L.Lawful) (hz : ReadsZero L) : ∀ {rs : List (Str × Rule)},
    (∀ x ∈ rs, GoodName x.1 ∧ Sayable x.2) →
    ∃ u, EntriesText L false ((sayNodes rs).map fun n => .node n.1 n.2.1 n.2.2) ('\n' :: u)
  | [], _ => ⟨[], by simp [sayNodes, EntriesText, Space]; decide⟩
  | x :: rs, h => by
    obtain ⟨u, hu⟩ := sayNodes_text hL hz fun x hx => h x (List.mem_cons_of_mem _ hx)
    obtain ⟨hn, hs⟩ := h x (by simp)
    obtain ⟨a, ha, -⟩ := say_text hL x.2 hs
    have hs : Space [' '] := by simp [Space]; decide
    refine ⟨c!"0" ++ ' ' :: (x.1 ++ c!" = " ++ a) ++ '\n' :: u, ['\n'], c!"0" ++ ' ' :: (x.1 ++ c!" = " ++ a), '\n' :: u,
      by simp [Space]; decide, by simp, ?_, hu, by simp⟩
    exact ⟨c!"0", [' '], [' '], [' '], a, hz _ _ (by decide), hs, by simp, hn.1, hn.2, hs, by simp, hs, ha, by simp⟩

theorem nodesIn_map (ns : List (F64 × Str × Desc)) : nodesIn (ns.map fun n => .node n.1 n.2.1 n.2.2) = ns := by
  induction ns with
  | nil => rfl
  | cons n ns ih => simp [nodesIn, ih]

theorem sayDoc_text {L : Lexer} (hL : L.Lawful) (hz : ReadsZero L) {rs : List (Str × Rule)}
    (h : ∀ x ∈ rs, GoodName x.1 ∧ Sayable x.2) : ∃ text, Doc.Text L ⟨sayStrings, sayNodes rs⟩ text := by
  obtain ⟨u, hu⟩ := sayNodes_text hL hz h
  refine ⟨c!"_e:\"\"" ++ '\n' :: u, [.string c!"e" []], (sayNodes rs).map (fun n : F64 × Str × Desc => Entry.node n.1 n.2.1 n.2.2), by simp [Entry.isNode], ?_,
    ⟨[], c!"_e:\"\"", '\n' :: u, by simp [Space], by simp, ?_, hu, rfl⟩, rfl, (nodesIn_map _).symm⟩
  · intro e he
    obtain ⟨n, -, rfl⟩ := List.mem_map.1 he
    rfl
  · exact ⟨[], c!"\"\"", name_e, by simp [Space], quoted_lit hL [], rfl⟩

theorem sayDoc_read : ∀ {rs : List (Str × Rule)}, (∀ x ∈ rs, GoodName x.1 ∧ Sayable x.2) →
    (∀ x ∈ rs, (Rule.ids x.2).length < 2 ^ 64) →
    ¬ Doc.Overflow sayStrings (sayNodes rs) ∧ ∃ rs', (Doc.read sayStrings (sayNodes rs)).1 = some rs' ∧
      rs'.map (fun x => (x.1, renumber (fun _ => 0) x.2)) = rs.map fun x => (x.1, bare x.2)
  | [], _, _ => ⟨by simp [sayNodes, Doc.Overflow], [], rfl, rfl⟩
  | x :: rs, h, hn => by
    obtain ⟨ho, rs', hr, hb⟩ := sayDoc_read (rs := rs) (fun x hx => h x (List.mem_cons_of_mem _ hx))
      fun x hx => hn x (List.mem_cons_of_mem _ hx)
    obtain ⟨r', m, e, hb'⟩ := say_read x.2 (h x (by simp)).2 0
    have hz : (⟨0⟩ : F64).toUsize * 1000 = 0 := by decide +kernel
    have hx := hn x (by simp)
    constructor
    · simp only [sayNodes, List.map_cons, Doc.Overflow, hz, e] at ho ⊢
      simp only [Option.isSome_some, true_and]
      rintro (h | h)
      · omega
      · exact ho h
    · refine ⟨(x.1, r') :: rs', ?_, by simp [hb, hb']⟩
      simp only [sayNodes, List.map_cons, Doc.read, hz, e] at hr ⊢
      rw [hr]
      rfl

theorem sayable_says {L : Lexer} (hL : L.Lawful) (hz : ReadsZero L) {rs : List (Str × Rule)}
    (h : ∀ x ∈ rs, GoodName x.1 ∧ Sayable x.2) (hn : ∀ x ∈ rs, (Rule.ids x.2).length < 2 ^ 64) :
    ∃ text rs', Says L text rs' ∧ rs'.map (fun x => (x.1, renumber (fun _ => 0) x.2)) = rs.map fun x => (x.1, bare x.2) := by
  obtain ⟨text, ht⟩ := sayDoc_text hL hz h
  obtain ⟨ho, rs', hr, hb⟩ := sayDoc_read h hn
  exact ⟨text, rs', ⟨_, ht, ho, hr⟩, hb⟩

mutual
theorem bare_bare : (r : Rule) → bare (bare r) = bare r
  | .whitespace .. => rfl
  | .untilAnyOrWs .. => rfl
  | .untilAny .. => rfl
  | .tag .. => rfl
  | .text .. => rfl
  | .number .. => rfl
  | .node .. => rfl
  | .sequence rs _ => by simp [bare, bareAll_bare rs]
  | .select rs _ => by simp [bare, bareAll_bare rs]
  | .fastSelect _ rs _ _ => by simp [bare, bareAll_bare rs]
  | .optional r _ => by simp [bare, bare_bare r]
  | .not r _ => by simp [bare, bare_bare r]
  | .separateBy r b _ _ _ => by simp [bare, bare_bare r, bare_bare b]
  | .lines r _ _ => by simp [bare, bare_bare r]
  | .repeat_ r _ _ => by simp [bare, bare_bare r]
theorem bareAll_bare : (rs : List Rule) → bareAll (bareAll rs) = bareAll rs
  | [] => rfl
  | r :: rs => by simp [bareAll, bare_bare r, bareAll_bare rs]
end

mutual
theorem bare_renumber (f : DebugId → DebugId) : (r : Rule) → bare (renumber f r) = bare r
  | .whitespace .. => rfl
  | .untilAnyOrWs .. => rfl
  | .untilAny .. => rfl
  | .tag .. => rfl
  | .text .. => rfl
  | .number .. => rfl
  | .node .. => rfl
  | .sequence rs _ => by simp [bare, renumber, bareAll_renumber f rs]
  | .select rs _ => by simp [bare, renumber, bareAll_renumber f rs]
  | .fastSelect _ rs _ _ => by simp [bare, renumber, bareAll_renumber f rs]
  | .optional r _ => by simp [bare, renumber, bare_renumber f r]
  | .not r _ => by simp [bare, renumber, bare_renumber f r]
  | .separateBy r b _ _ _ => by simp [bare, renumber, bare_renumber f r, bare_renumber f b]
  | .lines r _ _ => by simp [bare, renumber, bare_renumber f r]
  | .repeat_ r _ _ => by simp [bare, renumber, bare_renumber f r]
theorem bareAll_renumber (f : DebugId → DebugId) : (rs : List Rule) → bareAll (renumberAll f rs) = bareAll rs
  | [] => rfl
  | r :: rs => by simp [bareAll, renumberAll, bare_renumber f r, bareAll_renumber f rs]
end

theorem bare_of_renumber {f : DebugId → DebugId} {r r' : Rule} (h : renumber f r' = bare r) : bare r' = bare r := by
  rw [← bare_renumber f r', h, bare_bare]

theorem map_bare_of {f : DebugId → DebugId} : ∀ {rs rs' : List (Str × Rule)},
    rs'.map (fun x => (x.1, renumber f x.2)) = rs.map (fun x => (x.1, bare x.2)) →
    rs'.map (fun x => (x.1, bare x.2)) = rs.map fun x => (x.1, bare x.2)
  | [], [], _ => rfl
  | [], _ :: _, h => by simp at h
  | _ :: _, [], h => by simp at h
  | _ :: _, _ :: _, h => by
    simp only [List.map_cons, List.cons.injEq, Prod.mk.injEq] at h ⊢
    exact ⟨⟨h.1.1, bare_of_renumber h.1.2⟩, map_bare_of h.2⟩

mutual
theorem sayable_bare : {r r' : Rule} → bare r = bare r' → Sayable r → Sayable r'
  | .whitespace .., .whitespace .., _, _ => trivial
  | .untilAnyOrWs .., .untilAnyOrWs .., _, _ => trivial
  | .untilAny .., .untilAny .., _, _ => trivial
  | .tag .., .tag .., _, _ => trivial
  | .text .., .text .., _, _ => trivial
  | .number .., .number .., _, _ => trivial
  | .node .., .node .., e, h => by simp only [bare, Rule.node.injEq] at e; exact e.1 ▸ h
  | .sequence .., .sequence .., e, h => by simp only [bare, Rule.sequence.injEq] at e; exact sayable_bareAll e.1 h
  | .select .., .select .., e, h => by simp only [bare, Rule.select.injEq] at e; exact sayable_bareAll e.1 h
  | .optional r .., .optional r' .., e, h => by simp only [bare, Rule.optional.injEq] at e; exact sayable_bare (r := r) (r' := r') e.1 h
  | .not r _, .not r' _, e, h => by
    simp only [bare, Rule.not.injEq] at e
    refine ⟨sayable_bare e.1 h.1, ?_⟩
    rintro t inv p id rfl
    cases r <;> simp only [bare, reduceCtorEq, false_and] at e
    simp only [Rule.tag.injEq] at e
    obtain ⟨⟨rfl, rfl, rfl, rfl, -⟩, -⟩ := e
    exact h.2 _ _ _ _ rfl
  | .separateBy .., .separateBy .., e, h => by
    simp only [bare, Rule.separateBy.injEq] at e
    exact ⟨sayable_bare e.1 h.1, sayable_bare e.2.1 h.2.1, e.2.2.2.1 ▸ h.2.2⟩
  | .lines r .., .lines r' .., e, h => by simp only [bare, Rule.lines.injEq] at e; exact sayable_bare (r := r) (r' := r') e.1 h
  | .repeat_ r .., .repeat_ r' .., e, h => by simp only [bare, Rule.repeat_.injEq] at e; exact sayable_bare (r := r) (r' := r') e.1 h
  | .fastSelect .., _, _, h => h.elim
theorem sayable_bareAll : {rs rs' : List Rule} → bareAll rs = bareAll rs' → SayableAll rs → SayableAll rs'
  | [], [], _, _ => trivial
  | _ :: _, _ :: _, e, h => by
    simp only [bareAll, List.cons.injEq] at e
    exact ⟨sayable_bare e.1 h.1, sayable_bareAll e.2 h.2⟩
end

end Verif
