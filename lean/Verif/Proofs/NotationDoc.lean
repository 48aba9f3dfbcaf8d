import Verif.Proofs.NotationRule
import Verif.Proofs.Api
import Verif.Spec.Syntax
/-
The bootstrap rule `document` reads the notation of a document.
-/
namespace Verif
open Spec

namespace Boot
section
variable {pl : Bool} {E : Env} {cs rest : Str} {ds : List MetaData}

/-! ### Lines -/

theorem nonBlankLine_head {x : Str} (h : ∃ c t, x = c :: t ∧ isWs c = false) : NonBlankLine x := by
  obtain ⟨c, t, rfl, hc⟩ := h
  exact ⟨[], c, t, rfl, hc, by simp⟩

/-- Whitespace before something else: where the line begins. -/
theorem line_begins {L : Lexer} (hL : L.Lawful) {first : Bool} {item w x : Str} (hw : Space w)
    (hn : first = false → '\n' ∈ w) (hx : ∃ c t, x = c :: t ∧ isWs c = false) :
    ∃ w1 w2, w = w1 ++ w2 ∧ L.lineNext first item (w ++ x) = .call w1.length := by
  obtain ⟨c, t, rfl, hc⟩ := hx
  cases h : L.lineNext first item (w ++ c :: t) with
  | call k =>
    obtain ⟨h1, h2, -, -, -⟩ := hL.line_call h
    have hk : k ≤ w.length := by
      apply Nat.le_of_not_lt
      intro hk
      have : c ∈ (w ++ c :: t).take k := by
        rw [List.take_append]
        refine List.mem_append_right _ ?_
        obtain ⟨m, hm⟩ : ∃ m, k - w.length = m + 1 := ⟨k - w.length - 1, by omega⟩
        rw [hm]
        simp
      rw [h2 c this] at hc
      cases hc
    exact ⟨w.take k, w.drop k, (List.take_append_drop k w).symm, by simp [Nat.min_eq_left hk]⟩
  | done k =>
    have := (hL.line_done h).2 c (by simp)
    rw [this] at hc
    cases hc
  | fail k =>
    obtain ⟨h1, h2, h3, a, y, b, e, hy, ha⟩ := hL.line_fail h
    exfalso
    have hnl := hn h1
    -- no new line before the first character that is not whitespace
    have e' : w ++ c :: t = ((w ++ c :: t).take k ++ a) ++ y :: b := by
      rw [List.append_assoc, ← e, List.take_append_drop]
    generalize hp : (w ++ c :: t).take k ++ a = p at e'
    have hp' : ∀ z ∈ p, isWs z = true ∧ z ≠ '\n' := by
      rw [← hp]
      intro z hz
      rcases List.mem_append.1 hz with hz | hz
      · exact h3 z hz
      · exact ha z hz
    rcases List.append_eq_append_iff.1 e' with ⟨q, rfl, hq⟩ | ⟨q, rfl, hq⟩
    · exact (hp' '\n' (List.mem_append_left _ hnl)).2 rfl
    · cases q with
      | nil =>
        simp only [List.append_nil] at hnl
        exact (hp' '\n' hnl).2 rfl
      | cons z q =>
        simp only [List.cons_append, List.cons.injEq] at hq
        obtain ⟨rfl, -⟩ := hq
        rw [hw y (by simp)] at hy
        cases hy

theorem lines_end {L : Lexer} (hL : L.Lawful) {first : Bool} {item w : Str} (hw : Space w) :
    L.lineNext first item w = .done w.length := by
  cases h : L.lineNext first item w with
  | call k =>
    obtain ⟨-, -, -, ⟨a, c, b, e, hc, -⟩, -⟩ := hL.line_call h
    have : c ∈ w := List.mem_of_mem_drop (i := k) (by rw [e]; simp)
    rw [hw c this] at hc
    cases hc
  | done k => rw [(hL.line_done h).1]
  | fail k =>
    obtain ⟨-, -, -, a, c, b, e, hc, -⟩ := hL.line_fail h
    have : c ∈ w := List.mem_of_mem_drop (i := k) (by rw [e]; simp)
    rw [hw c this] at hc
    cases hc

theorem reads_lines {r ind id} (h : Reads E (.lines r ind id true []) cs rest ds) :
    Reads E (.rule (.lines r ind id)) cs rest ds :=
  fun o i => let ⟨ts, tr, h, e⟩ := h o i; ⟨ts, tr, .lines h, e⟩

theorem reads_linesDone {r id first item} (hL : E.L.Lawful) (h : Space cs) :
    Reads E (.lines r false id first item) cs [] [] := fun o i =>
  ⟨[], [], .lines_done (by rw [List.append_nil]; exact lines_end hL h), rfl⟩

theorem reads_linesStop {r id first item} (h : E.L.lineNext first item (cs ++ rest) = .call cs.length)
    (h' : Refuses E (.rule r) rest) : Reads E (.lines r false id first item) cs rest [] := fun o i => by
  obtain ⟨tr, hr⟩ := h' (o + cs.length) i
  have : adv ⟨cs ++ rest, o⟩ cs.length = ⟨rest, o + cs.length⟩ := by simp [adv]
  exact ⟨[], tr, .lines_stop h (.line_plain (by rw [this]; exact hr)), rfl⟩

theorem reads_linesMore {r id first item k a u d d'}
    (h : E.L.lineNext first item (k ++ (a ++ (u ++ rest))) = .call k.length)
    (h' : Reads E (.rule r) a (u ++ rest) d) (h'' : Reads E (.lines r false id false a) u rest d') :
    Reads E (.lines r false id first item) (k ++ (a ++ u)) rest (d ++ d') := fun o i => by
  obtain ⟨ts, tr, hr, e⟩ := h' (o + k.length) i
  obtain ⟨ts', tr', hr', e'⟩ := h'' (o + (k.length + a.length)) i
  have h1 : adv ⟨k ++ (a ++ (u ++ rest)), o⟩ k.length = ⟨a ++ (u ++ rest), o + k.length⟩ := by simp [adv]
  have h2 : adv ⟨k ++ (a ++ (u ++ rest)), o⟩ (k.length + a.length) = ⟨u ++ rest, o + (k.length + a.length)⟩ := by
    have : List.drop (k.length + a.length) (k ++ (a ++ (u ++ rest))) = u ++ rest := by
      rw [← List.append_assoc, ← List.length_append, List.drop_left]
    simp [adv, this]
  have h3 : ((k ++ (a ++ (u ++ rest))).drop k.length).take a.length = a := by simp
  have := Run.lines_more (ind := false) (id := id) h (.line_plain (by rw [h1]; exact hr)) (o := some (u.length, ts'))
    (by rw [h2, h3]; exact hr')
  exact ⟨ts ++ ts', _, by simpa [before, Nat.add_assoc] using this, by simp [e, e']⟩

theorem refuses_number {prop us id} (h : E.L.num us cs = none) : Refuses E (.rule (.number prop us id)) cs :=
  fun _ _ => ⟨_, .num_none h⟩

end

variable {pl : Bool} {E : Env} {cs rest : Str} {ds : List MetaData}

/-! ### Comments -/

/-- The part of a comment that is repeated. -/
abbrev piece : Rule := .select
  [.sequence
    [.tag c!"*/" true false none 7,
     .tag c!"*" false false none 8,
     .untilAny c!"*/" true none 9] 6,
   .sequence
    [.node c!"multi_line_comment" none (some 0) 11,
     .untilAny c!"*/" true none 12] 10,
   .sequence
    [.tag c!"/" false false none 14,
     .untilAny c!"*/" true none 15] 13] 5

/-- A character that does not begin or end a comment. -/
def Plain (p : Str) : Prop := ∀ c ∈ p, c ∉ c!"*/"

/-- What follows the plain characters. -/
def Stopped (b : Str) : Prop := ∀ c, b.head? = some c → c ∈ c!"*/"

/-- What follows the body of a comment: its end, or the end of the text. -/
def Closed (rest : Str) : Prop := rest = [] ∨ ∃ t, rest = '*' :: '/' :: t

theorem plain_reads {id} {p b : Str} (hp : Plain p) (hb : Stopped b) (hr : Closed rest) :
    Reads E (.rule (.untilAny c!"*/" true none id)) p (b ++ rest) [] := by
  refine reads_until hp ?_ fun _ => rfl
  intro c hc
  cases b with
  | nil =>
    rcases hr with rfl | ⟨t, rfl⟩
    · cases hc
    · cases hc; simp
  | cons x t => cases hc; exact hb _ rfl

theorem nested_reads {p b : Str} (hp : Plain p) (hb : Stopped b)
    (h : Reads E (.rep piece) b ('*' :: '/' :: rest) []) :
    Reads E (.rule multiLineComment) ('/' :: '*' :: (p ++ (b ++ ['*', '/']))) rest [] :=
  (reads_sequence (reads_cons (a := c!"/*") (b := p ++ (b ++ ['*', '/'])) reads_tag (reads_cons
    (by simpa using plain_reads (id := 3) (rest := '*' :: '/' :: rest) hp hb (.inr ⟨_, rfl⟩))
    (reads_cons (reads_repeat (by exact h)) (reads_last reads_tag))))).cast rfl

theorem multiLine_refuses (h : ¬ c!"/*" <+: cs) : Refuses E (.rule multiLineComment) cs := refuses_tagged h

theorem unclosed_refuses {p b : Str} (hp : Plain p) (hb : Stopped b) (h : Reads E (.rep piece) b [] []) :
    Refuses E (.rule multiLineComment) ('/' :: '*' :: (p ++ b)) := by
  refine refuses_sequence (refuses_later (a := c!"/*") reads_tag
    (refuses_later (by simpa using plain_reads (rest := []) hp hb (.inl rfl)) ?_))
  have := refuses_later (reads_repeat (id := 4) h)
    (refuses_first (rs := []) (refuses_tag (cs := []) (t := c!"*/") (inv := false) (prop := none) (id := 16) (by simp)))
  simpa using this

theorem plain_cons {c : Char} {p : Str} (h : c ≠ '*') (h' : c ≠ '/') (hp : Plain p) : Plain (c :: p) := by
  intro x hx
  rcases List.mem_cons.1 hx with rfl | hx
  · simp [h, h']
  · exact hp x hx

theorem body_reads (hE : E.refs = refsOf pl) {b rest : Str} (h : CommentBody b rest) : Closed rest →
    ∃ p b', b = p ++ b' ∧ Plain p ∧ Stopped b' ∧ Reads E (.rep piece) b' rest [] := by
  have h0 : E.refs[0]? = some multiLineComment := by rw [hE]; rfl
  induction h with
  | @nil rest =>
    intro hr
    refine ⟨[], [], rfl, by simp [Plain], by simp [Stopped], reads_stop (refuses_select
      (refuses_next (refuses_sequence ?_) (refuses_next ?_ (refuses_next (refuses_tagged ?_) refuses_none))))⟩
    · rcases hr with rfl | ⟨t, rfl⟩
      · exact refuses_laterNil (reads_notTag (by simp)) (refuses_first (refuses_tag (by simp)))
      · exact refuses_first (refuses_notTag (by simp))
    · refine refuses_sequence (refuses_first (refuses_node h0 (multiLine_refuses ?_)))
      rcases hr with rfl | ⟨t, rfl⟩ <;> simp
    · rcases hr with rfl | ⟨t, rfl⟩ <;> simp
  | plain h h' hb ih =>
    intro hr
    obtain ⟨p, b', rfl, hp, hs, ih⟩ := ih hr
    exact ⟨_ :: p, b', rfl, plain_cons h h' hp, hs, ih⟩
  | @star b rest h hb ih =>
    intro hr
    obtain ⟨p, b', rfl, hp, hs, ih⟩ := ih hr
    refine ⟨[], '*' :: (p ++ b'), rfl, by simp [Plain], by simp [Stopped], ?_⟩
    have hn : ¬ c!"*/" <+: ('*' :: (p ++ (b' ++ rest))) := by
      rintro ⟨t, e⟩
      simp only [List.cons_append, List.nil_append, List.cons.injEq, true_and] at e
      rw [List.append_assoc, ← e] at h
      exact h rfl
    exact (reads_more (a := '*' :: p) (b := b') (reads_select (reads_here (reads_sequence (reads_consNil
      (reads_notTag hn) (reads_cons1 reads_tag (reads_last (plain_reads hp hs hr))))))) ih).cast rfl
  | @slash b rest h hb ih =>
    intro hr
    obtain ⟨p, b', rfl, hp, hs, ih⟩ := ih hr
    refine ⟨[], '/' :: (p ++ b'), rfl, by simp [Plain], by simp [Stopped], ?_⟩
    have hn : ¬ c!"/*" <+: ('/' :: (p ++ (b' ++ rest))) := by
      rintro ⟨t, e⟩
      simp only [List.cons_append, List.nil_append, List.cons.injEq, true_and] at e
      rw [List.append_assoc, ← e] at h
      exact h rfl
    exact (reads_more (a := '/' :: p) (b := b') (reads_select
      (reads_next (refuses_sequence (refuses_laterNil (reads_notTag (by simp)) (refuses_first (refuses_tag (by simp)))))
      (reads_next (refuses_sequence (refuses_first (refuses_node h0 (multiLine_refuses (by simpa using hn)))))
      (reads_here (reads_sequence (reads_cons1 reads_tag (reads_last (plain_reads hp hs hr)))))))) ih).cast rfl
  | @unclosed b rest t e h hb iht ih =>
    intro hr
    obtain ⟨q, t', rfl, hq, ht, iht⟩ := iht (.inl rfl)
    obtain ⟨p, b', rfl, hp, hs, ih⟩ := ih hr
    refine ⟨[], '/' :: (p ++ b'), rfl, by simp [Plain], by simp [Stopped], ?_⟩
    have hn : Refuses E (.rule multiLineComment) ('/' :: (p ++ (b' ++ rest))) := by
      rw [← List.append_assoc, e]
      exact unclosed_refuses hq ht iht
    exact (reads_more (a := '/' :: p) (b := b') (reads_select
      (reads_next (refuses_sequence (refuses_laterNil (reads_notTag (by simp)) (refuses_first (refuses_tag (by simp)))))
      (reads_next (refuses_sequence (refuses_first (refuses_node h0 (by simpa using hn))))
      (reads_here (reads_sequence (reads_cons1 reads_tag (reads_last (plain_reads hp hs hr)))))))) ih).cast rfl
  | @nested b c rest hb hc ih ih' =>
    intro hr
    obtain ⟨p, b', rfl, hp, hs, ih⟩ := ih (.inr ⟨_, rfl⟩)
    obtain ⟨p', c', rfl, hp', hs', ih'⟩ := ih' hr
    refine ⟨[], _, rfl, by simp [Plain], by simp [Stopped], ?_⟩
    have e : '/' :: '*' :: (p ++ b' ++ '*' :: '/' :: (p' ++ c')) =
        (('/' :: '*' :: (p ++ (b' ++ ['*', '/']))) ++ p') ++ c' := by simp
    rw [e]
    exact (reads_more (reads_select
      (reads_next (refuses_sequence (refuses_laterNil (reads_notTag (by simp)) (refuses_first (refuses_tag (by simp)))))
      (reads_here (reads_sequence (reads_cons (reads_nodeNone h0 (nested_reads hp hs (by simpa using ih)))
        (reads_last (plain_reads hp' hs' hr))))))) ih').cast rfl

theorem comment_reads (hE : E.refs = refsOf pl) (h : IsComment cs rest) : Reads E (.rule comment) cs rest [] := by
  have h0 : E.refs[0]? = some multiLineComment := by rw [hE]; rfl
  cases h with
  | @block b _ h =>
    obtain ⟨p, b', rfl, hp, hs, h⟩ := body_reads hE h (.inr ⟨_, rfl⟩)
    exact reads_select (reads_here (reads_nodeNone h0 (by simpa using nested_reads hp hs h)))
  | @line b _ h hr =>
    refine reads_select (reads_next (refuses_node h0 (multiLine_refuses (by simp))) (reads_here ?_))
    refine (reads_sequence (reads_cons (a := c!"//") (b := b) reads_tag (reads_last (reads_until ?_ ?_ fun _ => rfl)))).cast rfl
    · intro c hc hx
      simp only [List.mem_cons, List.not_mem_nil, or_false] at hx
      exact h (hx ▸ hc)
    · intro c hc
      rcases hr with rfl | hr
      · cases hc
      · rw [hr] at hc; cases hc; simp

theorem comment_refuses (hE : E.refs = refsOf pl) (h : cs.head? ≠ some '/') : Refuses E (.rule comment) cs :=
  refuses_select (refuses_next (refuses_node (by rw [hE]; rfl) (multiLine_refuses (not_prefix h)))
    (refuses_next (refuses_tagged (not_prefix h)) refuses_none))

/-! ### Entries -/

theorem string_reads (hL : E.L.Lawful) {name t w a : Str} (hn : IsName name) (hw : Space w) (ha : IsLit E.L t a) :
    Reads E (.rule string) ('_' :: (name ++ ':' :: (w ++ a))) rest [.string c!"name" name, .string c!"text" t] := by
  have hx : ∃ c t, a = c :: t ∧ isWs c = false := by
    obtain ⟨t, rfl⟩ := isLit_head hL ha
    exact ⟨_, _, rfl, by decide⟩
  exact (reads_sequence (reads_cons1 reads_tag (reads_cons (name_reads hn (by exact noName_cons (by decide)))
    (reads_cons1 reads_tag (reads_cons (reads_ws hw (headWs hx) fun _ => rfl)
    (reads_last (isLit_reads ha fun _ => rfl))))))).cast rfl

theorem number_cons {L : Lexer} (hL : L.Lawful) {v : F64} {n s : Str} (h : IsNumber L v n s) :
    ∃ c t, n = c :: t ∧ isWs c = false ∧ c ≠ '_' ∧ c ≠ '/' := by
  cases n with
  | nil => have := (hL.num_some h.2.1).1; simp at this
  | cons c t => exact ⟨c, t, rfl, h.1 c rfl⟩

theorem node_reads (hE : E.refs = refsOf pl) (hL : E.L.Lawful) {k : F64} {n v name w x a : Str} {d : Desc}
    (hk : IsNumber E.L k n (v ++ (name ++ (w ++ '=' :: (x ++ (a ++ rest)))))) (hv : Space v) (hv0 : v ≠ []) (hn : IsName name) (h0 : name.head? ≠ some '_')
    (hw : Space w) (hw0 : w ≠ []) (hx : Space x) (hp : pl = false → d.plain = true) (ha : d.Text E.L a)
    (hf : Follow rest) :
    Reads E (.rule node) (n ++ (v ++ (name ++ (w ++ '=' :: (x ++ a))))) rest
      (.f64 c!"id" k :: .string c!"name" name :: nodeOf c!"rule" d.data) := by
  have hname : NoName (w ++ '=' :: (x ++ a) ++ rest) := by
    have := follow_noName (follow_ws (s := '=' :: (x ++ a) ++ rest) hw hw0)
    simpa using this
  obtain ⟨c, t, e, hc⟩ := name_cons hn
  have hdot : c ≠ '.' := nameChar_ne hc (by decide)
  have hus : c ≠ '_' := by simpa [e] using h0
  have hhead : ∀ {y s : Str}, ¬ ('_' :: y) <+: name ++ s ∧ ¬ ('.' :: y) <+: name ++ s := by
    intro y s
    subst e
    exact ⟨not_prefix (by simpa using hus), not_prefix (by simpa using hdot)⟩
  have hws : ∃ c t, name = c :: t ∧ isWs c = false := ⟨c, t, e, hc.2⟩
  exact (reads_sequence (reads_cons (reads_number (by simpa using hk.2.1) (by simpa using hk.2.2))
    (reads_cons (reads_ws hv (headWs (head_app hws)) fun e => absurd e hv0)
    (reads_consNil (reads_notTag (by simpa using hhead.1)) (reads_consNil (reads_notTag (by simpa using hhead.2))
    (reads_cons (name_reads hn hname) (reads_cons (reads_ws hw (headWs1 (by decide)) fun _ => rfl)
    (reads_cons1 reads_tag (reads_cons (reads_ws hx (headWs (desc_head hL ha)) fun _ => rfl)
    (reads_last (reads_node (by rw [hE]; rfl) (desc_reads hE hL d a rest hp ha hf)))))))))))).cast rfl

/-- The first block of lines. -/
abbrev item1 : Rule := .sequence
  [.whitespace true 22004,
   .select
    [.node c!"string" (some c!"string") (some 2) 22006,
     .node c!"comment" none (some 1) 22007] 22005] 22003

/-- The second block of lines. -/
abbrev item2 : Rule := .sequence
  [.whitespace true 22010,
   .select
    [.node c!"node" (some c!"node") (some 3) 22012,
     .node c!"comment" none (some 1) 22013] 22011] 22009

/-- The data of the strings. -/
abbrev stringData (ss : List (Str × Str)) : List MetaData :=
  ss.flatMap fun s => nodeOf c!"string" [.string c!"name" s.1, .string c!"text" s.2]

/-- The data of the nodes. -/
abbrev nodeData (ns : List (F64 × Str × Desc)) : List MetaData :=
  ns.flatMap fun n => nodeOf c!"node" (.f64 c!"id" n.1 :: .string c!"name" n.2.1 :: nodeOf c!"rule" n.2.2.data)

theorem entry_head (hL : E.L.Lawful) {e : Entry} {u : Str} (h : e.Text E.L cs u) :
    ∃ c t, cs = c :: t ∧ isWs c = false := by
  cases e with
  | comment => cases h <;> exact ⟨_, _, rfl, by decide⟩
  | string name t => obtain ⟨w, a, -, -, -, rfl⟩ := h; exact ⟨_, _, rfl, by decide⟩
  | node k name d =>
    obtain ⟨n, v, w, x, a, hk, -, -, -, -, -, -, -, -, rfl⟩ := h
    obtain ⟨c, t, rfl, hc, -⟩ := number_cons hL hk
    exact ⟨c, _, rfl, hc⟩

theorem comment_head {u : Str} (h : IsComment cs u) : ∃ t, cs = '/' :: t := by
  cases h <;> exact ⟨_, rfl⟩

theorem item1_reads (hE : E.refs = refsOf pl) (hL : E.L.Lawful) {e : Entry} {w : Str} (hw : Space w)
    (h : e.Text E.L cs rest) (hn : e.isNode = false) :
    Reads E (.rule item1) (w ++ cs) rest (stringData (stringsIn [e])) := by
  have hh := entry_head hL h
  cases e with
  | comment =>
    obtain ⟨t, rfl⟩ := comment_head h
    exact (reads_sequence (reads_cons (reads_ws hw (headWs hh) fun _ => rfl) (reads_last (reads_select
      (reads_next (refuses_node (by rw [hE]; rfl) (refuses_tagged (by simp)))
      (reads_here (reads_nodeNone (by rw [hE]; rfl) (comment_reads hE h)))))))).cast rfl
  | string name t =>
    obtain ⟨v, a, hname, hv, ha, rfl⟩ := h
    exact (reads_sequence (reads_cons (reads_ws hw (headWs hh) fun _ => rfl) (reads_last (reads_select
      (reads_here (reads_node (by rw [hE]; rfl) (string_reads hL hname hv ha))))))).cast (by simp [stringsIn])
  | node k name d => cases hn

theorem item1_refuses (hE : E.refs = refsOf pl) (hL : E.L.Lawful) {k : F64} {name : Str} {d : Desc} {w u : Str} (hw : Space w)
    (h : (Entry.node k name d).Text E.L cs u) : Refuses E (.rule item1) (w ++ (cs ++ rest)) := by
  obtain ⟨n, v, y, x, a, hk, -, -, -, -, -, -, -, -, rfl⟩ := h
  obtain ⟨c, t, rfl, hc, h1, h2⟩ := number_cons hL hk
  refine refuses_sequence (refuses_later (reads_ws hw (headWs ⟨c, _, rfl, hc⟩) fun _ => rfl) (refuses_first
    (refuses_select (refuses_next (refuses_node (by rw [hE]; rfl) (refuses_tagged (not_prefix (by simpa using h1))))
    (refuses_next (refuses_node (by rw [hE]; rfl) (comment_refuses hE (by simpa using h2))) refuses_none)))))

theorem item2_reads (hE : E.refs = refsOf pl) (hL : E.L.Lawful) (hs : ∀ s, E.L.num false ('/' :: s) = none)
    {e : Entry} {w : Str} (hw : Space w) (hp : pl = false → e.plain = true) (h : e.Text E.L cs rest)
    (hn : e.isString = false) (hf : e.isNode = true → Follow rest) :
    Reads E (.rule item2) (w ++ cs) rest (nodeData (nodesIn [e])) := by
  have hh := entry_head hL h
  cases e with
  | comment =>
    obtain ⟨t, rfl⟩ := comment_head h
    exact (reads_sequence (reads_cons (reads_ws hw (headWs hh) fun _ => rfl) (reads_last (reads_select
      (reads_next (refuses_node (by rw [hE]; rfl) (refuses_sequence (refuses_first (refuses_number (hs _)))))
      (reads_here (reads_nodeNone (by rw [hE]; rfl) (comment_reads hE h)))))))).cast rfl
  | string name t => cases hn
  | node k name d =>
    obtain ⟨n, v, y, x, a, hk, hv, hv0, hname, h0, hy, hy0, hx, ha, rfl⟩ := h
    exact (reads_sequence (reads_cons (reads_ws hw (headWs hh) fun _ => rfl) (reads_last (reads_select
      (reads_here (reads_node (by rw [hE]; rfl)
        (node_reads hE hL hk hv hv0 hname h0 hy hy0 hx hp ha (hf rfl)))))))).cast (by simp [nodesIn])

theorem entries_follow {L : Lexer} {es : List Entry} {u : Str} (h : EntriesText L false es u) : Follow u := by
  cases es with
  | nil =>
    intro c hc
    cases u with
    | nil => cases hc
    | cons x t => cases hc; exact .inl (h _ (by simp))
  | cons e es =>
    obtain ⟨w, a, u, hw, hn, -, -, rfl⟩ := h
    exact follow_ws hw (by rintro rfl; exact absurd (hn rfl) (by simp))

theorem stringsIn_cons (e : Entry) (es : List Entry) : stringsIn (e :: es) = stringsIn [e] ++ stringsIn es := by
  cases e <;> rfl

theorem nodesIn_cons (e : Entry) (es : List Entry) : nodesIn (e :: es) = nodesIn [e] ++ nodesIn es := by
  cases e <;> rfl

theorem block1_reads (hE : E.refs = refsOf pl) (hL : E.L.Lawful) {id : DebugId} {es' : List Entry}
    (h' : es' = [] ∨ ∃ k n d t, es' = .node k n d :: t) :
    ∀ (es : List Entry) (first : Bool) (item cs : Str), (∀ e ∈ es, e.isNode = false) →
      EntriesText E.L first (es ++ es') cs →
      ∃ p q, cs = p ++ q ∧ Reads E (.lines item1 false id first item) p q (stringData (stringsIn es)) ∧
        EntriesText E.L true es' q
  | [], first, item, cs, _, h => by
    rcases h' with rfl | ⟨k, n, d, t, rfl⟩
    · exact ⟨cs, [], by simp, reads_linesDone hL h, by simp [EntriesText, Space]⟩
    · obtain ⟨w, a, u, hw, hn, ha, hu, rfl⟩ := h
      obtain ⟨w1, w2, rfl, hl⟩ := line_begins hL (item := item) (x := a ++ u) hw hn (head_app (entry_head hL ha))
      have hw2 : Space w2 := fun c hc => hw c (List.mem_append_right _ hc)
      rw [List.append_assoc] at hl ⊢
      exact ⟨w1, w2 ++ (a ++ u), rfl, reads_linesStop hl (item1_refuses hE hL hw2 ha),
        w2, a, u, hw2, by simp, ha, hu, rfl⟩
  | e :: es, first, item, cs, hes, h => by
    obtain ⟨w, a, u, hw, hn, ha, hu, rfl⟩ := h
    obtain ⟨w1, w2, rfl, hl⟩ := line_begins hL (item := item) (x := a ++ u) hw hn (head_app (entry_head hL ha))
    have hw2 : Space w2 := fun c hc => hw c (List.mem_append_right _ hc)
    obtain ⟨p, q, rfl, hr, he⟩ := block1_reads hE hL (id := id) h' es false (w2 ++ a) u
      (fun e he => hes e (by simp [he])) hu
    refine ⟨w1 ++ ((w2 ++ a) ++ p), q, by simp, ?_, he⟩
    refine (reads_linesMore (by simpa using hl) (item1_reads hE hL hw2 ha (hes e (by simp))) hr).cast ?_
    rw [stringsIn_cons e es]
    simp

theorem block2_reads (hE : E.refs = refsOf pl) (hL : E.L.Lawful) (hs : ∀ s, E.L.num false ('/' :: s) = none) {id : DebugId} :
    ∀ (es : List Entry) (first : Bool) (item cs : Str), (∀ e ∈ es, e.isString = false) →
      (pl = false → ∀ e ∈ es, e.plain = true) → EntriesText E.L first es cs →
      Reads E (.lines item2 false id first item) cs [] (nodeData (nodesIn es))
  | [], first, item, cs, _, _, h => reads_linesDone hL h
  | e :: es, first, item, cs, hes, hp, h => by
    obtain ⟨w, a, u, hw, hn, ha, hu, rfl⟩ := h
    obtain ⟨w1, w2, rfl, hl⟩ := line_begins hL (item := item) (x := a ++ u) hw hn (head_app (entry_head hL ha))
    have hw2 : Space w2 := fun c hc => hw c (List.mem_append_right _ hc)
    have hr := block2_reads hE hL hs (id := id) es false (w2 ++ a) u (fun e he => hes e (by simp [he]))
      (fun e x hx => hp e x (by simp [hx])) hu
    have e1 : w1 ++ w2 ++ (a ++ u) = w1 ++ ((w2 ++ a) ++ u) := by simp
    rw [e1]
    refine (reads_linesMore (by simpa using hl) (item2_reads hE hL hs hw2 (fun x => hp x e (by simp)) (by simpa using ha) (hes e (by simp))
      fun _ => by simpa using entries_follow hu) hr).cast ?_
    rw [nodesIn_cons e es]
    simp

/-- Comments before the nodes belong to the first block. -/
theorem entries_split : ∀ es : List Entry, (∀ e ∈ es, e.isString = false) →
    ∃ cs ns, es = cs ++ ns ∧ (∀ e ∈ cs, e.isNode = false) ∧ stringsIn cs = [] ∧ nodesIn es = nodesIn ns ∧
      (ns = [] ∨ ∃ k n d t, ns = .node k n d :: t)
  | [], _ => ⟨[], [], rfl, by simp, rfl, rfl, .inl rfl⟩
  | .comment :: es, h => by
    obtain ⟨cs, ns, rfl, h1, h2, h3, h4⟩ := entries_split es fun e he => h e (by simp [he])
    refine ⟨.comment :: cs, ns, rfl, ?_, h2, h3, h4⟩
    intro e he
    rcases List.mem_cons.1 he with rfl | he
    · rfl
    · exact h1 e he
  | .string _ _ :: es, h => by cases h _ List.mem_cons_self
  | .node k n d :: es, h => ⟨[], _, rfl, by simp, rfl, rfl, .inr ⟨k, n, d, es, rfl⟩⟩

theorem stringsIn_append (es es' : List Entry) : stringsIn (es ++ es') = stringsIn es ++ stringsIn es' := by
  induction es with
  | nil => rfl
  | cons e es ih => rw [List.cons_append, stringsIn_cons, ih, stringsIn_cons e es, List.append_assoc]

theorem plain_entries {es : List Entry} (h : (nodesIn es).all (fun n => n.2.2.plain) = true) :
    ∀ e ∈ es, e.plain = true := by
  induction es with
  | nil => simp
  | cons e es ih =>
    rw [nodesIn_cons, List.all_append, Bool.and_eq_true] at h
    intro x hx
    rcases List.mem_cons.1 hx with rfl | hx
    · cases x with
      | node k n d => simpa [nodesIn, Entry.plain] using h.1
      | comment => rfl
      | string n t => rfl
    · exact ih h.2 x hx

/-- The last rule reads a document. -/
theorem document_reads (hE : E.refs = refsOf pl) (hL : E.L.Lawful) (hs : ∀ s, E.L.num false ('/' :: s) = none) {doc : Doc}
    (hp : pl = false → doc.plain = true) (h : doc.Text E.L cs) : Reads E (.rule document) cs [] doc.data := by
  obtain ⟨es, es', hes, hes', h, e1, e2⟩ := h
  obtain ⟨cs', ns, rfl, h1, h2, h3, h4⟩ := entries_split es' hes'
  rw [← List.append_assoc] at h
  obtain ⟨p, q, rfl, hr, he⟩ := block1_reads hE hL (id := 22002) h4 (es ++ cs') true [] cs (by
    intro e he
    rcases List.mem_append.1 he with he | he
    · exact hes e he
    · exact h1 e he) h
  have hr2 := block2_reads hE hL hs (id := 22008) ns true [] q (fun e he => hes' e (List.mem_append_right _ he))
    (fun e => plain_entries (by have := hp e; rwa [Doc.plain, e2, h3] at this)) he
  refine (reads_sequence (reads_cons (reads_lines (by simpa using hr)) (reads_cons0 (reads_lines hr2)
    (reads_last (reads_ws (by simp [Space]) (by simp) fun _ => rfl))))).cast ?_
  rw [stringsIn_append, h2, ← h3, List.append_nil, List.append_nil]
  simp [Doc.data, e1, e2, stringData, nodeData]

end Boot

/-- A text that stands for a document is read as its data. -/
theorem text_writes {L : Lexer} (hL : L.Lawful) (hs : ∀ s, L.num false ('/' :: s) = none) {doc : Doc} {text : Str}
    (h : doc.Text L text) : Writes L text doc := by
  obtain ⟨ts, tr, hr, e⟩ := Boot.document_reads (E := envOf L bootstrapRules.rules Indent.default) (pl := true) rfl hL hs
    (by simp) h 0 Indent.default.indent
  exact ⟨ts, parses_ok_run.2 ⟨Boot.document, text.length, ts, _, tr, rfl, by simpa using hr, Nat.le_refl _, rfl⟩, e⟩

end Verif
