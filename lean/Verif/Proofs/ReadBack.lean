import Verif.Spec.ReadBack
import Verif.Spec.Generates
import Verif.Proofs.Json
/-
What `json::write` writes is generated by a syntax.
-/
namespace Verif.Spec.JsonRules
open Verif.Spec.Json (sep pre pre_pre pre_nil writeLoop_value writeLoop_start writeLoop_end)

section
variable {E : Env}

/-- From `t` on, until `t'` is left. -/
def Gives (E : Env) (g : Goal) (t t' : Str) (ds : List MetaData) : Prop :=
  ∃ a, t = a ++ t' ∧ ∀ off, ∃ ts, Generates E g ⟨t, off⟩ a.length ts ∧ ts.map Tok.data = ds

theorem gives_nil {t : Str} : Gives E (.seq []) t t [] := ⟨[], rfl, fun _ => ⟨[], .seq_nil, rfl⟩⟩

theorem adv_append (a s : Str) (off : Nat) : adv ⟨a ++ s, off⟩ a.length = ⟨s, off + a.length⟩ := by simp [adv]

theorem gives_cons {r : Rule} {rs : List Rule} {t t1 t2 : Str} {d1 d2 : List MetaData} (h : Gives E (.rule r) t t1 d1)
    (h' : Gives E (.seq rs) t1 t2 d2) : Gives E (.seq (r :: rs)) t t2 (d1 ++ d2) := by
  obtain ⟨a, rfl, h⟩ := h
  obtain ⟨b, rfl, h'⟩ := h'
  refine ⟨a ++ b, by simp, fun off => ?_⟩
  obtain ⟨ts, g, rfl⟩ := h off
  obtain ⟨us, g', rfl⟩ := h' (off + a.length)
  rw [← adv_append] at g'
  have := Generates.seq_cons g g'
  exact ⟨ts ++ us, by simpa using this, by simp⟩

theorem Gives.sequence {rs : List Rule} {id : DebugId} {t t' : Str} {ds : List MetaData} (h : Gives E (.seq rs) t t' ds) :
    Gives E (.rule (.sequence rs id)) t t' ds := by
  obtain ⟨a, e, h⟩ := h
  refine ⟨a, e, fun off => ?_⟩
  obtain ⟨ts, h, e⟩ := h off
  exact ⟨ts, .sequence h, e⟩

theorem Gives.select {r : Rule} {rs : List Rule} {id : DebugId} {t t' : Str} {ds : List MetaData} (h : Gives E (.rule r) t t' ds)
    (hr : r ∈ rs) : Gives E (.rule (.select rs id)) t t' ds := by
  obtain ⟨a, e, h⟩ := h
  refine ⟨a, e, fun off => ?_⟩
  obtain ⟨ts, h, e⟩ := h off
  exact ⟨ts, .select hr h, e⟩

theorem Gives.node {q : Rule} {name : Str} {ix : Nat} {id : DebugId} {t t' : Str} {ds : List MetaData} (h : Gives E (.rule q) t t' ds)
    (hr : E.refs[ix]? = some q) : Gives E (.rule (.node name none (some ix) id)) t t' ds := by
  obtain ⟨a, e, h⟩ := h
  refine ⟨a, e, fun off => ?_⟩
  obtain ⟨ts, h, e⟩ := h off
  exact ⟨ts, .node hr h, e⟩

theorem Gives.named {q : Rule} {name prop : Str} {ix : Nat} {id : DebugId} {t t' : Str} {ds : List MetaData}
    (h : Gives E (.rule q) t t' ds) (hr : E.refs[ix]? = some q) :
    Gives E (.rule (.node name (some prop) (some ix) id)) t t' (.startNode prop :: ds ++ [.endNode prop]) := by
  obtain ⟨a, e, h⟩ := h
  refine ⟨a, e, fun off => ?_⟩
  obtain ⟨ts, h, e⟩ := h off
  exact ⟨_, .node hr h, by simp [wrapped, e]⟩

theorem gives_tag {t k : Str} {inv : Bool} {prop : Option Str} {id : DebugId} :
    Gives E (.rule (.tag t false inv prop id)) (t ++ k) k (prop.toList.map fun n => .bool n (!inv)) := by
  refine ⟨t, rfl, fun off => ⟨_, .token (i := 0) trivial (.tag_ok ⟨k, rfl⟩), ?_⟩⟩
  cases prop <;> rfl

/-- Only white space. -/
def White (u : Str) : Prop := ∀ x ∈ u, isWs x = true

theorem gives_ws {u k : Str} {id : DebugId} (hu : White u) (hk : ∀ x, k.head? = some x → isWs x = false) :
    Gives E (.rule (w id)) (u ++ k) k [] := by
  refine ⟨u, rfl, fun off => ⟨[], .token (i := 0) trivial (.ws_ok ⟨by simp, ?_, ?_⟩ fun _ => rfl), rfl⟩⟩
  · simpa using fun x hx => hu x hx
  · simpa using hk

theorem gives_text (hL : E.L.Lawful) {s k prop : Str} {id : DebugId} :
    Gives E (.rule (.text true (some prop) id)) (writeString s ++ k) k [.string prop s] := by
  obtain ⟨items, h1, h2⟩ : ∃ items : List StrItem, items.flatMap StrItem.text = s.flatMap escapeChar ∧ items.map StrItem.char = s := by
    induction s with
    | nil => exact ⟨[], rfl, rfl⟩
    | cons x s ih =>
      obtain ⟨items, h1, h2⟩ := ih
      have : ∃ it : StrItem, it.text = escapeChar x ∧ it.char = x := by
        by_cases e1 : x = '"'
        · exact ⟨.quote, by subst e1; decide⟩
        by_cases e2 : x = '\\'
        · exact ⟨.backslash, by subst e2; decide⟩
        by_cases e3 : x = '\n'
        · exact ⟨.newline, by subst e3; decide⟩
        by_cases e4 : x = '\r'
        · exact ⟨.ret, by subst e4; decide⟩
        by_cases e5 : x = '\t'
        · exact ⟨.tab, by subst e5; decide⟩
        exact ⟨.plain x ⟨e1, e2, e3, e4, e5⟩, by simp [StrItem.text, StrItem.char, escapeChar, e1, e2, e3, e4, e5]⟩
      obtain ⟨it, e1, e2⟩ := this
      exact ⟨it :: items, by simp [h1, e1], by simp [h2, e2]⟩
  obtain ⟨h3, h4⟩ := hL.str_items items k
  rw [h1] at h3 h4
  rw [h2] at h4
  refine ⟨writeString s, rfl, fun off => ⟨[⟨⟨off, (writeString s).length⟩, .string prop s⟩], ?_, rfl⟩⟩
  refine .token (i := 0) trivial (.text_ok (t := s) ?_ (fun _ => rfl) ?_)
  · simpa [writeString] using h3
  · simpa [writeString] using h4

theorem gives_number {fmt : F64 → Str} {x : F64} (h : NumberBack E.L fmt x) {y : Char} {k prop : Str} {id : DebugId}
    (hy : y = ',' ∨ y = '\n') : Gives E (.rule (.number (some prop) false id)) (fmt x ++ y :: k) (y :: k) [.f64 prop x] :=
  ⟨fmt x, rfl, fun off => ⟨[⟨⟨off, (fmt x).length⟩, .f64 prop x⟩],
    .token (i := 0) trivial (.num_ok (h y k hy).1 (h y k hy).2), rfl⟩⟩

theorem gives_none {r b : Rule} {trail : Bool} {id : DebugId} {t : Str} : Gives E (.rule (.separateBy r b true trail id)) t t [] :=
  ⟨[], rfl, fun _ => ⟨[], .sep_none, rfl⟩⟩

theorem gives_some {r b : Rule} {opt trail : Bool} {id : DebugId} {t t1 t2 : Str} {d1 d2 : List MetaData}
    (h : Gives E (.rule r) t t1 d1) (h' : Gives E (.sepTail r b trail) t1 t2 d2) :
    Gives E (.rule (.separateBy r b opt trail id)) t t2 (d1 ++ d2) := by
  obtain ⟨a, rfl, h⟩ := h
  obtain ⟨b, rfl, h'⟩ := h'
  refine ⟨a ++ b, by simp, fun off => ?_⟩
  obtain ⟨ts, g, rfl⟩ := h off
  obtain ⟨us, g', rfl⟩ := h' (off + a.length)
  rw [← adv_append] at g'
  have := Generates.sep_some (opt := opt) (id := id) g g'
  exact ⟨ts ++ us, by simpa using this, by simp⟩

theorem gives_last {r b : Rule} {trail : Bool} {t : Str} : Gives E (.sepTail r b trail) t t [] :=
  ⟨[], rfl, fun _ => ⟨[], .tail_nil, rfl⟩⟩

theorem gives_more {r b : Rule} {trail : Bool} {t t1 t2 t3 : Str} {d1 d2 d3 : List MetaData} (h : Gives E (.rule b) t t1 d1)
    (h' : Gives E (.rule r) t1 t2 d2) (h'' : Gives E (.sepTail r b trail) t2 t3 d3) :
    Gives E (.sepTail r b trail) t t3 (d1 ++ d2 ++ d3) := by
  obtain ⟨a, rfl, h⟩ := h
  obtain ⟨b, rfl, h'⟩ := h'
  obtain ⟨c, rfl, h''⟩ := h''
  refine ⟨a ++ b ++ c, by simp, fun off => ?_⟩
  obtain ⟨ts, g, rfl⟩ := h off
  obtain ⟨us, g', rfl⟩ := h' (off + a.length)
  obtain ⟨vs, g'', rfl⟩ := h'' (off + (a.length + b.length))
  rw [← adv_append] at g'
  have e : adv ⟨a ++ (b ++ (c ++ t3)), off⟩ (a.length + b.length) = ⟨c ++ t3, off + (a.length + b.length)⟩ := by
    simp [adv, List.drop_append]
  rw [← e] at g''
  have := Generates.tail_cons g g' g''
  exact ⟨ts ++ us ++ vs, by simpa [Nat.add_assoc] using this, by simp⟩

/-- One member and the white space after it. -/
theorem gives_item (hL : E.L.Lawful) (hE : E.refs = syn.rules) {name val u k : Str} {vd : List MetaData}
    (hv : Gives E (.rule value) (val ++ (u ++ k)) (u ++ k) vd) (hu : White u) (hk : ∀ x, k.head? = some x → isWs x = false) :
    Gives E (.rule item) (writeString name ++ ':' :: val ++ (u ++ k)) k
      (.startNode c!"member" :: .string c!"name" name :: vd ++ [.endNode c!"member"]) := by
  have h1 : Gives E (.rule member) (writeString name ++ ([':'] ++ (val ++ (u ++ k)))) k ([.string c!"name" name] ++ ([] ++ (vd ++ ([] ++ [])))) :=
    .sequence (gives_cons (gives_text hL) (gives_cons (gives_tag (prop := none)) (gives_cons (hv.node (by rw [hE]; rfl))
      (gives_cons (gives_ws hu hk) gives_nil))))
  have h2 := h1.named (name := c!"member") (prop := c!"member") (ix := 1) (id := 16) (by rw [hE]; rfl)
  simpa [item] using h2

/-- The members in `t`, until `k` is left after white space. -/
def GivesMembers (E : Env) (t : Str) (ds : List MetaData) : Prop :=
  t.head? = some '"' ∧ ∀ u k, White u → (∀ x, k.head? = some x → x = '}') → ∃ mid d1 d2, Gives E (.rule item) (t ++ ('\n' :: u ++ k)) mid d1 ∧
    Gives E (.sepTail item comma true) mid k d2 ∧ d1 ++ d2 = ds

theorem white_newline {u : Str} (h : White u) : White ('\n' :: u) := by
  intro x hx
  rcases List.mem_cons.1 hx with rfl | hx
  · decide
  · exact h x hx

theorem white_spaces (n : Nat) : White (List.replicate n ' ') := by
  intro x hx
  rw [(List.mem_replicate.1 hx).2]
  decide

/-- What is written for `ds`. -/
def Laid (E : Env) (f : Bool) (w : Str) (ds : List MetaData) : Prop :=
  (ds = [] → w = []) ∧ (ds ≠ [] → ∃ a t, w = (if f then [] else [',']) ++ (a ++ t) ∧ White a ∧ GivesMembers E t (ds.flatMap readBack))

/-- A member, and others after it. -/
theorem laid_cons (hL : E.L.Lawful) (hE : E.refs = syn.rules) {name val w : Str} {vd ds : List MetaData}
    (hv : ∀ y k, y = ',' ∨ y = '\n' → Gives E (.rule value) (val ++ y :: k) (y :: k) vd) (hw : Laid E false w ds) :
    GivesMembers E (writeString name ++ ':' :: val ++ w)
      (.startNode c!"member" :: .string c!"name" name :: vd ++ [.endNode c!"member"] ++ ds.flatMap readBack) := by
  refine ⟨rfl, fun u k hu hk => ?_⟩
  have hk' : ∀ x, k.head? = some x → isWs x = false := by
    intro x hx
    rw [hk x hx]
    decide
  by_cases hd : ds = []
  · rw [hw.1 hd]
    subst hd
    have := gives_item hL hE (name := name) (hv '\n' (u ++ k) (.inr rfl)) (u := '\n' :: u) (white_newline hu) hk'
    exact ⟨k, _, _, by simpa using this, gives_last, by simp⟩
  · obtain ⟨a, t, rfl, ha, ht, h⟩ := hw.2 hd
    obtain ⟨mid, d1, d2, h1, h2, h3⟩ := h u k hu hk
    have hb : Gives E (.rule comma) ([','] ++ (a ++ (t ++ ('\n' :: u ++ k)))) (t ++ ('\n' :: u ++ k)) ([] ++ ([] ++ [])) :=
      .sequence (gives_cons (gives_tag (prop := none)) (gives_cons (gives_ws ha (by
        intro x hx
        cases t with
        | nil => cases ht
        | cons y t =>
          cases ht
          cases hx
          decide)) gives_nil))
    have := gives_item hL hE (name := name) (u := []) (k := ',' :: (a ++ (t ++ ('\n' :: u ++ k)))) (hv ',' _ (.inl rfl)) (by simp [White])
      (by intro x hx; cases hx; decide)
    exact ⟨',' :: (a ++ (t ++ ('\n' :: u ++ k))), _, _, by simpa using this, gives_more hb h1 h2, by simp [h3]⟩

theorem laid_of {st f : Bool} {n : Nat} {t : Str} {d : MetaData} {ds : List MetaData} (h : GivesMembers E t ((d :: ds).flatMap readBack)) :
    Laid E f (sep st f false ++ List.replicate n ' ' ++ t) (d :: ds) := by
  refine ⟨by simp, fun _ => ⟨if st ∨ f = false then '\n' :: List.replicate n ' ' else List.replicate n ' ', t, ?_, ?_, h⟩⟩
  · cases f <;> cases st <;> simp [sep]
  · split
    · exact white_newline (white_spaces n)
    · exact white_spaces n

/-- Members between braces. -/
theorem gives_braces (hE : E.refs = syn.rules) {w : Str} {ds : List MetaData} (hw : Laid E true w ds) (n : Nat) (k : Str) :
    Gives E (.rule value) (['{'] ++ (w ++ ('\n' :: List.replicate n ' ' ++ ('}' :: k)))) k (ds.flatMap readBack) := by
  have hc : ∀ x, ('}' :: k).head? = some x → x = '}' := by
    intro x hx
    cases hx
    rfl
  have key : ∀ a t ds, White a → (∀ x, t.head? = some x → isWs x = false) → Gives E (.rule members) t ('}' :: k) ds →
      Gives E (.rule value) (['{'] ++ (a ++ t)) k ds := by
    intro a t ds ha ht h
    have h1 : Gives E (.rule (.sequence [c '{' 5, JsonRules.w 6, .node c!"members" none (some 2) 7, c '}' 8] 9)) (['{'] ++ (a ++ t)) k
        ([] ++ ([] ++ (ds ++ ([] ++ [])))) :=
      .sequence (gives_cons (gives_tag (prop := none)) (gives_cons (gives_ws ha ht) (gives_cons (h.node (by rw [hE]; rfl))
        (gives_cons (gives_tag (t := ['}']) (prop := none)) gives_nil))))
    have h2 : Gives E (.rule value) (['{'] ++ (a ++ t)) k ([] ++ ([] ++ (ds ++ ([] ++ [])))) := h1.select (by simp)
    simpa using h2
  by_cases hd : ds = []
  · rw [hw.1 hd]
    subst hd
    exact key _ ('}' :: k) [] (white_newline (white_spaces n)) (by intro x hx; rw [hc x hx]; decide) gives_none
  · obtain ⟨a, t, rfl, ha, ht, h⟩ := hw.2 hd
    obtain ⟨mid, d1, d2, h1, h2, h3⟩ := h (List.replicate n ' ') ('}' :: k) (white_spaces n) hc
    have := key a (t ++ ('\n' :: List.replicate n ' ' ++ '}' :: k)) (d1 ++ d2) ha (by
      intro x hx
      cases t with
      | nil => cases ht
      | cons y t =>
        cases ht
        cases hx
        decide) (gives_some h1 h2)
    rw [h3] at this
    simpa using this

/-- What the loop writes. -/
theorem loop_laid (hL : E.L.Lawful) (hE : E.refs = syn.rules) {fmt : F64 → Str} {ds : List MetaData} (h : WellNested ds) :
    ∀ (st f : Bool) (n : Nat), n + ds.length < 2 ^ 32 → (∀ m x, .f64 m x ∈ ds → NumberBack E.L fmt x) →
    ∃ w, (∀ rest, writeLoop fmt (ds ++ rest) st f n =
        pre w (writeLoop fmt rest (st || !ds.isEmpty) (f && ds.isEmpty) n)) ∧ Laid E f w ds := by
  induction h with
  | nil =>
    intro st f n _ _
    exact ⟨[], fun rest => by simp [pre_nil], fun _ => rfl, fun h => absurd rfl h⟩
  | @value d ds hd ht ih =>
    intro st f n hn hnum
    obtain ⟨w, h1, h2⟩ := ih true false n (by simp at hn; omega) fun m x hx => hnum m x (by simp [hx])
    refine ⟨sep st f false ++ List.replicate n ' ' ++ (writeItem fmt d ++ w), fun rest => ?_, laid_of ?_⟩
    · rw [List.cons_append, writeLoop_value hd, h1, pre_pre]
      simp
    · cases d with
      | startNode _ => exact absurd trivial hd
      | endNode _ => exact absurd trivial hd
      | bool name b =>
        have := laid_cons hL hE (name := name) (val := if b then c!"true" else c!"false") (vd := [.bool c!"bool" b]) (w := w) (ds := ds) (by
          intro y k _
          cases b
          · exact (gives_tag (t := c!"false") (inv := true) (prop := some c!"bool") (id := 3)).select (by simp)
          · exact (gives_tag (t := c!"true") (inv := false) (prop := some c!"bool") (id := 2)).select (by simp)) h2
        simpa [writeItem, readBack] using this
      | f64 name x =>
        have := laid_cons hL hE (name := name) (val := fmt x) (vd := [.f64 c!"num" x]) (w := w) (ds := ds) (by
          intro y k hy
          exact (gives_number (id := 1) (hnum name x (by simp)) hy).select (by simp)) h2
        simpa [writeItem, readBack] using this
      | string name s =>
        have := laid_cons hL hE (name := name) (val := writeString s) (vd := [.string c!"text" s]) (w := w) (ds := ds) (by
          intro y k _
          exact (gives_text (id := 4) hL).select (by simp)) h2
        simpa [writeItem, readBack] using this
  | @node name body ds hb ht ih1 ih2 =>
    intro st f n hn hnum
    simp at hn
    obtain ⟨w1, a1, a2⟩ := ih1 true true (n + 1) (by omega) fun m x hx => hnum m x (by simp [hx])
    obtain ⟨w2, b1, b2⟩ := ih2 true false n (by omega) fun m x hx => hnum m x (by simp [hx])
    refine ⟨sep st f false ++ List.replicate n ' ' ++ (writeItem fmt (.startNode name) ++ w1 ++
      ('\n' :: List.replicate n ' ' ++ ['}']) ++ w2), fun rest => ?_, laid_of ?_⟩
    · rw [List.cons_append, List.cons_append, writeLoop_start _ _ _ (by omega), List.append_assoc body, a1,
        List.cons_append, Bool.true_or, writeLoop_end, b1, pre_pre, pre_pre, pre_pre]
      simp
    · have := laid_cons hL hE (name := name) (val := '{' :: (w1 ++ ('\n' :: List.replicate n ' ' ++ ['}']))) (vd := body.flatMap readBack)
        (w := w2) (ds := ds) (by
          intro y k _
          have := gives_braces hE a2 n (y :: k)
          simpa using this) b2
      simpa [writeItem, readBack] using this

theorem wellNested_balanced {ds : List MetaData} (h : WellNested ds) : ds.countP (·.isStart) = ds.countP (·.isEnd) := by
  induction h with
  | nil => rfl
  | @value d _ hd _ ih => cases d <;> first | exact absurd trivial hd | simpa [MetaData.isStart, MetaData.isEnd] using ih
  | node _ _ ih1 ih2 =>
    simp only [List.cons_append, List.countP_cons, List.countP_append, ih1, ih2]
    simp [MetaData.isStart, MetaData.isEnd]
    omega

/-- What `write` writes. -/
theorem write_gives (hL : E.L.Lawful) (hE : E.refs = syn.rules) {fmt : F64 → Str} {data : List Tok} (h : WellNested (data.map Tok.data))
    (hlen : data.length < 2 ^ 32) (hnum : ∀ m x, .f64 m x ∈ data.map Tok.data → NumberBack E.L fmt x) :
    ∃ text, writeJson fmt data = .ok text ∧ Gives E (.rule doc) text [] ((data.map Tok.data).flatMap readBack) := by
  obtain ⟨w, h1, h2⟩ := loop_laid hL hE h false true 0 (by simpa using hlen) hnum
  refine ⟨w ++ ['\n'], ?_, ?_⟩
  · have := h1 []
    simp only [List.append_nil] at this
    simp only [writeJson, wellNested_balanced h, Nat.max_self, Nat.min_self, Nat.sub_self]
    rw [this]
    simp [writeLoop, pre]
  · have key : ∀ a t ds, White a → (∀ x, t.head? = some x → isWs x = false) → Gives E (.rule members) t [] ds →
        Gives E (.rule doc) (a ++ t) [] ds := by
      intro a t ds ha ht h
      have h1 : Gives E (.rule doc) (a ++ t) [] ([] ++ (ds ++ [])) :=
        .sequence (gives_cons (gives_ws ha ht) (gives_cons (h.node (by rw [hE]; rfl)) gives_nil))
      simpa using h1
    by_cases hd : data.map Tok.data = []
    · rw [h2.1 hd, hd]
      exact key ['\n'] [] [] (by simp [White]; decide) (by simp) gives_none
    · obtain ⟨a, t, rfl, ha, ht, h⟩ := h2.2 hd
      obtain ⟨mid, d1, d2, h3, h4, h5⟩ := h [] [] (by simp [White]) (by simp)
      rw [← h5]
      have := key a (t ++ ['\n']) (d1 ++ d2) ha (by
        intro x hx
        cases t with
        | nil => cases ht
        | cons y t =>
          cases ht
          cases hx
          decide) (gives_some h3 h4)
      simpa using this

end

theorem readBack_inj {ds : List MetaData} (h : WellNested ds) : ∀ {ds' r r' : List MetaData}, WellNested ds' →
    (∀ x, r.head? = some x → x = .endNode c!"member") → (∀ x, r'.head? = some x → x = .endNode c!"member") →
    ds.flatMap readBack ++ r = ds'.flatMap readBack ++ r' → ds = ds' ∧ r = r' := by
  -- the first is a start, so nothing else is like nothing
  have start : ∀ d : MetaData, (∀ n, d ≠ .endNode n) → ∀ ds r, ∃ tl, (d :: ds).flatMap readBack ++ r = .startNode c!"member" :: tl := by
    intro d hd ds r
    cases d <;> first | exact absurd rfl (hd _) | simp [readBack]
  have third : ∀ (body : List MetaData), WellNested body → ∀ rest : List MetaData, ∃ x tl,
      body.flatMap readBack ++ .endNode c!"member" :: rest = x :: tl ∧ (x = .startNode c!"member" ∨ x = .endNode c!"member") := by
    intro body hb rest
    cases hb with
    | nil => exact ⟨_, _, rfl, .inr rfl⟩
    | @value m _ h _ =>
      obtain ⟨tl, e⟩ := start m (by rintro n rfl; exact h trivial) _ (.endNode c!"member" :: rest)
      exact ⟨_, _, e, .inl rfl⟩
    | node _ _ =>
      obtain ⟨tl, e⟩ := start (.startNode _) (by simp) _ (.endNode c!"member" :: rest)
      exact ⟨_, _, e, .inl rfl⟩
  induction h with
  | nil =>
    intro ds' r r' h' hr hr' e
    cases h' with
    | nil => exact ⟨rfl, by simpa using e⟩
    | @value m _ h _ =>
      obtain ⟨tl, e'⟩ := start m (by rintro n rfl; exact h trivial) _ r'
      rw [e'] at e
      simp at e
      subst e
      cases hr _ rfl
    | node _ _ =>
      obtain ⟨tl, e'⟩ := start (.startNode _) (by simp) _ r'
      rw [List.cons_append, e'] at e
      simp at e
      subst e
      cases hr _ rfl
  | @value d ds hd ht ih =>
    intro ds' r r' h' hr hr' e
    cases h' with
    | nil =>
      obtain ⟨tl, e'⟩ := start d (by rintro n rfl; exact hd trivial) ds r
      rw [e'] at e
      simp at e
      subst e
      cases hr' _ rfl
    | @value d' ds' hd' ht' =>
      cases d <;> first
        | exact absurd trivial hd
        | (cases d' <;> first
            | exact absurd trivial hd'
            | (simp [readBack] at e; done)
            | (simp [readBack] at e
               obtain ⟨rfl, rfl, e⟩ := e
               obtain ⟨rfl, rfl⟩ := ih ht' hr hr' e
               exact ⟨rfl, rfl⟩))
    | @node name body rest hb hr2 =>
      obtain ⟨x, tl, e1, hx⟩ := third body hb (rest.flatMap readBack ++ r')
      have e2 : (MetaData.startNode name :: body ++ .endNode name :: rest).flatMap readBack ++ r' =
          .startNode c!"member" :: .string c!"name" name :: x :: tl := by
        rw [← e1]
        simp [readBack]
      rw [e2] at e
      cases d <;> first
        | exact absurd trivial hd
        | (simp [readBack] at e
           obtain ⟨-, rfl, -⟩ := e
           rcases hx with hx | hx <;> cases hx)
  | @node name body ds hb ht ih1 ih2 =>
    intro ds' r r' h' hr hr' e
    obtain ⟨x, tl, e1, hx⟩ := third body hb (ds.flatMap readBack ++ r)
    have e2 : (MetaData.startNode name :: body ++ .endNode name :: ds).flatMap readBack ++ r =
        .startNode c!"member" :: .string c!"name" name :: x :: tl := by
      rw [← e1]
      simp [readBack]
    cases h' with
    | nil =>
      rw [e2] at e
      simp at e
      subst e
      cases hr' _ rfl
    | @value d' ds' hd' ht' =>
      rw [e2] at e
      cases d' <;> first
        | exact absurd trivial hd'
        | (simp [readBack] at e
           obtain ⟨-, rfl, -⟩ := e
           rcases hx with hx | hx <;> cases hx)
    | @node name' body' rest' hb' hr2 =>
      simp [readBack] at e
      obtain ⟨rfl, e⟩ := e
      obtain ⟨rfl, e⟩ := ih1 hb' (by simp) (by simp) e
      simp at e
      obtain ⟨rfl, rfl⟩ := ih2 hr2 hr hr' e
      exact ⟨rfl, rfl⟩

end Verif.Spec.JsonRules
