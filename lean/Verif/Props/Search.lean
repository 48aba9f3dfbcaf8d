import Verif.Model.Search
import Verif.Spec.Data
/-
The search API: C43, C44.
-/
namespace Verif.Props
open Spec

/-- The result of looking for an item with property `P`: that of the closure on the data after the
first such item, or an error at the place of the search, the same for all closures, that says what
was not found. -/
def Finds {α : Type} (P : MetaData → Prop) (what : Str) (s : Search) (run : (Search → SRes α) → SRes α) : Prop :=
  (∃ before t after, s.data = before ++ t :: after ∧ P t.data ∧ (∀ u ∈ before, ¬ P u.data) ∧
    ∀ f, run f = f ⟨some t.range, after⟩) ∨
  ((∀ u ∈ s.data, ¬ P u.data) ∧
    ∀ f, run f = .error ⟨s.range.getD ⟨0, 0⟩, .conversion (c!"Could not find " ++ what)⟩)

private theorem first_spec {p : MetaData → Bool} {P : MetaData → Prop} (hp : ∀ d, p d = true ↔ P d) : ∀ ds : List Tok,
    (∃ before t after, ds = before ++ t :: after ∧ P t.data ∧ (∀ u ∈ before, ¬ P u.data) ∧
      Search.first p ds = some (t.range, after)) ∨
    ((∀ u ∈ ds, ¬ P u.data) ∧ Search.first p ds = none)
  | [] => .inr ⟨by simp, rfl⟩
  | d :: ds => by
    by_cases h : p d.data = true
    · exact .inl ⟨[], d, ds, rfl, (hp _).1 h, by simp, by simp [Search.first, h]⟩
    · rcases first_spec hp ds with ⟨b, t, a, rfl, h₁, h₂, h₃⟩ | ⟨h₁, h₂⟩
      · refine .inl ⟨d :: b, t, a, rfl, h₁, ?_, by simp [Search.first, h, h₃]⟩
        intro u hu
        rcases List.mem_cons.1 hu with rfl | hu
        · exact fun hP => h ((hp _).2 hP)
        · exact h₂ u hu
      · refine .inr ⟨?_, by simp [Search.first, h, h₂]⟩
        intro u hu
        rcases List.mem_cons.1 hu with rfl | hu
        · exact fun hP => h ((hp _).2 hP)
        · exact h₁ u hu

private theorem finds_of {α : Type} {p : MetaData → Bool} {P : MetaData → Prop} (hp : ∀ d, p d = true ↔ P d) {s : Search}
    {what msg : Str} {run : (Search → SRes α) → SRes α} (hm : msg = c!"Could not find " ++ what)
    (h : ∀ f, run f = match Search.first p s.data with
      | some (r, rest) => f ⟨some r, rest⟩
      | none => .error ⟨s.place, .conversion msg⟩) : Finds P what s run := by
  rcases first_spec hp s.data with ⟨b, t, a, h₁, h₂, h₃, h₄⟩ | ⟨h₁, h₂⟩
  · exact .inl ⟨b, t, a, h₁, h₂, h₃, fun f => by rw [h, h₄]⟩
  · exact .inr ⟨h₁, fun f => by rw [h, h₂, hm]; rfl⟩

/-! ### C43 -/

theorem C43_for_string {α : Type} (s : Search) (name val : Str) :
    Finds (· = .string name val) (c!"string `" ++ name ++ c!"`:`" ++ val ++ c!"`") s (fun f : Search → SRes α => s.forString name val f) :=
  finds_of (by intro d; cases d <;> simp) (by simp) (fun _ => rfl)

theorem C43_for_f64 {α : Type} (fmt : F64 → Str) (s : Search) (name : Str) (val : F64) :
    Finds (fun d => ∃ v, d = .f64 name v ∧ v.feq val = true) (c!"f64 `" ++ name ++ c!"`:`" ++ fmt val ++ c!"`") s
      (fun f : Search → SRes α => s.forF64 fmt name val f) :=
  finds_of (by intro d; cases d <;> simp; constructor; (rintro ⟨h, h'⟩; exact ⟨_, ⟨h, rfl⟩, h'⟩); (rintro ⟨v, ⟨h, rfl⟩, h'⟩; exact ⟨h, h'⟩)) (by simp) (fun _ => rfl)

theorem C43_for_bool {α : Type} (s : Search) (name : Str) (val : Bool) :
    Finds (· = .bool name val) (c!"bool `" ++ name ++ c!"`:`" ++ (if val then c!"true" else c!"false") ++ c!"`") s
      (fun f : Search → SRes α => s.forBool name val f) :=
  finds_of (by intro d; cases d <;> simp) (by simp [Search.boolText]) (fun _ => rfl)

theorem C43_for_node {α : Type} (s : Search) (name : Str) :
    Finds (· = .startNode name) (c!"node `" ++ name ++ c!"`") s (fun f : Search → SRes α => s.forNode name f) :=
  finds_of (by intro d; cases d <;> simp) (by simp) (fun _ => rfl)

theorem C43_for_end_node {α : Type} (s : Search) (name : Str) :
    Finds (· = .endNode name) (c!"end node `" ++ name ++ c!"`") s (fun f : Search → SRes α => s.forEndNode name f) :=
  finds_of (by intro d; cases d <;> simp) (by simp) (fun _ => rfl)

/-- Not a number is not found, even if it is there. -/
theorem C43_nan_not_found {α : Type} (fmt : F64 → Str) (s : Search) (name : Str) {val : F64}
    (hv : val.isNaN = true) (f : Search → SRes α) : s.forF64 fmt name val f =
      .error ⟨s.range.getD ⟨0, 0⟩, .conversion (c!"Could not find f64 `" ++ name ++ c!"`:`" ++ fmt val ++ c!"`")⟩ := by
  rcases C43_for_f64 (α := α) fmt s name val with ⟨b, t, a, _, ⟨v, _, h⟩, _⟩ | ⟨_, h⟩
  · simp [F64.feq, hv] at h
  · simpa using h f

/-- A new search has read nothing and has all the data before it. -/
theorem C43_starts (data : List Tok) : (Search.new data).range = none ∧ (Search.new data).data = data := ⟨rfl, rfl⟩

/-- Errors before the first item has been read are at the start of the text. -/
theorem C43_new {α : Type} {P : MetaData → Prop} {what : Str} {data : List Tok} {run : (Search → SRes α) → SRes α}
    (h : Finds P what (Search.new data) run) (hn : ∀ u ∈ data, ¬ P u.data) (f : Search → SRes α) :
    run f = .error ⟨⟨0, 0⟩, .conversion (c!"Could not find " ++ what)⟩ := by
  rcases h with ⟨b, t, a, e, h, _⟩ | ⟨_, h⟩
  · exact absurd h (hn t (by rw [show data = b ++ t :: a from e]; simp))
  · exact h f

/-- Zero is found under either sign. -/
theorem C43_zero_found {α : Type} (fmt : F64 → Str) (r : Range) (name : Str) (x y : F64)
    (hx : x.isZero = true) (hy : y.isZero = true) (f : Search → SRes α) :
    (Search.new [⟨r, .f64 name x⟩]).forF64 fmt name y f = f ⟨some r, []⟩ := by
  have hn : ∀ z : F64, z.isZero = true → z.isNaN = false := by
    intro z hz
    simp only [F64.isZero, Bool.and_eq_true, beq_iff_eq] at hz
    simp [F64.isNaN, hz.1]
  have : x.feq y = true := by simp [F64.feq, hx, hy, hn x hx, hn y hy]
  simp [Search.forF64, Search.new, Search.first, this]

def exSearch : List Tok :=
  [⟨⟨0, 0⟩, .startNode c!"a"⟩, ⟨⟨0, 1⟩, .string c!"k" c!"v"⟩, ⟨⟨1, 1⟩, .string c!"k" c!"w"⟩,
    ⟨⟨2, 1⟩, .string c!"k" c!"w"⟩, ⟨⟨0, 3⟩, .endNode c!"a"⟩]

-- the first of two matches, the closure reads on from there
example : (Search.new exSearch).forString c!"k" c!"w" (fun s => .ok s) =
    .ok ⟨some ⟨1, 1⟩, exSearch.drop 3⟩ := rfl
example : (Search.new exSearch).forNode (α := Unit) c!"b" (fun _ => .ok ()) =
    .error ⟨⟨0, 0⟩, .conversion c!"Could not find node `b`"⟩ := rfl
example : (⟨0x7FF8000000000000⟩ : F64).isNaN = true ∧ (⟨0x8000000000000000⟩ : F64).isZero = true := by decide

/-! ### C44 -/

/-- What is said about the next item if it is not of the kind `mk` with the name `name`: there is none, or
it has another name, or it is of another kind. -/
inductive NextError {α : Type} (dbg : MetaData → Str) (kind comma : Str) (mk : Str → α → MetaData) (name : Str) :
    List Tok → Str → Prop
  | none : NextError dbg kind comma mk name [] (c!"Expected " ++ kind ++ c!" `" ++ name ++ c!"`")
  | name {r n v ts} (h : n ≠ name) : NextError dbg kind comma mk name (⟨r, mk n v⟩ :: ts)
      (c!"Expected name `" ++ name ++ c!"`" ++ comma ++ c!" found `" ++ n ++ c!"`")
  | kind {t ts} (h : ∀ n v, t.data ≠ mk n v) : NextError dbg kind comma mk name (t :: ts)
      (c!"Expected " ++ kind ++ c!" `" ++ name ++ c!"`, found `" ++ dbg t.data ++ c!"`")

/-- The result of reading the next item: the value of an item `mk name v` and the search moved behind it,
or an error, at that item if there is one, and the search as it was. -/
def ReadsNext {α : Type} (dbg : MetaData → Str) (kind comma : Str) (mk : Str → α → MetaData) (name : Str) (s : Search)
    (res : SRes α × Search) : Prop :=
  (∃ v r rest, s.data = ⟨r, mk name v⟩ :: rest ∧ res = (.ok v, ⟨some r, rest⟩)) ∨
  ((∀ v r rest, s.data ≠ ⟨r, mk name v⟩ :: rest) ∧
    ∃ msg, NextError dbg kind comma mk name s.data msg ∧
      res = (.error ⟨(s.data.head?.map (·.range)).getD (s.range.getD ⟨0, 0⟩), .conversion msg⟩, s))

theorem C44_bool (dbg : MetaData → Str) (s : Search) (name : Str) :
    ReadsNext dbg c!"bool" [] .bool name s (s.bool dbg name) := by
  obtain ⟨range, data⟩ := s
  match data with
  | [] => exact .inr ⟨by simp, _, .none, rfl⟩
  | ⟨r, d⟩ :: ds =>
    cases d with
    | bool n v =>
      by_cases h : n = name
      · subst h; exact .inl ⟨v, r, ds, rfl, by simp [Search.bool]⟩
      · exact .inr ⟨by simp [h], _, .name h, by simp [Search.bool, h]⟩
    | _ => exact .inr ⟨by simp, _, .kind (by simp), rfl⟩

theorem C44_f64 (dbg : MetaData → Str) (s : Search) (name : Str) :
    ReadsNext dbg c!"f64" [','] .f64 name s (s.f64 dbg name) := by
  obtain ⟨range, data⟩ := s
  match data with
  | [] => exact .inr ⟨by simp, _, .none, rfl⟩
  | ⟨r, d⟩ :: ds =>
    cases d with
    | f64 n v =>
      by_cases h : n = name
      · subst h; exact .inl ⟨v, r, ds, rfl, by simp [Search.f64]⟩
      · exact .inr ⟨by simp [h], _, .name h, by simp [Search.f64, h, Search.nameMsg]⟩
    | _ => exact .inr ⟨by simp, _, .kind (by simp), rfl⟩

theorem C44_string (dbg : MetaData → Str) (s : Search) (name : Str) :
    ReadsNext dbg c!"string" [','] .string name s (s.string dbg name) := by
  obtain ⟨range, data⟩ := s
  match data with
  | [] => exact .inr ⟨by simp, _, .none, rfl⟩
  | ⟨r, d⟩ :: ds =>
    cases d with
    | string n v =>
      by_cases h : n = name
      · subst h; exact .inl ⟨v, r, ds, rfl, by simp [Search.string]⟩
      · exact .inr ⟨by simp [h], _, .name h, by simp [Search.string, h, Search.nameMsg]⟩
    | _ => exact .inr ⟨by simp, _, .kind (by simp), rfl⟩

theorem C44_node (dbg : MetaData → Str) (s : Search) (name : Str) :
    ReadsNext dbg c!"node" [','] (fun n (_ : Unit) => .startNode n) name s (s.node dbg name) := by
  obtain ⟨range, data⟩ := s
  match data with
  | [] => exact .inr ⟨by simp, _, .none, rfl⟩
  | ⟨r, d⟩ :: ds =>
    cases d with
    | startNode n =>
      by_cases h : n = name
      · subst h; exact .inl ⟨(), r, ds, rfl, by simp [Search.node]⟩
      · exact .inr ⟨by simp [h], _, .name (v := ()) h, by simp [Search.node, h, Search.nameMsg]⟩
    | _ => exact .inr ⟨by simp, _, .kind (by simp), rfl⟩

theorem C44_end_node (dbg : MetaData → Str) (s : Search) (name : Str) :
    ReadsNext dbg c!"end node" [','] (fun n (_ : Unit) => .endNode n) name s (s.endNode dbg name) := by
  obtain ⟨range, data⟩ := s
  match data with
  | [] => exact .inr ⟨by simp, _, .none, rfl⟩
  | ⟨r, d⟩ :: ds =>
    cases d with
    | endNode n =>
      by_cases h : n = name
      · subst h; exact .inl ⟨(), r, ds, rfl, by simp [Search.endNode]⟩
      · exact .inr ⟨by simp [h], _, .name (v := ()) h, by simp [Search.endNode, h, Search.nameMsg]⟩
    | _ => exact .inr ⟨by simp, _, .kind (by simp), rfl⟩

/-- At most one reader accepts an item, and only under one name: if two of them succeed, they were
called in the same way. -/
theorem C44_one_reader {α β : Type} {dbg : MetaData → Str} {kind comma kind' comma' : Str} {mk : Str → α → MetaData}
    {mk' : Str → β → MetaData} {name name' : Str} {s : Search} {a b s₁ s₂}
    (h₁ : ReadsNext dbg kind comma mk name s (.ok a, s₁)) (h₂ : ReadsNext dbg kind' comma' mk' name' s (.ok b, s₂)) :
    mk name a = mk' name' b ∧ s₁ = s₂ := by
  rcases h₁ with ⟨v, r, rest, e, h⟩ | ⟨_, msg, _, h⟩
  · rcases h₂ with ⟨v', r', rest', e', h'⟩ | ⟨_, msg, _, h'⟩
    · simp at h h'
      rw [e] at e'
      simp at e'
      obtain ⟨⟨rfl, e'⟩, rfl⟩ := e'
      simp [h.1, h.2, h'.1, h'.2, e']
    · simp at h'
  · simp at h

/-- The reader of the kind and name of an item, and whether it gives the value of the item. -/
def reads (dbg : MetaData → Str) (s : Search) : MetaData → Search × Bool
  | .bool n v => let (res, s) := s.bool dbg n; (s, res.toOption == some v)
  | .f64 n v => let (res, s) := s.f64 dbg n; (s, res.toOption == some v)
  | .string n v => let (res, s) := s.string dbg n; (s, res.toOption == some v)
  | .startNode n => let (res, s) := s.node dbg n; (s, res.toOption.isSome)
  | .endNode n => let (res, s) := s.endNode dbg n; (s, res.toOption.isSome)

/-- A reader of some data: one reader after the other, as long as they give the values. -/
def readsAll (dbg : MetaData → Str) : Search → List MetaData → Search × Bool
  | s, [] => (s, true)
  | s, d :: ds => match reads dbg s d with
    | (s, true) => readsAll dbg s ds
    | (s, false) => (s, false)

theorem reads_here (dbg : MetaData → Str) {s : Search} {t : Tok} {ts : List Tok} (h : s.data = t :: ts) :
    reads dbg s t.data = (⟨some t.range, ts⟩, true) := by
  obtain ⟨range, data⟩ := s
  obtain ⟨r, d⟩ := t
  cases h
  cases d <;> simp [reads, Search.bool, Search.f64, Search.string, Search.node, Search.endNode, Except.toOption]

/-- Any data can be read by calling the readers of its items in order; the data behind it is left, and the
place is that of the last item. -/
theorem C44_reads_all (dbg : MetaData → Str) : ∀ (s : Search) (a b : List Tok), s.data = a ++ b →
    readsAll dbg s (a.map (·.data)) = (⟨(a.getLast?.map (·.range)).or s.range, b⟩, true)
  | ⟨r, _⟩, [], b, rfl => by simp [readsAll]
  | ⟨r, _⟩, t :: a, b, rfl => by
    have h := reads_here dbg (s := ⟨r, t :: a ++ b⟩) (t := t) (ts := a ++ b) rfl
    have ih := C44_reads_all dbg ⟨some t.range, a ++ b⟩ a b rfl
    simp only [List.map_cons, readsAll, h, ih]
    cases a <;> simp [List.getLast?_cons]

theorem reads_only {dbg : MetaData → Str} {s s' : Search} {d : MetaData} (h : reads dbg s d = (s', true)) :
    ∃ t ts, s.data = t :: ts ∧ t.data = d := by
  cases d with
  | bool n v =>
    rcases C44_bool dbg s n with ⟨v', r, rest, e, h'⟩ | ⟨_, msg, _, h'⟩ <;>
      simp [reads, h', Except.toOption] at h
    exact ⟨_, _, e, by simp [h.2]⟩
  | f64 n v =>
    rcases C44_f64 dbg s n with ⟨v', r, rest, e, h'⟩ | ⟨_, msg, _, h'⟩ <;>
      simp [reads, h', Except.toOption] at h
    exact ⟨_, _, e, by simp [h.2]⟩
  | string n v =>
    rcases C44_string dbg s n with ⟨v', r, rest, e, h'⟩ | ⟨_, msg, _, h'⟩ <;>
      simp [reads, h', Except.toOption] at h
    exact ⟨_, _, e, by simp [h.2]⟩
  | startNode n =>
    rcases C44_node dbg s n with ⟨v', r, rest, e, h'⟩ | ⟨_, msg, _, h'⟩ <;>
      simp [reads, h', Except.toOption] at h
    exact ⟨_, _, e, rfl⟩
  | endNode n =>
    rcases C44_end_node dbg s n with ⟨v', r, rest, e, h'⟩ | ⟨_, msg, _, h'⟩ <;>
      simp [reads, h', Except.toOption] at h
    exact ⟨_, _, e, rfl⟩

/-- Readers that all give the values were called on this data. -/
theorem C44_reads_only (dbg : MetaData → Str) : ∀ {ds : List MetaData} {s s' : Search},
    readsAll dbg s ds = (s', true) → ∃ a, s.data = a ++ s'.data ∧ a.map (·.data) = ds
  | [], s, s', h => by
    cases h
    exact ⟨[], rfl, rfl⟩
  | d :: ds, s, s', h => by
    rw [readsAll] at h
    split at h
    · rename_i s1 h1
      obtain ⟨t, ts, e, rfl⟩ := reads_only h1
      rw [reads_here dbg e] at h1
      cases h1
      obtain ⟨a, e1, e2⟩ := C44_reads_only dbg h
      exact ⟨t :: a, by rw [e]; simpa using e1, by simp [e2]⟩
    · cases h

example : ((Search.new exSearch).node (fun _ => []) c!"a").2 = ⟨some ⟨0, 0⟩, exSearch.tail⟩ := rfl
example : (Search.new exSearch).bool (fun _ => c!"..") c!"a" =
    (.error ⟨⟨0, 0⟩, .conversion c!"Expected bool `a`, found `..`"⟩, Search.new exSearch) := rfl
example : readsAll (fun _ => []) (Search.new exSearch) (exSearch.map (·.data)) = (⟨some ⟨0, 3⟩, []⟩, true) :=
  C44_reads_all _ (Search.new exSearch) exSearch [] (by simp [Search.new])

end Verif.Props
