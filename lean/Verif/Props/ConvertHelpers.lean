import Verif.Props.Convert
/-
The helpers of `Convert` on any data and positions: C42.
-/
namespace Verif.Props
open Verif Verif.Spec Verif.Convert

/-- How many nodes are open after the data: those that start less those that end. -/
def openNodes (data : List Tok) : Int :=
  data.foldl (fun n t => match t.data with | .startNode _ => n + 1 | .endNode _ => n - 1 | _ => n) 0

def stepOpen (n : Int) (t : Tok) : Int := match t.data with | .startNode _ => n + 1 | .endNode _ => n - 1 | _ => n

theorem foldl_open (a : Int) (data : List Tok) : data.foldl stepOpen a = a + openNodes data := by
  have h : ∀ (data : List Tok) (a : Int), data.foldl stepOpen a = a + data.foldl stepOpen 0 := by
    intro data
    induction data with
    | nil => simp
    | cons t ts ih =>
      intro a
      rw [List.foldl_cons, List.foldl_cons, ih, ih (stepOpen 0 t)]
      unfold stepOpen
      split <;> omega
  exact h data a

theorem openNodes_cons (t : Tok) (ts : List Tok) : openNodes (t :: ts) = stepOpen 0 t + openNodes ts := by
  rw [← foldl_open]
  rfl

theorem ignoreLoop_exact : ∀ (ts : List Tok) (acc len : Nat), ∃ n, ignoreLoop ts (acc + 1) len = .ok (len + n) ∧
    n ≤ ts.length ∧ (∀ m, 0 < m → m < n → (acc : Int) + 1 + openNodes (ts.take m) ≠ 0) ∧
    (((0 < n ∧ (acc : Int) + 1 + openNodes (ts.take n) = 0)) ∨ (n = ts.length ∧ (acc : Int) + 1 + openNodes ts ≠ 0))
  | [], acc, len => ⟨0, rfl, Nat.le_refl _, fun _ _ h => absurd h (Nat.not_lt_zero _), .inr ⟨rfl, by
      show (acc : Int) + 1 + 0 ≠ 0
      omega⟩⟩
  | t :: ts, acc, len => by
    have hstep : ∀ acc' : Nat, (acc : Int) + 1 + stepOpen 0 t = acc' + 1 → ignoreLoop (t :: ts) (acc + 1) len =
        ignoreLoop ts (acc' + 1) (len + 1) → ∃ n, ignoreLoop (t :: ts) (acc + 1) len = .ok (len + n) ∧
        n ≤ (t :: ts).length ∧ (∀ m, 0 < m → m < n → (acc : Int) + 1 + openNodes ((t :: ts).take m) ≠ 0) ∧
        (((0 < n ∧ (acc : Int) + 1 + openNodes ((t :: ts).take n) = 0)) ∨
          (n = (t :: ts).length ∧ (acc : Int) + 1 + openNodes (t :: ts) ≠ 0)) := by
      intro acc' ha he
      obtain ⟨n, h1, h2, h3, h4⟩ := ignoreLoop_exact ts acc' (len + 1)
      refine ⟨n + 1, he.trans (h1.trans (congrArg Comp.ok (by omega))), by simpa using h2, ?_, ?_⟩
      · intro m hm hn
        obtain ⟨m, rfl⟩ : ∃ k, m = k + 1 := ⟨m - 1, by omega⟩
        rw [List.take_succ_cons, openNodes_cons]
        by_cases h0 : m = 0
        · subst h0
          show (acc : Int) + 1 + (stepOpen 0 t + 0) ≠ 0
          omega
        · have := h3 m (by omega) (by omega)
          omega
      · rcases h4 with ⟨h4, h5⟩ | ⟨h4, h5⟩
        · refine .inl ⟨by omega, ?_⟩
          rw [List.take_succ_cons, openNodes_cons]
          omega
        · refine .inr ⟨by simp [h4], ?_⟩
          rw [openNodes_cons]
          omega
    obtain ⟨r, d⟩ := t
    cases d with
    | startNode name => exact hstep (acc + 1) (by simp [stepOpen]) rfl
    | endNode name =>
      cases acc with
      | zero =>
        refine ⟨1, by simp [ignoreLoop], by simp, fun m h h' => by omega, .inl ⟨Nat.one_pos, ?_⟩⟩
        simp [openNodes]
      | succ acc => exact hstep acc (by simp [stepOpen]; omega) (by simp [ignoreLoop])
    | bool name v => exact hstep acc (by simp [stepOpen]) (by simp [ignoreLoop])
    | f64 name v => exact hstep acc (by simp [stepOpen]) (by simp [ignoreLoop])
    | string name v => exact hstep acc (by simp [stepOpen]) (by simp [ignoreLoop])

/-- C42: `ignore` panics exactly when a node ends here. -/
theorem C42_ignore_panics (c : Convert) :
    c.ignore = .panic ↔ ∃ r name rest, c.data = ⟨r, .endNode name⟩ :: rest := by
  obtain ⟨data, off⟩ := c
  constructor
  · intro h
    cases data with
    | nil => cases h
    | cons t ts =>
      obtain ⟨r, d⟩ := t
      cases d with
      | endNode name => exact ⟨r, name, ts, rfl⟩
      | startNode name =>
        obtain ⟨n, h1, -⟩ := ignoreLoop_exact ts 0 1
        have : ignoreLoop (⟨r, .startNode name⟩ :: ts) 0 0 = .ok (1 + n) := h1
        simp [ignore, this, Bind.bind, Comp.bind, pure] at h
      | bool => cases h
      | f64 => cases h
      | string => cases h
  · rintro ⟨r, name, rest, h⟩
    cases h
    rfl

/-- C42: on any other data, well nested or not, it spans the items up to the first place, after the first item, where as
many nodes have ended as have started, and all of the data if there is none. -/
theorem C42_ignore_span (c : Convert) (h : ¬ ∃ r name rest, c.data = ⟨r, .endNode name⟩ :: rest) :
    ∃ n, c.ignore = .ok ⟨c.off, n⟩ ∧ n ≤ c.data.length ∧ (∀ m, 0 < m → m < n → openNodes (c.data.take m) ≠ 0) ∧
      (n = c.data.length ∨ 0 < n ∧ openNodes (c.data.take n) = 0) := by
  obtain ⟨data, off⟩ := c
  cases data with
  | nil => exact ⟨0, rfl, Nat.le_refl _, fun m h h' => by omega, .inl rfl⟩
  | cons t ts =>
    have hval : ∀ r d, t = ⟨r, d⟩ → ignoreLoop (t :: ts) 0 0 = .ok 1 → stepOpen 0 t = 0 →
        ∃ n, ignore ⟨t :: ts, off⟩ = .ok ⟨off, n⟩ ∧ n ≤ (t :: ts).length ∧
        (∀ m, 0 < m → m < n → openNodes ((t :: ts).take m) ≠ 0) ∧
        (n = (t :: ts).length ∨ 0 < n ∧ openNodes ((t :: ts).take n) = 0) := by
      intro r d _ h1 h2
      refine ⟨1, by simp [ignore, h1, Bind.bind, Comp.bind, pure], by simp, fun m h h' => by omega, .inr ⟨Nat.one_pos, ?_⟩⟩
      rw [List.take_succ_cons, openNodes_cons, h2]
      rfl
    obtain ⟨r, d⟩ := t
    cases d with
    | endNode name => exact absurd ⟨r, name, ts, rfl⟩ h
    | startNode name =>
      obtain ⟨n, h1, h2, h3, h4⟩ := ignoreLoop_exact ts 0 1
      have h1' : ignoreLoop (⟨r, .startNode name⟩ :: ts) 0 0 = .ok (1 + n) := h1
      refine ⟨1 + n, by simp [ignore, h1', Bind.bind, Comp.bind, pure], by simp; omega, ?_, ?_⟩
      · intro m hm hn
        obtain ⟨m, rfl⟩ : ∃ k, m = k + 1 := ⟨m - 1, by omega⟩
        rw [List.take_succ_cons, openNodes_cons]
        by_cases h0 : m = 0
        · subst h0
          simp [stepOpen, openNodes]
        · have := h3 m (by omega) (by omega)
          simp only [stepOpen]
          omega
      · rcases h4 with ⟨h4, h5⟩ | ⟨h4, -⟩
        · refine .inr ⟨by omega, ?_⟩
          rw [Nat.add_comm, List.take_succ_cons, openNodes_cons]
          simp only [stepOpen]
          omega
        · exact .inl (by simp [h4, Nat.add_comm])
    | bool => exact hval _ _ rfl rfl rfl
    | f64 => exact hval _ _ rfl rfl rfl
    | string => exact hval _ _ rfl rfl rfl

/-- C42: `subtract` of any two positions; it panics if the first is before the second. -/
theorem C42_subtract_exact (c rhs : Convert) :
    (rhs.off ≤ c.off → c.subtract rhs = .ok ⟨rhs.off, c.off - rhs.off⟩) ∧ (c.off < rhs.off → c.subtract rhs = .panic) :=
  ⟨fun h => if_neg (Nat.not_lt.2 h), fun h => if_pos h⟩

/-- C42: `source` of any two positions of any data: there is none if the second has no data or is not before the first;
otherwise it goes from the start of the first item to the end of the last, and it panics if there is no last item, or
if that ends before the first starts. -/
theorem C42_source_exact (c rhs : Convert) :
    (rhs.data = [] ∨ c.off ≤ rhs.off → c.source rhs = .ok none) ∧
    ∀ {first rest}, rhs.data = first :: rest → rhs.off < c.off →
      (rhs.off + rhs.data.length < c.off → c.source rhs = .panic) ∧
      ∀ {last}, (first :: rest)[c.off - rhs.off - 1]? = some last →
        (last.range.next < first.range.offset → c.source rhs = .panic) ∧
        (first.range.offset ≤ last.range.next →
          c.source rhs = .ok (some ⟨first.range.offset, last.range.next - first.range.offset⟩)) := by
  constructor
  · rintro (h | h)
    · simp [source, h]
    · simp only [source]
      split
      · rfl
      · rw [if_pos h]
  · intro first rest hd ho
    have h1 : ¬ c.off ≤ rhs.off := Nat.not_le.2 ho
    refine ⟨fun h => ?_, fun {last} hl => ⟨fun h => ?_, fun h => ?_⟩⟩
    · have : (first :: rest)[c.off - rhs.off - 1]? = none := List.getElem?_eq_none (by rw [← hd]; omega)
      simp only [source, hd, h1, if_false, this]
    · simp only [source, hd, h1, if_false, hl, h, if_true]
    · simp only [source, hd, h1, if_false, hl, Nat.not_lt.2 h]

/-- A node that does not end: all of the data is ignored.  Items between which the source goes backwards: a panic. -/
example : ignore ⟨exNode.take 8, 0⟩ = .ok ⟨0, 8⟩ ∧
    source ⟨[], 2⟩ ⟨[⟨⟨5, 1⟩, .bool c!"a" true⟩, ⟨⟨2, 1⟩, .bool c!"b" true⟩], 0⟩ = .panic ∧
    source ⟨[], 3⟩ ⟨[⟨⟨5, 1⟩, .bool c!"a" true⟩], 0⟩ = .panic ∧
    subtract ⟨[], 2⟩ ⟨[], 3⟩ = .panic := ⟨rfl, rfl, rfl, rfl⟩

end Verif.Props
