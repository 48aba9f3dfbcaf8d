import Verif.Proofs.ConvertTree
/-
`read_rule` on any well nested meta data.
-/
namespace Verif
open Spec CM Convert

theorem endNode_kids (nm : Str) (ks : List Piece) (rest : List Tok) (off : Nat) :
    endNode ⟨toks (Piece.dataL ks) ++ ⟨⟨0, 0⟩, .endNode nm⟩ :: rest, off⟩ nm =
      if ks.isEmpty then some ⟨off, 1⟩ else none := by
  cases ks with
  | nil => simp [Piece.dataL, toks, endNode]
  | cons k ks =>
    simp only [Piece.dataL, toks_append, List.append_assoc]
    rw [endNode_item k.item]
    rfl

/-- A reader that starts with its node. -/
theorem gets_of {nm : Str} {g : Convert → Convert → CM (Range × Rule)} {ks : List Piece} {off i : Nat} {x : RuleRead}
    (h : i < 2 ^ 64 → ∀ rest start ig, start.off = off →
      g start ⟨toks (Piece.dataL ks) ++ ⟨⟨0, 0⟩, .endNode nm⟩ :: rest, off + 1⟩ ⟨i, ig⟩ =
      capped x.2.1 (.ok (x.1.map fun v => (⟨off, (Piece.dataL ks).length + 2⟩, v), ⟨x.2.1, ig ++ x.2.2⟩)))
    (hle : i ≤ x.2.1) :
    Gets (fun c => do
      let r ← ofOption (c.startNode nm)
      let c' ← c.upd r
      g c c') (.node nm ks) off i x := by
  refine ⟨fun hi rest ig => ?_, hle⟩
  have hs : ∀ ts, startNode ⟨⟨⟨0, 0⟩, .startNode nm⟩ :: ts, off⟩ nm = some ⟨off, 1⟩ := by simp [startNode]
  simp only [Piece.data, nodeOf, toks_cons, toks_append, toks_nil, List.cons_append, List.append_assoc,
    List.nil_append]
  rw [bind_some (ofOption_some (hs _) _), bind_some (upd_eq (c := ⟨_, off⟩) (by simp))]
  simp only [List.drop_succ_cons, List.drop_zero]
  rw [h hi rest ⟨_, off⟩ ig rfl, Piece.size_node]

theorem metaBool_piece (p : Str) (k : Piece) (rest : List Tok) (off : Nat) :
    metaBool ⟨toks k.data ++ rest, off⟩ p = (k.bool? p).map fun v => (⟨off, k.size⟩, v) := by
  have h := plain_bool p k rest off ⟨0, []⟩
  simp only [ofOption, Comp.ok.injEq, Prod.mk.injEq, and_true] at h
  exact h

theorem gets_whitespace {strings : List (Str × Str)} {ks : List Piece} {off i : Nat} :
    ∃ x, plainRule strings c!"whitespace" ks (off + 1) i = some x ∧
    Gets readWhitespace (.node c!"whitespace" ks) off i x := by
  refine ⟨_, rfl, ?_⟩
  refine gets_of (g := fun start c => do
    let (r, optional) ← ofOption (c.metaBool c!"optional")
    let c ← c.upd r
    let r ← ofOption (c.endNode c!"whitespace")
    let c ← c.upd r
    let id ← nextId
    return (← c.sub start, .whitespace optional id)) ?_ ?_
  · intro hi rest start ig hs
    cases ks with
    | nil => exact (bind_none rfl).trans (by simp [capped_pos hi, onlyBool])
    | cons k ks =>
      simp only [Piece.dataL, toks_append, List.append_assoc]
      rw [metaBool_piece]
      cases h : k.bool? c!"optional" with
      | none =>
        have hno : onlyBool c!"optional" (k :: ks) = none := by cases ks <;> simp [onlyBool, h]
        simp only [hno]
        exact (bind_none rfl).trans (by simp [capped_pos hi])
      | some v =>
        obtain rfl : k = .bool c!"optional" v := by
          cases k <;> simp_all [Piece.bool?]
        simp only [Option.map_some]
        refine (bind_some (ofOption_some rfl _)).trans ?_
        refine (bind_some (upd_eq (c := ⟨_, off + 1⟩) (by simp [toks_length, Piece.size]))).trans ?_
        simp only [← Piece.size_eq, List.drop_left]
        rw [endNode_kids]
        cases ks with
        | cons k ks => exact (bind_none rfl).trans (by simp [capped_pos hi, onlyBool])
        | nil =>
          refine (bind_some (ofOption_some rfl _)).trans ?_
          refine (bind_some (upd_eq (c := ⟨_, off + 1 + 1⟩) (by simp [Piece.dataL, toks]))).trans ?_
          refine (finish_eq (f := fun id => .whitespace v id) (by simp; omega)).trans ?_
          simp [hs, Piece.dataL, Piece.data, onlyBool, Piece.bool?]
          rw [show off + 1 + 1 + 1 - off = 1 + 2 by omega]
  · split <;> simp

theorem withPart_le (x : RuleRead) (f : Rule → Nat → Rule) : x.2.1 ≤ (withPart x f).2.1 := by
  obtain ⟨r, i, l⟩ := x
  cases r <;> simp [withPart]

section
variable {strings : List (Str × Str)} {rr : Str → Convert → CM (Range × Rule)} {ks : List Piece}

/-- What is needed of `read_rule` for the parts of a rule. -/
structure PartReader (strings : List (Str × Str)) (rr : Str → Convert → CM (Range × Rule)) (ks : List Piece) : Prop where
  other : ∀ p c st, c.startNode p = none → rr p c st = .ok (none, st)
  gets : ∀ p, ∀ k ∈ ks, ∀ off i, Gets (rr p) k off i (k.held strings [p] off i)

variable (hr : PartReader strings rr ks)
include hr

theorem PartReader.one_le (off i : Nat) : i ≤ (Piece.one strings ks off i).2.1 := by
  cases ks with
  | nil => exact Nat.le_refl _
  | cons k ks => exact (hr.gets c!"rule" k (by simp) off i).le

/-- A rule with one part. -/
theorem one_eq {nm : Str} {f : Rule → Nat → Rule} {rest : List Tok} {off i : Nat} {start : Convert} {ig : List Range}
    (hi : i < 2 ^ 64) (hs : start.off ≤ off) :
    (do
      let (r, rule) ← rr c!"rule" ⟨toks (Piece.dataL ks) ++ ⟨⟨0, 0⟩, .endNode nm⟩ :: rest, off⟩
      let c ← upd ⟨toks (Piece.dataL ks) ++ ⟨⟨0, 0⟩, .endNode nm⟩ :: rest, off⟩ r
      let r ← ofOption (c.endNode nm)
      let c ← c.upd r
      let id ← nextId
      return (← c.sub start, f rule id) : CM (Range × Rule)) ⟨i, ig⟩ =
    capped (withPart (Piece.one strings ks off i) f).2.1
      (.ok ((withPart (Piece.one strings ks off i) f).1.map fun x =>
        (⟨start.off, off + (Piece.dataL ks).length + 1 - start.off⟩, x),
        ⟨(withPart (Piece.one strings ks off i) f).2.1, ig ++ (withPart (Piece.one strings ks off i) f).2.2⟩)) := by
  cases ks with
  | nil =>
    simp only [Piece.dataL, toks_nil, List.nil_append]
    refine (bind_none (hr.other _ _ _ rfl)).trans ?_
    simp [Piece.one, withPart, capped_pos hi]
  | cons k ks =>
    have e := (hr.gets c!"rule" k (by simp) off i).eq hi (toks (Piece.dataL ks) ++ ⟨⟨0, 0⟩, .endNode nm⟩ :: rest) ig
    rw [Piece.dataL_cons]
    simp only [Piece.dataL, toks_append, List.append_assoc, Piece.one]
    generalize k.held strings [c!"rule"] off i = x at e ⊢
    obtain ⟨v, i', l⟩ := x
    simp only at e ⊢
    by_cases hi' : i' < 2 ^ 64
    case neg =>
      rw [capped_neg hi'] at e
      have := withPart_le (if ks.isEmpty = true then v else none, i', l) f
      rw [capped_neg (by simp only at this; omega)]
      exact bind_panic e
    rw [capped_pos hi'] at e
    cases v with
    | none =>
      refine (bind_none e).trans ?_
      simp [withPart, capped_pos hi']
    | some r =>
      refine (bind_some e).trans ?_
      simp only
      refine (bind_some (upd_eq (c := ⟨_, off⟩) (by simp [toks_length, Piece.size]))).trans ?_
      simp only [← Piece.size_eq, List.drop_left]
      rw [endNode_kids]
      cases ks with
      | cons k' ks =>
        refine (bind_none rfl).trans ?_
        simp [withPart, capped_pos hi']
      | nil =>
        refine (bind_some (ofOption_some rfl _)).trans ?_
        refine (bind_some (upd_eq (c := ⟨_, off + _⟩) (by simp [Piece.dataL, toks]))).trans ?_
        refine (finish_eq (f := f r) (by simp; omega)).trans ?_
        simp [withPart, Piece.dataL]

theorem gets_optional (off i : Nat) : Gets (readOptional rr) (.node c!"optional" ks) off i
    (withPart (Piece.one strings ks (off + 1) i) .optional) := by
  refine gets_of (fun hi rest start ig hs => ?_) (Nat.le_trans (hr.one_le _ _) (withPart_le ..))
  refine (one_eq hr (nm := c!"optional") (f := .optional) (start := start) hi (by omega)).trans ?_
  rw [hs, show off + 1 + (Piece.dataL ks).length + 1 - off = (Piece.dataL ks).length + 2 by omega]

theorem gets_not (off i : Nat) : Gets (readNot rr) (.node c!"not" ks) off i
    (withPart (Piece.one strings ks (off + 1) i) .not) := by
  refine gets_of (fun hi rest start ig hs => ?_) (Nat.le_trans (hr.one_le _ _) (withPart_le ..))
  refine (one_eq hr (nm := c!"not") (f := .not) (start := start) hi (by omega)).trans ?_
  rw [hs, show off + 1 + (Piece.dataL ks).length + 1 - off = (Piece.dataL ks).length + 2 by omega]

omit hr in
theorem bool?_some {p : Str} {k : Piece} {v : Bool} (h : k.bool? p = some v) : k = .bool p v := by
  cases k <;> simp_all [Piece.bool?]

/-- The rule `lines`. -/
def linesRead (strings : List (Str × Str)) (ks : List Piece) (off i : Nat) : RuleRead :=
  match ks with
  | .bool q v :: ks =>
    if q = c!"indent" then withPart (Piece.one strings ks (off + 2) i) fun r id => .lines r v id else (none, i, [])
  | k :: ks => withPart (Piece.one strings (k :: ks) (off + 1) i) fun r id => .lines r false id
  | [] => (none, i, [])

omit hr in
theorem linesRead_some {v : Bool} {off i : Nat} : linesRead strings (.bool c!"indent" v :: ks) off i =
    withPart (Piece.one strings ks (off + 2) i) fun r id => .lines r v id := by
  simp [linesRead]

omit hr in
theorem linesRead_none {k : Piece} {off i : Nat} (h : k.bool? c!"indent" = none) :
    linesRead strings (k :: ks) off i =
      withPart (Piece.one strings (k :: ks) (off + 1) i) fun r id => .lines r false id := by
  cases k with
  | bool q v =>
    simp only [Piece.bool?] at h
    by_cases hq : q = c!"indent"
    · simp [hq] at h
    · simp [linesRead, hq, Piece.one, Piece.held, withPart]
  | _ => rfl

theorem gets_lines (off i : Nat) : Gets (readLines rr) (.node c!"lines" ks) off i (linesRead strings ks off i) := by
  refine gets_of (g := fun start c => do
    let (c, indent) ← readIndent c
    let (r, rule) ← rr c!"rule" c
    let c ← c.upd r
    let r ← ofOption (c.endNode c!"lines")
    let c ← c.upd r
    let id ← nextId
    return (← c.sub start, .lines rule indent id)) ?_ ?_
  · intro hi rest start ig hs
    cases ks with
    | nil =>
      simp only [linesRead, Piece.dataL, toks_nil, List.nil_append]
      refine (bind_some (a := (⟨⟨⟨0, 0⟩, .endNode c!"lines"⟩ :: rest, off + 1⟩, false)) (st' := ⟨i, ig⟩) rfl).trans ?_
      refine (bind_none (hr.other _ _ _ rfl)).trans ?_
      simp [capped_pos hi]
    | cons k ks =>
      cases h : k.bool? c!"indent" with
      | some v =>
        obtain rfl := bool?_some h
        have hr' : PartReader strings rr ks := ⟨hr.other, fun p k hk => hr.gets p k (by simp [hk])⟩
        rw [linesRead_some]
        refine (bind_some (a := (⟨toks (Piece.dataL ks) ++ ⟨⟨0, 0⟩, .endNode c!"lines"⟩ :: rest, off + 2⟩, v))
          (st' := ⟨i, ig⟩) ?_).trans ?_
        · simp only [readIndent, Piece.dataL, toks_append, List.append_assoc]
          rw [metaBool_piece, h]
          simp only [Option.map_some]
          rw [bind_some (upd_eq (c := ⟨_, off + 1⟩) (by simp [toks_length, Piece.size]))]
          simp only [← Piece.size_eq, List.drop_left]
          rfl
        refine (one_eq hr' (nm := c!"lines") (f := fun r id => .lines r v id) (start := start) hi (by omega)).trans ?_
        rw [hs, Piece.dataL_cons, show off + 2 + (Piece.dataL ks).length + 1 - off =
          (Piece.bool c!"indent" v).size + (Piece.dataL ks).length + 2 by simp [Piece.size, Piece.data]; omega]
      | none =>
        rw [linesRead_none h]
        refine (bind_some (a := (⟨toks (Piece.dataL (k :: ks)) ++ ⟨⟨0, 0⟩, .endNode c!"lines"⟩ :: rest, off + 1⟩, false))
          (st' := ⟨i, ig⟩) ?_).trans ?_
        · simp only [readIndent, Piece.dataL, toks_append, List.append_assoc]
          rw [metaBool_piece, h]
          rfl
        refine (one_eq hr (nm := c!"lines") (f := fun r id => .lines r false id) (start := start) hi
          (by omega)).trans ?_
        rw [hs, show off + 1 + (Piece.dataL (k :: ks)).length + 1 - off = (Piece.dataL (k :: ks)).length + 2 by omega]
  · cases ks with
    | nil => exact Nat.le_refl _
    | cons k ks =>
      cases h : k.bool? c!"indent" with
      | some v =>
        obtain rfl := bool?_some h
        have hr' : PartReader strings rr ks := ⟨hr.other, fun p k hk => hr.gets p k (by simp [hk])⟩
        rw [linesRead_some]
        exact Nat.le_trans (hr'.one_le _ _) (withPart_le ..)
      | none =>
        rw [linesRead_none h]
        exact Nat.le_trans (hr.one_le _ _) (withPart_le ..)

end

/-! ### Rules with parts in any order -/

/-- The name of a node. -/
def Spec.Piece.name : Piece → Str
  | .node q _ => q
  | _ => []

theorem held_in (strings : List (Str × Str)) {ps : List Str} {k : Piece} (off i : Nat) (h : k.name ∈ ps) :
    k.held strings ps off i = k.held strings [k.name] off i := by
  cases k with
  | node q ks =>
    have : q ∈ ps := h
    simp [Piece.held, Piece.name, this]
  | _ => rfl

theorem held_out (strings : List (Str × Str)) {ps : List Str} {k : Piece} (off i : Nat) (h : k.name ∉ ps) :
    k.held strings ps off i = (none, i, []) := by
  cases k with
  | node q ks =>
    have : q ∉ ps := h
    simp [Piece.held, this]
  | _ => rfl

section
variable {strings : List (Str × Str)} {ps : List Str} {own : Piece → Bool}

theorem parts_own {k : Piece} (h : own k = true) (ks : List Piece) (off i : Nat) :
    Piece.parts strings ps own (k :: ks) off i = Piece.parts strings ps own ks (off + k.size) i := by
  simp [Piece.parts, h]

theorem parts_cons {k : Piece} (h : own k = false) (ks : List Piece) (off i : Nat) :
    Piece.parts strings ps own (k :: ks) off i =
      ((k.held strings ps off i).1.toList.map (k.name, ·) ++
          (Piece.parts strings ps own ks (off + k.size) (k.held strings ps off i).2.1).1,
        (Piece.parts strings ps own ks (off + k.size) (k.held strings ps off i).2.1).2.1,
        (k.held strings ps off i).2.2 ++ (if (k.held strings ps off i).1.isSome then [] else [⟨off, k.size⟩]) ++
          (Piece.parts strings ps own ks (off + k.size) (k.held strings ps off i).2.1).2.2) := by
  rw [Piece.parts, if_neg (by simp [h])]
  cases k with
  | node q ks =>
    simp only
    cases (Piece.node q ks).held strings ps off i with
    | mk r x => cases r <;> simp [Piece.name]
  | _ => simp [Piece.held]

/-- One item of a rule with parts. -/
def partStep {σ : Type} (strings : List (Str × Str)) (ps : List Str) (own : Piece → Bool) (putF : σ → Piece → σ)
    (putR : σ → Str × Rule → σ) : Step σ := fun s k off i =>
  if own k then (some (putF s k), i, i, [])
  else ((k.held strings ps off i).1.map fun r => putR s (k.name, r), (k.held strings ps off i).2.1,
    (k.held strings ps off i).2.1, (k.held strings ps off i).2.2)

theorem walk_parts {σ F R : Type} {combine : F → R → σ} {putF : σ → Piece → σ} {putR : σ → Str × Rule → σ}
    {putF' : F → Piece → F} {putR' : R → Str × Rule → R}
    (hF : ∀ f r k, putF (combine f r) k = combine (putF' f k) r)
    (hR : ∀ f r x, putR (combine f r) x = combine f (putR' r x))
    (hN : ∀ f k, own k = false → putF' f k = f) :
    ∀ {ks : List Piece} (_ : ∀ k ∈ ks, ∀ off i, i ≤ (k.held strings ps off i).2.1) (f : F) (r : R) (off i : Nat),
    (walk (partStep strings ps own putF putR) ks (combine f r) off i).1 =
      combine (ks.foldl putF' f) ((Piece.parts strings ps own ks off i).1.foldl putR' r) ∧
    (walk (partStep strings ps own putF putR) ks (combine f r) off i).2.1 =
      (Piece.parts strings ps own ks off i).2.1 ∧
    (walk (partStep strings ps own putF putR) ks (combine f r) off i).2.2.1 ≤
      (Piece.parts strings ps own ks off i).2.1 ∧
    (walk (partStep strings ps own putF putR) ks (combine f r) off i).2.2.2 =
      (Piece.parts strings ps own ks off i).2.2 ∧ i ≤ (Piece.parts strings ps own ks off i).2.1
  | [], _, f, r, off, i => ⟨rfl, rfl, Nat.zero_le _, rfl, Nat.le_refl _⟩
  | k :: ks, hle, f, r, off, i => by
    have ih := fun f r off i => walk_parts hF hR hN (ks := ks) (fun k hk => hle k (by simp [hk])) f r off i
    cases hk : own k with
    | true =>
      obtain ⟨h₁, h₂, h₃, h₄, h₅⟩ := ih (putF' f k) r (off + k.size) i
      rw [parts_own hk]
      simp only [walk, partStep, hk, if_true, Option.getD_some, Option.isSome_some, hF, List.nil_append,
        List.foldl_cons]
      exact ⟨h₁, h₂, Nat.max_le.2 ⟨h₅, h₃⟩, h₄, h₅⟩
    | false =>
      have hl := hle k (by simp) off i
      rw [parts_cons hk]
      simp only [walk, partStep, hk, Bool.false_eq_true, if_false, Option.isSome_map, List.foldl_cons, hN f k hk]
      generalize k.held strings ps off i = x at hl ⊢
      obtain ⟨v, i', l⟩ := x
      simp only at hl ⊢
      cases v with
      | none =>
        obtain ⟨h₁, h₂, h₃, h₄, h₅⟩ := ih f r (off + k.size) i'
        exact ⟨h₁, h₂, Nat.max_le.2 ⟨h₅, h₃⟩, congrArg _ h₄, Nat.le_trans hl h₅⟩
      | some v =>
        obtain ⟨h₁, h₂, h₃, h₄, h₅⟩ := ih f (putR' r (k.name, v)) (off + k.size) i'
        simp only [Option.map_some, Option.getD_some, hR]
        exact ⟨h₁, h₂, Nat.max_le.2 ⟨h₅, h₃⟩, congrArg _ h₄, Nat.le_trans hl h₅⟩

end

theorem Gets.try {σ : Type} {f : Convert → CM (Range × Rule)} {k : Piece} {off i : Nat} {x : RuleRead}
    (h : Gets f k off i x) (hi : i < 2 ^ 64) {put : Rule → σ} {o : CM (Option (Range × σ))} {rest : List Tok}
    {ig : List Range} : tryRead (f ⟨toks k.data ++ rest, off⟩) put o ⟨i, ig⟩ =
      capped x.2.1 (x.1.elim (o ⟨x.2.1, ig ++ x.2.2⟩)
        fun v => .ok (some (some (⟨off, k.size⟩, put v)), ⟨x.2.1, ig ++ x.2.2⟩)) := by
  have e := h.eq hi rest ig
  obtain ⟨v, i', l⟩ := x
  simp only at e ⊢
  by_cases hi' : i' < 2 ^ 64
  · rw [capped_pos hi'] at e ⊢
    cases v with
    | none => exact tryRead_none e
    | some v => exact tryRead_some e
  · rw [capped_neg hi'] at e ⊢
    exact tryRead_panic e

section
variable {strings : List (Str × Str)} {rr : Str → Convert → CM (Range × Rule)} {ks : List Piece} {n : Nat}
variable (hr : PartReader strings rr ks)
include hr

theorem PartReader.held_le (ps : List Str) : ∀ k ∈ ks, ∀ off i, i ≤ (k.held strings ps off i).2.1 := by
  intro k hk off i
  by_cases h : k.name ∈ ps
  · rw [held_in strings off i h]
    exact (hr.gets _ k hk off i).le
  · rw [held_out strings off i h]
    exact Nat.le_refl _

theorem steps_args : ∀ k ∈ ks, Steps (argsBody rr)
    (partStep strings [c!"rule"] (fun _ => false) (fun s _ => s) fun s x => s ++ [x.2]) k := by
  intro k hk
  refine ⟨fun s off i hi rest ig => ?_, fun s off i hi h => h⟩
  simp only [argsBody]
  rw [(hr.gets c!"rule" k hk off i).try hi]
  simp only [partStep, Bool.false_eq_true, if_false]
  cases (k.held strings [c!"rule"] off i).1 <;> rfl

omit hr in
theorem foldl_snd (xs : List (Str × Rule)) (acc : List Rule) :
    xs.foldl (fun s x => s ++ [x.2]) acc = acc ++ xs.map (·.2) := by
  induction xs generalizing acc with
  | nil => simp
  | cons x xs ih => simp [ih]

theorem walk_args (acc : List Rule) (off i : Nat) :
    let w := walk (partStep strings [c!"rule"] (fun _ => false) (fun s _ => s) fun s x => s ++ [x.2]) ks acc off i
    let x := Piece.parts strings [c!"rule"] (fun _ => false) ks off i
    w.1 = acc ++ x.1.map (·.2) ∧ w.2.1 = x.2.1 ∧ w.2.2.1 ≤ x.2.1 ∧ w.2.2.2 = x.2.2 ∧ i ≤ x.2.1 := by
  have h := walk_parts (strings := strings) (ps := [c!"rule"]) (own := fun _ => false) (combine := fun (_ : Unit) r => r)
    (putF := fun (s : List Rule) _ => s) (putR := fun s x => s ++ [x.2]) (putF' := fun _ _ => ())
    (putR' := fun s x => s ++ [x.2]) (fun _ _ _ => rfl) (fun _ _ _ => rfl) (fun _ _ _ => rfl)
    (hr.held_le [c!"rule"]) () acc off i
  rw [foldl_snd] at h
  exact h

theorem gets_sequence (hn : (Piece.dataL ks).length < n) (off i : Nat) :
    Gets (readSequence rr n) (.node c!"sequence" ks) off i
    (let x := Piece.parts strings [c!"rule"] (fun _ => false) ks (off + 1) i
     (some (.sequence (x.1.map (·.2)) (x.2.1 + 1)), x.2.1 + 1, x.2.2)) := by
  obtain ⟨h₁, h₂, h₃, h₄, h₅⟩ := walk_args hr [] (off + 1) i
  refine gets_loop (steps_args hr) hn ?_ h₄.symm (by simp only; omega) (by simp only; omega)
  intro _ start d ig h
  rw [h₁, h₂]
  exact finish_eq h

theorem gets_select (hn : (Piece.dataL ks).length < n) (off i : Nat) :
    Gets (readSelect rr n) (.node c!"select" ks) off i
    (let x := Piece.parts strings [c!"rule"] (fun _ => false) ks (off + 1) i
     (some (.select (x.1.map (·.2)) (x.2.1 + 1)), x.2.1 + 1, x.2.2)) := by
  obtain ⟨h₁, h₂, h₃, h₄, h₅⟩ := walk_args hr [] (off + 1) i
  refine gets_loop (steps_args hr) hn ?_ h₄.symm (by simp only; omega) (by simp only; omega)
  intro _ start d ig h
  rw [h₁, h₂]
  exact finish_eq h

omit hr in
theorem lastPart_cons (p : Str) (x : Str × Rule) (xs : List (Str × Rule)) :
    lastPart p (x :: xs) = (lastPart p xs).or (if x.1 = p then some x.2 else none) := by
  simp only [lastPart, List.filter_cons]
  by_cases h : x.1 = p
  · simp only [h, decide_true, if_true]
    cases hf : xs.filter fun x => decide (x.1 = p) with
    | nil => rfl
    | cons a b =>
      rw [List.getLast?_cons_cons]
      cases hl : (a :: b).getLast? with
      | none => simp at hl
      | some => rfl
  · simp [h]

/-- The variables of `read_separated_by`. -/
abbrev SepSt := Option Bool × Option Bool × Option Rule × Option Rule

/-- The step of `read_separated_by`. -/
def sepStep (strings : List (Str × Str)) : Step SepSt :=
  partStep strings [c!"by", c!"rule"] separatedField
    (fun s k => ((k.bool? c!"optional").or s.1, (k.bool? c!"allow_trail").or s.2.1, s.2.2))
    (fun s x => (s.1, s.2.1, if x.1 = c!"by" then (some x.2, s.2.2.2) else (s.2.2.1, some x.2)))

theorem steps_separated : ∀ k ∈ ks, Steps (separatedBody rr) (sepStep strings) k := by
  intro k hk
  refine ⟨fun s off i hi rest ig => ?_, fun s off i hi h => ?_⟩
  · simp only [separatedBody]
    rw [Plain.try (f := fun c => ofOption (c.metaBool _)) (plain_bool _ k)]
    cases h₁ : k.bool? c!"optional" with
    | some v => simp [sepStep, partStep, separatedField, h₁, bool?_ne h₁, capped_pos hi]
    | none =>
      simp only [Option.elim]
      rw [Plain.try (f := fun c => ofOption (c.metaBool _)) (plain_bool _ k)]
      cases h₂ : k.bool? c!"allow_trail" with
      | some v => simp [sepStep, partStep, separatedField, h₁, h₂, capped_pos hi]
      | none =>
        simp only [Option.elim]
        rw [(hr.gets c!"by" k hk off i).try hi]
        have ho : separatedField k = false := by simp [separatedField, h₁, h₂]
        simp only [sepStep, partStep, ho, Bool.false_eq_true, if_false]
        by_cases hb : k.name = c!"by"
        · rw [held_in strings off i (ps := [c!"by", c!"rule"]) (by simp [hb]), hb]
          by_cases hi' : (k.held strings [c!"by"] off i).2.1 < 2 ^ 64
          · cases (k.held strings [c!"by"] off i).1 with
            | some v => simp
            | none =>
              simp only [Option.elim]
              rw [(hr.gets c!"rule" k hk off _).try hi', held_out strings off _ (ps := [c!"rule"]) (by simp [hb]),
                capped_pos hi', capped_pos hi']
              simp [noRead, Pure.pure, CM.pure, capped_pos hi']
          · rw [capped_neg hi', capped_neg hi']
        · rw [held_out strings off i (ps := [c!"by"]) (by simp [hb]), capped_pos hi]
          simp only [Option.elim]
          rw [(hr.gets c!"rule" k hk off _).try hi]
          by_cases hc : k.name = c!"rule"
          · rw [held_in strings off i (ps := [c!"by", c!"rule"]) (by simp [hc]), hc]
            cases (k.held strings [c!"rule"] off i).1 <;> simp [noRead, Pure.pure, CM.pure]
          · rw [held_out strings off i (ps := [c!"rule"]) (by simp [hc]),
              held_out strings off i (ps := [c!"by", c!"rule"]) (by simp [hb, hc])]
            simp [noRead, Pure.pure, CM.pure]
  · simp only [sepStep, partStep] at h ⊢
    split
    · exact hi
    · rename_i ho
      rw [if_neg ho] at h
      exact h

omit hr in
theorem parts_names {ps : List Str} {own : Piece → Bool} : ∀ (ks : List Piece) (off i : Nat),
    ∀ x ∈ (Piece.parts strings ps own ks off i).1, x.1 ∈ ps
  | [], _, _, x, hx => by simp [Piece.parts] at hx
  | k :: ks, off, i, x, hx => by
    cases hk : own k with
    | true =>
      rw [parts_own hk] at hx
      exact parts_names ks _ _ x hx
    | false =>
      rw [parts_cons hk] at hx
      rcases List.mem_append.1 hx with hx | hx
      · by_cases h : k.name ∈ ps
        · simp only [List.mem_map] at hx
          obtain ⟨r, _, rfl⟩ := hx
          exact h
        · rw [held_out strings off i h] at hx
          simp at hx
      · exact parts_names ks _ _ x hx

omit hr in
theorem foldl_sep : ∀ (xs : List (Str × Rule)) (_ : ∀ x ∈ xs, x.1 ∈ [c!"by", c!"rule"]) (s : Option Rule × Option Rule),
    xs.foldl (fun s x => if x.1 = c!"by" then (some x.2, s.2) else (s.1, some x.2)) s =
      ((lastPart c!"by" xs).or s.1, (lastPart c!"rule" xs).or s.2)
  | [], _, s => rfl
  | x :: xs, h, s => by
    rw [List.foldl_cons, foldl_sep xs (fun x hx => h x (by simp [hx])), lastPart_cons, lastPart_cons]
    have := h x (by simp)
    simp only [List.mem_cons, List.not_mem_nil, or_false] at this
    rcases this with e | e <;> simp [e]

theorem walk_separated (off i : Nat) :
    let w := walk (sepStep strings) ks (none, none, none, none) off i
    let x := Piece.parts strings [c!"by", c!"rule"] separatedField ks off i
    w.1 = (lastOf (·.bool? c!"optional") ks, lastOf (·.bool? c!"allow_trail") ks, lastPart c!"by" x.1,
      lastPart c!"rule" x.1) ∧
    w.2.1 = x.2.1 ∧ w.2.2.1 ≤ x.2.1 ∧ w.2.2.2 = x.2.2 ∧ i ≤ x.2.1 := by
  have h := walk_parts (strings := strings) (ps := [c!"by", c!"rule"]) (own := separatedField)
    (combine := fun (f : Option Bool × Option Bool) (r : Option Rule × Option Rule) => (f.1, f.2, r))
    (putF := fun (s : SepSt) k => ((k.bool? c!"optional").or s.1, (k.bool? c!"allow_trail").or s.2.1, s.2.2))
    (putR := fun s x => (s.1, s.2.1, if x.1 = c!"by" then (some x.2, s.2.2.2) else (s.2.2.1, some x.2)))
    (putF' := fun f k => ((k.bool? c!"optional").or f.1, (k.bool? c!"allow_trail").or f.2))
    (putR' := fun s x => if x.1 = c!"by" then (some x.2, s.2) else (s.1, some x.2))
    (fun _ _ _ => rfl) (fun _ _ _ => rfl) (by
      rintro ⟨f, g⟩ k hk
      simp only [separatedField, Bool.or_eq_false_iff, Option.isSome_eq_false_iff, Option.isNone_iff_eq_none] at hk
      simp [hk])
    (hr.held_le [c!"by", c!"rule"]) (none, none) (none, none) off i
  rw [foldl_last₂, foldl_sep _ (parts_names ks off i)] at h
  simp only [Option.or_none] at h
  exact h

/-- The rule `separated_by`. -/
def separatedRead (strings : List (Str × Str)) (ks : List Piece) (off i : Nat) : RuleRead :=
  let x := Piece.parts strings [c!"by", c!"rule"] separatedField ks (off + 1) i
  match lastPart c!"by" x.1, lastPart c!"rule" x.1 with
  | some b, some r =>
    (some (.separateBy r b ((lastOf (·.bool? c!"optional") ks).getD true)
      ((lastOf (·.bool? c!"allow_trail") ks).getD true) (x.2.1 + 1)), x.2.1 + 1, x.2.2)
  | _, _ => (none, x.2)

theorem gets_separated (hn : (Piece.dataL ks).length < n) (off i : Nat) :
    Gets (readSeparatedBy rr n) (.node c!"separated_by" ks) off i (separatedRead strings ks off i) := by
  obtain ⟨h₁, h₂, h₃, h₄, h₅⟩ := walk_separated hr (off + 1) i
  have hx : (separatedRead strings ks off i).2.2 =
      (Piece.parts strings [c!"by", c!"rule"] separatedField ks (off + 1) i).2.2 := by
    simp only [separatedRead]; split <;> rfl
  have hy : (Piece.parts strings [c!"by", c!"rule"] separatedField ks (off + 1) i).2.1 ≤
      (separatedRead strings ks off i).2.1 := by
    simp only [separatedRead]; split <;> simp
  refine gets_loop (steps_separated hr) hn ?_ (hx.trans h₄.symm) (by omega) (by omega)
  intro hi start d ig h
  rw [h₁]
  rw [h₂] at hi ⊢
  simp only [separatedRead]
  cases lastPart c!"by" (Piece.parts strings [c!"by", c!"rule"] separatedField ks (off + 1) i).1 with
  | none => exact (bind_none rfl).trans (capped_pos hi).symm
  | some b =>
    refine (bind_some (ofOption_some rfl _)).trans ?_
    cases lastPart c!"rule" (Piece.parts strings [c!"by", c!"rule"] separatedField ks (off + 1) i).1 with
    | none => exact (bind_none rfl).trans (capped_pos hi).symm
    | some r => exact (bind_some (ofOption_some rfl _)).trans (finish_eq h)

/-- The step of `read_repeat`. -/
def repeatStep (strings : List (Str × Str)) : Step (Option Rule × Option Bool) :=
  partStep strings [c!"rule"] repeatField (fun s k => (s.1, (k.bool? c!"optional").or s.2))
    (fun s x => (some x.2, s.2))

theorem steps_repeat : ∀ k ∈ ks, Steps (repeatBody rr) (repeatStep strings) k := by
  intro k hk
  refine ⟨fun s off i hi rest ig => ?_, fun s off i hi h => ?_⟩
  · simp only [repeatBody]
    rw [(hr.gets c!"rule" k hk off i).try hi]
    cases h₁ : k.bool? c!"optional" with
    | some v =>
      have hc : k.name ≠ c!"rule" := by rw [bool?_some h₁]; simp [Piece.name]
      rw [held_out strings off i (ps := [c!"rule"]) (by simp [hc]), capped_pos hi]
      simp only [Option.elim]
      rw [Plain.try (f := fun c => ofOption (c.metaBool _)) (plain_bool _ k)]
      simp [repeatStep, partStep, repeatField, h₁, capped_pos hi]
    | none =>
      simp only [repeatStep, partStep, repeatField, h₁, Option.isSome_none, Bool.false_eq_true, if_false]
      cases (k.held strings [c!"rule"] off i).1 with
      | some v => rfl
      | none =>
        simp only [Option.elim]
        rw [Plain.try (f := fun c => ofOption (c.metaBool _)) (plain_bool _ k), h₁]
        rfl
  · simp only [repeatStep, partStep] at h ⊢
    split
    · exact hi
    · rename_i ho
      rw [if_neg ho] at h
      exact h

omit hr in
theorem foldl_rule : ∀ (xs : List (Str × Rule)) (_ : ∀ x ∈ xs, x.1 ∈ [c!"rule"]) (s : Option Rule),
    xs.foldl (fun _ x => some x.2) s = (lastPart c!"rule" xs).or s
  | [], _, s => rfl
  | x :: xs, h, s => by
    rw [List.foldl_cons, foldl_rule xs (fun x hx => h x (by simp [hx])), lastPart_cons]
    have := h x (by simp)
    simp only [List.mem_cons, List.not_mem_nil, or_false] at this
    simp [this]

omit hr in
theorem foldl_last₁ {α : Type} (f : Piece → Option α) (ks : List Piece) (s : Option α) :
    ks.foldl (fun s k => (f k).or s) s = (lastOf f ks).or s := by
  induction ks generalizing s with
  | nil => rfl
  | cons k ks ih => simp [ih, lastOf_cons, Option.or_assoc]

theorem walk_repeat (off i : Nat) :
    let w := walk (repeatStep strings) ks (none, none) off i
    let x := Piece.parts strings [c!"rule"] repeatField ks off i
    w.1 = (lastPart c!"rule" x.1, lastOf (·.bool? c!"optional") ks) ∧
    w.2.1 = x.2.1 ∧ w.2.2.1 ≤ x.2.1 ∧ w.2.2.2 = x.2.2 ∧ i ≤ x.2.1 := by
  have h := walk_parts (strings := strings) (ps := [c!"rule"]) (own := repeatField)
    (combine := fun (f : Option Bool) (r : Option Rule) => (r, f))
    (putF := fun s k => (s.1, (k.bool? c!"optional").or s.2))
    (putR := fun s x => (some x.2, s.2))
    (putF' := fun f k => (k.bool? c!"optional").or f)
    (putR' := fun _ x => some x.2)
    (fun _ _ _ => rfl) (fun _ _ _ => rfl) (by
      intro f k hk
      simp only [repeatField, Option.isSome_eq_false_iff, Option.isNone_iff_eq_none] at hk
      simp [hk])
    (hr.held_le [c!"rule"]) none none off i
  rw [foldl_last₁, foldl_rule _ (parts_names ks off i)] at h
  simp only [Option.or_none] at h
  exact h

/-- The rule `repeat`. -/
def repeatRead (strings : List (Str × Str)) (ks : List Piece) (off i : Nat) : RuleRead :=
  let x := Piece.parts strings [c!"rule"] repeatField ks (off + 1) i
  match lastPart c!"rule" x.1, lastOf (·.bool? c!"optional") ks with
  | some r, some o => (some (.repeat_ r o (x.2.1 + 1)), x.2.1 + 1, x.2.2)
  | _, _ => (none, x.2)

theorem gets_repeat (hn : (Piece.dataL ks).length < n) (off i : Nat) :
    Gets (readRepeat rr n) (.node c!"repeat" ks) off i (repeatRead strings ks off i) := by
  obtain ⟨h₁, h₂, h₃, h₄, h₅⟩ := walk_repeat hr (off + 1) i
  have hx : (repeatRead strings ks off i).2.2 =
      (Piece.parts strings [c!"rule"] repeatField ks (off + 1) i).2.2 := by
    simp only [repeatRead]; split <;> rfl
  have hy : (Piece.parts strings [c!"rule"] repeatField ks (off + 1) i).2.1 ≤
      (repeatRead strings ks off i).2.1 := by
    simp only [repeatRead]; split <;> simp
  refine gets_loop (steps_repeat hr) hn ?_ (hx.trans h₄.symm) (by omega) (by omega)
  intro hi start d ig h
  rw [h₁]
  rw [h₂] at hi ⊢
  simp only [repeatRead]
  cases lastPart c!"rule" (Piece.parts strings [c!"rule"] repeatField ks (off + 1) i).1 with
  | none => exact (bind_none rfl).trans (capped_pos hi).symm
  | some b =>
    refine (bind_some (ofOption_some rfl _)).trans ?_
    cases lastOf (·.bool? c!"optional") ks with
    | none => exact (bind_none rfl).trans (capped_pos hi).symm
    | some r => exact (bind_some (ofOption_some rfl _)).trans (finish_eq h)

end

/-! ### `read_rule` -/

theorem gets_first {L : Nat} {l : List (Str × (Convert → CM (Range × Rule)))}
    (hl : ∀ p ∈ l, Reader L p.1 p.2) (hd : (l.map (·.1)).Nodup) {nm : Str}
    {f : Convert → CM (Range × Rule)} (hf : (nm, f) ∈ l) {ks : List Piece} {off i : Nat} {x : RuleRead}
    (h : Gets f (.node nm ks) off i x) :
    Gets (fun c => firstRule (l.map fun p => p.2 c)) (.node nm ks) off i x := by
  refine ⟨fun hi rest ig => ?_, h.le⟩
  have h := h.eq hi rest ig
  obtain ⟨r, i', l'⟩ := x
  simp only at h ⊢
  induction l with
  | nil => cases hf
  | cons p l ih =>
    simp only [List.map_cons, List.nodup_cons] at hd
    show (attempt _ >>= _) _ = _
    rcases List.mem_cons.1 hf with rfl | hf
    · by_cases hi' : i' < 2 ^ 64
      case neg =>
        rw [capped_neg hi'] at h ⊢
        exact bind_panic (by simp only [attempt, h])
      rw [capped_pos hi'] at h ⊢
      rw [bind_some (a := _) (st' := ⟨i', ig ++ l'⟩) (by simp only [attempt, h]; rfl)]
      cases r with
      | none => exact first_skips (fun p hp => hl p (by simp [hp])) hd.1 rest off _
      | some r => rfl
    · have hne : nm ≠ p.1 := by
        rintro rfl
        exact hd.1 (List.mem_map.2 ⟨_, hf, rfl⟩)
      have := (skips_reader (hl p (by simp)) (a := (Piece.node nm ks).data) hne).eq rest off ⟨i, ig⟩
      rw [bind_some (a := none) (st' := ⟨i, ig⟩) (by simp only [attempt, this])]
      exact ih (fun p hp => hl p (by simp [hp])) hd.2 hf

theorem first_none {L : Nat} {l : List (Str × (Convert → CM (Range × Rule)))} (hl : ∀ p ∈ l, Reader L p.1 p.2)
    {c : Convert} (h : ∀ p ∈ l, c.startNode p.1 = none) (st : CSt) :
    firstRule (l.map fun p => p.2 c) st = .ok (none, st) := by
  refine firstRule_none ?_
  simp only [List.mem_map]
  rintro m ⟨q, hq, rfl⟩
  exact (hl q hq).other _ _ (h q hq)

theorem startNode_piece (p : Str) (k : Piece) (rest : List Tok) (off : Nat) (h : ∀ ks, k ≠ .node p ks) :
    startNode ⟨toks k.data ++ rest, off⟩ p = none := by
  cases k with
  | node q ks =>
    have : q ≠ p := fun e => h ks (by rw [e])
    simp [startNode, Piece.data, nodeOf, toks, this]
  | bool q v => simp [startNode, Piece.data, toks]
  | string q v => simp [startNode, Piece.data, toks]
  | f64 q v => simp [startNode, Piece.data, toks]

theorem rule_node {strings : List (Str × Str)} (q : Str) (ks : List Piece) (off i : Nat) :
    (Piece.node q ks).rule strings off i =
      match plainRule strings q ks (off + 1) i with
      | some x => x
      | none =>
        if q = c!"sequence" then
          (some (.sequence ((Piece.parts strings [c!"rule"] (fun _ => false) ks (off + 1) i).1.map (·.2))
            ((Piece.parts strings [c!"rule"] (fun _ => false) ks (off + 1) i).2.1 + 1)),
            (Piece.parts strings [c!"rule"] (fun _ => false) ks (off + 1) i).2.1 + 1,
            (Piece.parts strings [c!"rule"] (fun _ => false) ks (off + 1) i).2.2)
        else if q = c!"select" then
          (some (.select ((Piece.parts strings [c!"rule"] (fun _ => false) ks (off + 1) i).1.map (·.2))
            ((Piece.parts strings [c!"rule"] (fun _ => false) ks (off + 1) i).2.1 + 1)),
            (Piece.parts strings [c!"rule"] (fun _ => false) ks (off + 1) i).2.1 + 1,
            (Piece.parts strings [c!"rule"] (fun _ => false) ks (off + 1) i).2.2)
        else if q = c!"optional" then withPart (Piece.one strings ks (off + 1) i) .optional
        else if q = c!"not" then withPart (Piece.one strings ks (off + 1) i) .not
        else if q = c!"separated_by" then separatedRead strings ks off i
        else if q = c!"lines" then linesRead strings ks off i
        else if q = c!"repeat" then repeatRead strings ks off i
        else (none, i, []) := by
  cases ks with
  | nil => simp only [Piece.rule]; rfl
  | cons k ks => cases k <;> (simp only [Piece.rule]; rfl)

theorem gets_rule {strings : List (Str × Str)} {rr : Str → Convert → CM (Range × Rule)} {n : Nat}
    (hrr : ∀ p, Reader 0 p (rr p)) {k : Piece} (hk : k.size ≤ n)
    (hg : ∀ p, ∀ k' : Piece, k'.size < k.size → ∀ off i, Gets (rr p) k' off i (k'.held strings [p] off i))
    (off i : Nat) :
    Gets (fun c => firstRule ((ruleReaders strings rr n).map fun p => p.2 c)) k off i (k.rule strings off i) := by
  have hR := ruleReaders_reader (n := n) (by omega) strings hrr
  have hd := ruleReaders_nodup strings rr n
  have hskip : (∀ q ks, k = .node q ks → q ∉ (ruleReaders strings rr n).map (·.1)) →
      Gets (fun c => firstRule ((ruleReaders strings rr n).map fun p => p.2 c)) k off i (none, i, []) := by
    intro h
    refine ⟨fun hi rest ig => ?_, Nat.le_refl _⟩
    rw [capped_pos hi]
    refine (first_none hR ?_ _).trans (by simp)
    intro p hp
    refine startNode_piece _ _ _ _ ?_
    intro ks e
    exact h _ ks e (List.mem_map.2 ⟨p, hp, rfl⟩)
  cases k with
  | bool q v => exact hskip (fun _ _ h => by cases h)
  | string q v => exact hskip (fun _ _ h => by cases h)
  | f64 q v => exact hskip (fun _ _ h => by cases h)
  | node q ks =>
    have hs := Piece.size_node q ks
    have hn : (Piece.dataL ks).length < n := by omega
    have hp : PartReader strings rr ks := ⟨fun p c st h => (hrr p).other c st h, fun p k' hk' off i =>
      hg p k' (by have := mem_size hk'; omega) off i⟩
    have plain : ∀ {f}, (q, f) ∈ ruleReaders strings rr n →
        (∃ x, plainRule strings q ks (off + 1) i = some x ∧ Gets f (.node q ks) off i x) →
        Gets (fun c => firstRule ((ruleReaders strings rr n).map fun p => p.2 c)) (.node q ks) off i
          ((Piece.node q ks).rule strings off i) := by
      rintro f hf ⟨x, e, h⟩
      rw [rule_node, e]
      exact gets_first hR hd hf h
    by_cases h₁ : q = c!"whitespace"
    · subst h₁; exact plain (f := readWhitespace) (by simp [ruleReaders]) gets_whitespace
    by_cases h₂ : q = c!"until_any_or_whitespace"
    · subst h₂; exact plain (f := readUntilAnyOrWs strings n) (by simp [ruleReaders]) (gets_untilAnyOrWs hn)
    by_cases h₃ : q = c!"until_any"
    · subst h₃; exact plain (f := readUntilAny strings n) (by simp [ruleReaders]) (gets_untilAny hn)
    by_cases h₄ : q = c!"tag"
    · subst h₄; exact plain (f := readTag strings n) (by simp [ruleReaders]) (gets_tag hn)
    by_cases h₅ : q = c!"text"
    · subst h₅; exact plain (f := readText strings n) (by simp [ruleReaders]) (gets_text hn)
    by_cases h₆ : q = c!"number"
    · subst h₆; exact plain (f := readNumber strings n) (by simp [ruleReaders]) (gets_number hn)
    by_cases h₇ : q = c!"reference"
    · subst h₇; exact plain (f := readReference strings n) (by simp [ruleReaders]) (gets_reference hn)
    have hplain : plainRule strings q ks (off + 1) i = none := by
      simp only [plainRule, h₁, h₂, h₃, h₄, h₅, h₆, h₇, if_false]
    rw [rule_node, hplain]
    simp only
    by_cases h₈ : q = c!"sequence"
    · subst h₈; exact gets_first hR hd (f := readSequence rr n) (by simp [ruleReaders]) (gets_sequence hp hn off i)
    by_cases h₉ : q = c!"select"
    · subst h₉; exact gets_first hR hd (f := readSelect rr n) (by simp [ruleReaders]) (gets_select hp hn off i)
    by_cases h₁₀ : q = c!"optional"
    · subst h₁₀; exact gets_first hR hd (f := readOptional rr) (by simp [ruleReaders]) (gets_optional hp off i)
    by_cases h₁₁ : q = c!"not"
    · subst h₁₁; exact gets_first hR hd (f := readNot rr) (by simp [ruleReaders]) (gets_not hp off i)
    by_cases h₁₂ : q = c!"separated_by"
    · subst h₁₂
      exact gets_first hR hd (f := readSeparatedBy rr n) (by simp [ruleReaders]) (gets_separated hp hn off i)
    by_cases h₁₃ : q = c!"lines"
    · subst h₁₃; exact gets_first hR hd (f := readLines rr) (by simp [ruleReaders]) (gets_lines hp off i)
    by_cases h₁₄ : q = c!"repeat"
    · subst h₁₄; exact gets_first hR hd (f := readRepeat rr n) (by simp [ruleReaders]) (gets_repeat hp hn off i)
    simp only [h₈, h₉, h₁₀, h₁₁, h₁₂, h₁₃, h₁₄, if_false]
    refine hskip ?_
    rintro q' ks' ⟨rfl, rfl⟩
    simp [ruleReaders, h₁, h₂, h₃, h₄, h₅, h₆, h₇, h₈, h₉, h₁₀, h₁₁, h₁₂, h₁₃, h₁₄]

theorem gets_step {strings : List (Str × Str)} {rr : Str → Convert → CM (Range × Rule)} {n : Nat}
    (hrr : ∀ p, Reader 0 p (rr p)) {k : Piece} (hk : k.size ≤ n + 2)
    (hg : ∀ p, ∀ k' : Piece, k'.size < k.size → ∀ off i, Gets (rr p) k' off i (k'.held strings [p] off i))
    (property : Str) (off i : Nat) :
    Gets (readRuleStep strings rr n property) k off i (k.held strings [property] off i) := by
  by_cases h : ∃ ks, k = .node property ks
  case neg =>
    have e' : k.held strings [property] off i = (none, i, []) := by
      cases k with
      | node q ks =>
        have : q ≠ property := fun e => h ⟨ks, by rw [e]⟩
        simp [Piece.held, this]
      | _ => rfl
    rw [e']
    refine ⟨fun hi rest ig => ?_, Nat.le_refl _⟩
    rw [capped_pos hi]
    have e := startNode_piece property k rest off (fun ks e => h ⟨ks, e⟩)
    have e₂ : ofOption (startNode ⟨toks k.data ++ rest, off⟩ property) ⟨i, ig⟩ = .ok (none, ⟨i, ig⟩) := by
      simp [ofOption, e]
    exact (bind_none e₂).trans (by simp)
  obtain ⟨ks, rfl⟩ := h
  have hs := Piece.size_node property ks
  rw [show (Piece.node property ks).held strings [property] off i = Piece.single strings ks (off + 1) i by
    simp [Piece.held]]
  have hR := ruleReaders_reader (n := n) (by omega) strings hrr
  have hG : ∀ k' ∈ ks, ∀ off i, Gets (fun c => firstRule ((ruleReaders strings rr n).map fun p => p.2 c)) k' off i
      (k'.rule strings off i) := by
    intro k' hk'
    have := mem_size hk'
    exact gets_rule hrr (by omega) (fun p k'' h => hg p k'' (by omega))
  refine gets_of (g := fun start c => do
    let (r, rule) ← firstRule ((ruleReaders strings rr n).map fun p => p.2 c)
    let c ← c.upd r
    let r ← ofOption (c.endNode property)
    let c ← c.upd r
    return (← c.sub start, rule)) ?_ ?_
  · intro hi rest start ig hst
    cases ks with
    | nil =>
      simp only [Piece.dataL, toks_nil, List.nil_append]
      refine (bind_none (first_none hR (fun _ _ => rfl) _)).trans ?_
      simp [Piece.single, capped_pos hi]
    | cons k ks =>
      have e := (hG k (by simp) (off + 1) i).eq hi (toks (Piece.dataL ks) ++ ⟨⟨0, 0⟩, .endNode property⟩ :: rest) ig
      rw [Piece.dataL_cons]
      simp only [Piece.dataL, toks_append, List.append_assoc, Piece.single]
      generalize k.rule strings (off + 1) i = x at e ⊢
      obtain ⟨v, i', l⟩ := x
      simp only at e ⊢
      by_cases hi' : i' < 2 ^ 64
      case neg =>
        rw [capped_neg hi'] at e ⊢
        exact bind_panic e
      rw [capped_pos hi'] at e ⊢
      cases v with
      | none =>
        refine (bind_none e).trans ?_
        simp
      | some r =>
        refine (bind_some e).trans ?_
        simp only
        refine (bind_some (upd_eq (c := ⟨_, off + 1⟩) (by simp [toks_length, Piece.size]))).trans ?_
        simp only [← Piece.size_eq, List.drop_left]
        rw [endNode_kids]
        cases ks with
        | cons k' ks =>
          refine (bind_none rfl).trans ?_
          simp
        | nil =>
          refine (bind_some (ofOption_some rfl _)).trans ?_
          refine (bind_some (upd_eq (c := ⟨_, off + 1 + _⟩) (by simp [Piece.dataL, toks]))).trans ?_
          refine (bind_some (sub_eq (by simp; omega))).trans ?_
          simp [Pure.pure, CM.pure, Piece.dataL, hst]
          omega
  · cases ks with
    | nil => exact Nat.le_refl _
    | cons k ks => exact (hG k (by simp) (off + 1) i).le

theorem held_out' {strings : List (Str × Str)} {ps : List Str} {k : Piece} (h : ∀ q ks, k ≠ .node q ks) {off i : Nat} :
    k.held strings ps off i = (none, i, []) := by
  cases k with
  | node q ks => exact absurd rfl (h q ks)
  | _ => rfl

/-- `read_rule` reads the rule that is held. -/
theorem gets_held {strings : List (Str × Str)} : ∀ (N : Nat) (p : Str) (k : Piece), k.size ≤ N + 1 →
    ∀ off i, Gets (readRule strings (N + 1) p) k off i (k.held strings [p] off i)
  | 0, p, k, hk, off, i => by
    have hne : ∀ q ks, k ≠ .node q ks := by
      rintro q ks rfl
      have := Piece.size_node q ks
      omega
    rw [held_out' hne]
    exact ⟨fun hi rest ig => ((reader_rule strings 0 p).other _ _ (startNode_piece p k rest off (hne p))).trans
      (by simp [capped_pos hi]), Nat.le_refl _⟩
  | n + 1, p, k, hk, off, i =>
    gets_step (fun p => (reader_rule strings n p).mono (by omega)) (by omega)
      (fun p k' h => gets_held n p k' (by omega)) p off i

end Verif
