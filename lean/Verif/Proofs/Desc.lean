import Verif.Spec.Desc
import Verif.Proofs.ConvertStep
import Verif.Proofs.ConvertSim
/-
`convert` on the meta data of a description.
-/
namespace Verif
open Spec CM Convert

/-- Tokens without a source. -/
def toks (ds : List MetaData) : List Tok := ds.map fun d => ⟨⟨0, 0⟩, d⟩

theorem toks_append (a b : List MetaData) : toks (a ++ b) = toks a ++ toks b := by simp [toks]
theorem toks_cons (a : MetaData) (b : List MetaData) : toks (a :: b) = ⟨⟨0, 0⟩, a⟩ :: toks b := rfl
theorem toks_nil : toks [] = [] := rfl
theorem toks_length (a : List MetaData) : (toks a).length = a.length := by simp [toks]

/-- A panic if the id is too large. -/
def capped {α : Type} (i : Nat) (x : Comp α) : Comp α := if i < 2 ^ 64 then x else .panic

theorem capped_pos {α : Type} {i : Nat} {x : Comp α} (h : i < 2 ^ 64) : capped i x = x := if_pos h
theorem capped_neg {α : Type} {i : Nat} {x : Comp α} (h : ¬ i < 2 ^ 64) : capped i x = .panic := if_neg h

/-- The reader reads all of `a` as `v`, or fails, and ignores `k` items on the way; or it panics
because the last id `i'` is too large. -/
structure Reads {α : Type} (f : Convert → CM (Range × α)) (a : List MetaData) (v : Option α)
    (i i' k : Nat) : Prop where
  eq : i < 2 ^ 64 → ∀ rest off ig, ∃ l : List Range, l.length = k ∧ f ⟨toks a ++ rest, off⟩ ⟨i, ig⟩ =
    capped i' (.ok (v.map fun v => (⟨off, a.length⟩, v), ⟨i', ig ++ l⟩))

/-- The reader does not start at `a`. -/
structure Skips {α : Type} (f : Convert → CM (Range × α)) (a : List MetaData) : Prop where
  eq : ∀ rest off st, f ⟨toks a ++ rest, off⟩ st = .ok (none, st)

/-- A loop body reads all of `a`, or nothing, and ignores `k` items on the way. -/
structure BReads {σ : Type} (B : Convert → σ → CM (Option (Range × σ))) (a : List MetaData) (s : σ)
    (s' : Option σ) (i i' k : Nat) : Prop where
  eq : i < 2 ^ 64 → ∀ rest off ig, ∃ l : List Range, l.length = k ∧ B ⟨toks a ++ rest, off⟩ s ⟨i, ig⟩ =
    capped i' (.ok (some (s'.map fun s' => (⟨off, a.length⟩, s')), ⟨i', ig ++ l⟩))

/-- A loop moves over `a` and ignores `k` items on the way. -/
structure Moves {σ : Type} (nm : Str) (B : Convert → σ → CM (Option (Range × σ))) (a : List MetaData)
    (s s' : σ) (i i' k : Nat) : Prop where
  eq : i < 2 ^ 64 → ∀ n rest off ig, a.length < n → ∃ m, n ≤ m + a.length ∧ ∃ l : List Range, l.length = k ∧
    loop nm B n ⟨toks a ++ rest, off⟩ s ⟨i, ig⟩ =
      capped i' (loop nm B m ⟨rest, off + a.length⟩ s' ⟨i', ig ++ l⟩)

theorem loop_ignore {σ : Type} {nm : Str} {B : Convert → σ → CM (Option (Range × σ))} {n : Nat}
    {a rest : List Tok} {off : Nat} {s : σ} {st : CSt} {i : Nat} {ig : List Range} (ha : Item a)
    (hB : B ⟨a ++ rest, off⟩ s st = .ok (some none, ⟨i, ig⟩)) :
    loop nm B (n + 1) ⟨a ++ rest, off⟩ s st =
      loop nm B n ⟨rest, off + a.length⟩ s ⟨i, ig ++ [⟨off, a.length⟩]⟩ := by
  simp only [loop, endNode_item ha]
  rw [bind_some hB]
  simp only
  rw [bind_some (a := ⟨off, a.length⟩) (st' := ⟨i, ig⟩) (by simp only [lift, ignore_item ha]),
    bind_some (upd_eq (c := ⟨a ++ rest, off⟩) (by simp)),
    bind_some (a := ()) (st' := ⟨i, ig ++ [⟨off, a.length⟩]⟩) rfl]
  simp only [List.drop_left]

section
variable {α σ : Type} {B : Convert → σ → CM (Option (Range × σ))} {nm : Str} {s s' s'' : σ}
  {a b : List MetaData} {i i' i'' k k' : Nat}

theorem Moves.nil : Moves nm B [] s s i i 0 := ⟨fun hi n rest off ig _ => ⟨n, by simp, [], rfl, by
  rw [List.append_nil, capped_pos hi]; rfl⟩⟩

theorem Moves.append (h : Moves nm B a s s' i i' k) (h' : Moves nm B b s' s'' i' i'' k')
    (hle : i < 2 ^ 64 → i'' < 2 ^ 64 → i' < 2 ^ 64 := by omega) :
    Moves nm B (a ++ b) s s'' i i'' (k + k') := by
  refine ⟨fun hi n rest off ig hn => ?_⟩
  simp only [List.length_append] at hn
  obtain ⟨m, hm, l, hl, e⟩ := h.eq hi n (toks b ++ rest) off ig (by omega)
  by_cases hi' : i' < 2 ^ 64
  · obtain ⟨m', hm', l', hl', e'⟩ := h'.eq hi' m rest (off + a.length) (ig ++ l) (by omega)
    refine ⟨m', by simp; omega, l ++ l', by simp [hl, hl'], ?_⟩
    rw [toks_append, List.append_assoc, e, capped_pos hi', e']
    simp [Nat.add_assoc]
  · refine ⟨n, by omega, List.replicate (k + k') ⟨0, 0⟩, by simp, ?_⟩
    rw [toks_append, List.append_assoc, e, capped_neg hi', capped_neg fun h => hi' (hle hi h)]

theorem Moves.one (ha : Item (toks a)) (h : BReads B a s (some s') i i' k) : Moves nm B a s s' i i' k := by
  refine ⟨fun hi n rest off ig hn => ?_⟩
  have hp : 0 < a.length := by have := ha.pos; rwa [toks_length] at this
  obtain ⟨n, rfl⟩ : ∃ m, n = m + 1 := ⟨n - 1, by omega⟩
  obtain ⟨l, hl, e⟩ := h.eq hi rest off ig
  refine ⟨n, by omega, l, hl, ?_⟩
  by_cases hi' : i' < 2 ^ 64
  · rw [capped_pos hi'] at e ⊢
    have := loop_step (nm := nm) (n := n) (rest := rest) (off := off) ha
      (by rw [toks_length]; exact e)
    rwa [toks_length] at this
  · rw [capped_neg hi'] at e ⊢
    exact loop_panic (endNode_item ha off nm) e

theorem Moves.drop (ha : Item (toks a)) (h : BReads B a s none i i' k) : Moves nm B a s s i i' (k + 1) := by
  refine ⟨fun hi n rest off ig hn => ?_⟩
  have hp : 0 < a.length := by have := ha.pos; rwa [toks_length] at this
  obtain ⟨n, rfl⟩ : ∃ m, n = m + 1 := ⟨n - 1, by omega⟩
  obtain ⟨l, hl, e⟩ := h.eq hi rest off ig
  refine ⟨n, by omega, l ++ [⟨off, a.length⟩], by simp [hl], ?_⟩
  by_cases hi' : i' < 2 ^ 64
  · rw [capped_pos hi'] at e ⊢
    have := loop_ignore (nm := nm) (n := n) (rest := rest) (off := off) ha e
    rw [toks_length] at this
    rw [this]
    simp
  · rw [capped_neg hi'] at e ⊢
    exact loop_panic (endNode_item ha off nm) e

theorem Skips.reads {f : Convert → CM (Range × α)} (h : Skips f a) : Reads f a none i i 0 :=
  ⟨fun hi rest off ig => ⟨[], rfl, by rw [h.eq, capped_pos hi]; simp⟩⟩

theorem breads_some {f : Convert → CM (Range × α)} {put : σ → α → σ} {v : α} (h : Reads f a (some v) i i' k) :
    BReads (fun c s => tryRead (f c) (put s) (B c s)) a s (some (put s v)) i i' k :=
  ⟨fun hi rest off ig => by
    obtain ⟨l, hl, e⟩ := h.eq hi rest off ig
    refine ⟨l, hl, ?_⟩
    by_cases hi' : i' < 2 ^ 64
    · rw [capped_pos hi'] at e ⊢
      exact tryRead_some e
    · rw [capped_neg hi'] at e ⊢
      exact tryRead_panic e⟩

theorem breads_fail {f : Convert → CM (Range × α)} {put : σ → α → σ} {x : Option σ}
    (h : Reads f a none i i' k) (hB : BReads B a s x i' i'' k')
    (hle : i < 2 ^ 64 → i'' < 2 ^ 64 → i' < 2 ^ 64 := by omega) :
    BReads (fun c s => tryRead (f c) (put s) (B c s)) a s x i i'' (k + k') :=
  ⟨fun hi rest off ig => by
    obtain ⟨l, hl, e⟩ := h.eq hi rest off ig
    by_cases hi' : i' < 2 ^ 64
    · rw [capped_pos hi'] at e
      obtain ⟨l', hl', e'⟩ := hB.eq hi' rest off (ig ++ l)
      exact ⟨l ++ l', by simp [hl, hl'], (tryRead_none e).trans (by rw [e']; simp)⟩
    · rw [capped_neg hi'] at e
      refine ⟨List.replicate (k + k') ⟨0, 0⟩, by simp, ?_⟩
      rw [capped_neg fun h => hi' (hle hi h)]
      exact tryRead_panic e⟩

theorem breads_none {f : Convert → CM (Range × α)} {put : σ → α → σ} {x : Option σ} (h : Skips f a)
    (hB : BReads B a s x i i' k) : BReads (fun c s => tryRead (f c) (put s) (B c s)) a s x i i' k := by
  have := breads_fail (put := put) (h.reads (i := i)) hB
  rwa [Nat.zero_add] at this

theorem breads_noRead : BReads (fun _ (_ : σ) => noRead) a s none i i 0 :=
  ⟨fun hi rest off ig => ⟨[], rfl, by simp [noRead, Pure.pure, CM.pure, capped_pos hi]⟩⟩

end

/-! ### Items -/

theorem item_bool (p : Str) (b : Bool) : Item (toks [.bool p b]) := .value (by simp [IsNode])
theorem item_string (p : Str) (b : Str) : Item (toks [.string p b]) := .value (by simp [IsNode])
theorem item_f64 (p : Str) (b : F64) : Item (toks [.f64 p b]) := .value (by simp [IsNode])

theorem item_nodeOf {p : Str} {body : List MetaData} (h : Items (toks body)) :
    Item (toks (nodeOf p body)) := by
  simp only [nodeOf, toks_cons, toks_append, toks_nil]
  exact .node h

theorem items_flag (p : Str) (o : Option Bool) : Items (toks (flag p o)) := by
  cases o with
  | none => exact .nil
  | some b => exact .value (by simp [IsNode]) .nil

theorem item_set (p : Str) (v : SetV) : Item (toks (v.data p)) := by
  cases v <;> exact item_nodeOf (.value (by simp [IsNode]) .nil)

theorem items_prop (v : Option SetV) : Items (toks (propData v)) := by
  cases v with
  | none => exact .nil
  | some v => exact (item_set _ v).items

mutual
theorem item_desc (d : Desc) : Item (toks d.data) := by
  cases d with
  | whitespace o => exact item_nodeOf (.value (by simp [IsNode]) .nil)
  | untilAnyOrWs any o p | untilAny any o p =>
    refine item_nodeOf ?_
    simp only [toks_append]
    exact ((item_set _ any).items.append (items_flag _ _)).append (items_prop _)
  | tag neg t inv p =>
    refine item_nodeOf ?_
    simp only [toks_append]
    exact (((items_flag _ _).append (item_set _ t).items).append (items_flag _ _)).append (items_prop _)
  | text e p | number e p =>
    refine item_nodeOf ?_
    simp only [toks_append]
    exact (items_flag _ _).append (items_prop _)
  | reference name p => exact item_nodeOf (.value (by simp [IsNode]) (items_prop _))
  | sequence args | select args => exact item_nodeOf (items_descL args)
  | optional d | not d => exact item_nodeOf (item_nodeOf (item_desc d).items).items
  | separatedBy o t b d =>
    refine item_nodeOf ?_
    simp only [toks_append]
    exact (((items_flag _ _).append (items_flag _ _)).append (item_nodeOf (item_desc b).items).items).append
      (item_nodeOf (item_desc d).items).items
  | lines i d =>
    refine item_nodeOf ?_
    simp only [toks_append]
    exact (items_flag _ _).append (item_nodeOf (item_desc d).items).items
  | repeat_ o d => exact item_nodeOf (.value (by simp [IsNode]) (item_nodeOf (item_desc d).items).items)
theorem items_descL (ds : List Desc) : Items (toks (Desc.dataL ds)) := by
  cases ds with
  | nil => exact .nil
  | cons d ds =>
    simp only [Desc.dataL, toks_append]
    exact (item_nodeOf (item_desc d).items).items.append (items_descL ds)
end

/-! ### Single readers -/

theorem reads_bool (p : Str) (b : Bool) (i : Nat) :
    Reads (fun c => ofOption (c.metaBool p)) [.bool p b] (some b) i i 0 :=
  ⟨fun hi rest off ig => ⟨[], rfl, by simp [toks, metaBool, ofOption, capped_pos hi]⟩⟩

theorem reads_string (p : Str) (b : Str) (i : Nat) :
    Reads (fun c => ofOption (c.metaString p)) [.string p b] (some b) i i 0 :=
  ⟨fun hi rest off ig => ⟨[], rfl, by simp [toks, metaString, ofOption, capped_pos hi]⟩⟩

theorem reads_f64 (p : Str) (b : F64) (i : Nat) :
    Reads (fun c => ofOption (c.metaF64 p)) [.f64 p b] (some b) i i 0 :=
  ⟨fun hi rest off ig => ⟨[], rfl, by simp [toks, metaF64, ofOption, capped_pos hi]⟩⟩

/-- The head is not the start of a node with this name. -/
def NotStart (p : Str) : List MetaData → Prop
  | .startNode q :: _ => q ≠ p
  | [] => False
  | _ => True

theorem NotStart.eq {p : Str} {a : List MetaData} (h : NotStart p a) (rest : List Tok) (off : Nat) :
    startNode ⟨toks a ++ rest, off⟩ p = none := by
  cases a with
  | nil => exact h.elim
  | cons d a => cases d <;> simp_all [toks, startNode, NotStart]

theorem skips_reader {α : Type} {L : Nat} {nm : Str} {f : Convert → CM (Range × α)} (hf : Reader L nm f)
    {a : List MetaData} (h : NotStart nm a) : Skips f a :=
  ⟨fun rest off st => hf.other _ st (h.eq rest off)⟩

theorem skips_set {strings : List (Str × Str)} {n : Nat} {p : Str} {a : List MetaData}
    (h : NotStart p a) : Skips (readSet strings n p) a := by
  refine ⟨fun rest off st => ?_⟩
  simp only [readSet, h.eq]
  exact bind_none rfl

theorem skips_bool {p : Str} {a : List MetaData} (h : ∀ b ts, a ≠ .bool p b :: ts) (h₀ : a ≠ []) :
    Skips (fun c => ofOption (c.metaBool p)) a := by
  refine ⟨fun rest off st => ofOption_none ?_ st⟩
  cases a with
  | nil => exact absurd rfl h₀
  | cons d a =>
    cases d <;> simp [toks, metaBool]
    rename_i q b
    rintro rfl
    exact h b a rfl

theorem skips_string {p : Str} {a : List MetaData} (h : ∀ b ts, a ≠ .string p b :: ts) (h₀ : a ≠ []) :
    Skips (fun c => ofOption (c.metaString p)) a := by
  refine ⟨fun rest off st => ofOption_none ?_ st⟩
  cases a with
  | nil => exact absurd rfl h₀
  | cons d a =>
    cases d <;> simp [toks, metaString]
    rename_i q b
    rintro rfl
    exact h b a rfl

theorem skips_f64 {p : Str} {a : List MetaData} (h : ∀ b ts, a ≠ .f64 p b :: ts) (h₀ : a ≠ []) :
    Skips (fun c => ofOption (c.metaF64 p)) a := by
  refine ⟨fun rest off st => ofOption_none ?_ st⟩
  cases a with
  | nil => exact absurd rfl h₀
  | cons d a =>
    cases d <;> simp [toks, metaF64]
    rename_i q b
    rintro rfl
    exact h b a rfl

theorem findString_lookup (s : Str) (strings : List (Str × Str)) :
    findString s strings = strings.lookup s := by
  induction strings with
  | nil => rfl
  | cons x xs ih =>
    obtain ⟨a, b⟩ := x
    by_cases h : a = s
    · subst h; simp [findString]
    · have h' : (s == a) = false := by simp; exact fun e => h e.symm
      have : findString s ((a, b) :: xs) = findString s xs := by simp [findString, h]
      rw [this, ih, List.lookup_cons, h']

section
variable {p : Str} {strings : List (Str × Str)} {n off : Nat} {r : Range} {rest : List Tok} {t : Option Str}
  {st : CSt}

theorem setLoop_done : setLoop p strings (n + 1) ⟨⟨r, .endNode p⟩ :: rest, off⟩ t st =
    .ok (some (⟨rest, off + 1⟩, t), st) := by
  simp only [setLoop, endNode, if_true]
  rw [bind_some (upd_eq (c := ⟨_, off⟩) (by simp))]
  rfl

theorem setLoop_value {s : Str} :
    setLoop p strings (n + 1) ⟨⟨r, .string c!"value" s⟩ :: rest, off⟩ t st =
    setLoop p strings n ⟨rest, off + 1⟩ (some s) st := by
  have h : ¬ c!"value" = c!"ref" := by decide
  simp only [setLoop, endNode, metaString, h, if_false, if_true]
  rw [bind_some (upd_eq (c := ⟨_, off⟩) (by simp))]
  rfl

theorem setLoop_ref {s : Str} :
    setLoop p strings (n + 1) ⟨⟨r, .string c!"ref" s⟩ :: rest, off⟩ t st =
    setLoop p strings n ⟨rest, off + 1⟩ (strings.lookup s) st := by
  simp only [setLoop, endNode, metaString, if_true]
  rw [bind_some (upd_eq (c := ⟨_, off⟩) (by simp)), findString_lookup]
  rfl

end

/-- `read_set` on a text or a name, whether it is defined or not. -/
theorem readSet_eq {strings : List (Str × Str)} {n : Nat} {p : Str} {v : SetV} (hn : 2 ≤ n)
    (rest : List Tok) (off : Nat) (st : CSt) :
    readSet strings n p ⟨toks (v.data p) ++ rest, off⟩ st =
      .ok ((v.get strings).map fun s => (⟨off, 3⟩, s), st) := by
  obtain ⟨n, rfl⟩ : ∃ m, n = m + 2 := ⟨n - 2, by omega⟩
  have hs : ∀ ts, startNode ⟨⟨⟨0, 0⟩, .startNode p⟩ :: ts, off⟩ p = some ⟨off, 1⟩ := by simp [startNode]
  have hl : ∀ x, setLoop p strings (n + 2) ⟨toks x ++ rest, off + 1⟩ none st =
      .ok (some (⟨rest, off + 3⟩, v.get strings), st) →
      readSet strings (n + 2) p ⟨toks (.startNode p :: x) ++ rest, off⟩ st =
      .ok ((v.get strings).map fun s => (⟨off, 3⟩, s), st) := by
    intro x hx
    simp only [readSet, toks_cons, List.cons_append]
    rw [bind_some (ofOption_some (hs _) _), bind_some (upd_eq (c := ⟨_, off⟩) (by simp))]
    simp only [List.drop_succ_cons, List.drop_zero]
    rw [bind_some hx]
    simp only
    cases v.get strings with
    | none => exact bind_none rfl
    | some s =>
      rw [bind_some (ofOption_some rfl _), bind_some (sub_eq (by simp))]
      simp [Pure.pure, CM.pure]
  cases v with
  | value t => exact hl [.string c!"value" t, .endNode p] (setLoop_value.trans setLoop_done)
  | ref t => exact hl [.string c!"ref" t, .endNode p] (setLoop_ref.trans setLoop_done)

theorem set_length (v : SetV) (p : Str) : (v.data p).length = 3 := by cases v <;> rfl

theorem reads_set {strings : List (Str × Str)} {n : Nat} {p : Str} {v : SetV} {i : Nat}
    (hn : 2 ≤ n) : Reads (readSet strings n p) (v.data p) (v.get strings) i i 0 :=
  ⟨fun hi rest off ig => ⟨[], rfl, by rw [readSet_eq hn, set_length, List.append_nil, capped_pos hi]⟩⟩

/-! ### Readers with a loop -/

theorem finish_eq {start c : Convert} {i : Nat} {ig : List Range} {f : Nat → Rule}
    (h : start.off ≤ c.off) :
    (do let id ← nextId; return (← c.sub start, f id) : CM (Range × Rule)) ⟨i, ig⟩ =
      capped (i + 1) (.ok (some (⟨start.off, c.off - start.off⟩, f (i + 1)), ⟨i + 1, ig⟩)) := by
  by_cases hb : i + 1 < 2 ^ 64
  · rw [bind_some (a := i + 1) (st' := ⟨i + 1, ig⟩) (by simp [nextId, hb]), bind_some (sub_eq h), capped_pos hb]
    rfl
  · rw [bind_panic (by simp only [nextId]; rw [if_neg hb]), capped_neg hb]

theorem reads_loop {σ α : Type} {nm : Str} {n : Nat} {B : Convert → σ → CM (Option (Range × σ))}
    {s₀ s : σ} {k : Convert → Convert × σ → CM (Range × α)} {body : List MetaData} {v : Option α}
    {i i' i'' m : Nat} (hm : Moves nm B body s₀ s i i' m) (hn : body.length < n)
    (hk : i' < 2 ^ 64 → ∀ start c ig, start.off ≤ c.off →
      k start (c, s) ⟨i', ig⟩ = capped i'' (.ok (v.map fun v => (⟨start.off, c.off - start.off⟩, v), ⟨i'', ig⟩)))
    (hle : i < 2 ^ 64 → i'' < 2 ^ 64 → i' < 2 ^ 64 := by omega) :
    Reads (fun c => do
      let r ← ofOption (c.startNode nm)
      let c' ← c.upd r
      let x ← Convert.loop nm B n c' s₀
      k c x) (nodeOf nm body) v i i'' m := by
  refine ⟨fun hi rest off ig => ?_⟩
  have hs : ∀ ts, startNode ⟨⟨⟨0, 0⟩, .startNode nm⟩ :: ts, off⟩ nm = some ⟨off, 1⟩ := by simp [startNode]
  simp only [nodeOf, toks_cons, toks_append, toks_nil, List.cons_append, List.append_assoc,
    List.nil_append]
  rw [bind_some (ofOption_some (hs _) _), bind_some (upd_eq (c := ⟨_, off⟩) (by simp))]
  simp only [List.drop_succ_cons, List.drop_zero]
  obtain ⟨m, hm', l, hl, e⟩ := hm.eq hi n (⟨⟨0, 0⟩, .endNode nm⟩ :: rest) (off + 1) ig hn
  obtain ⟨m, rfl⟩ : ∃ l, m = l + 1 := ⟨m - 1, by omega⟩
  refine ⟨l, hl, ?_⟩
  by_cases hi' : i' < 2 ^ 64
  case neg =>
    rw [capped_neg hi'] at e
    rw [bind_panic e, capped_neg fun h => hi' (hle hi h)]
  rw [capped_pos hi'] at e
  rw [bind_some (e.trans loop_done), hk hi' _ _ _ (by simp; omega)]
  simp only [List.length_cons, List.length_append, List.length_nil]
  rw [show off + 1 + body.length + 1 - off = body.length + (0 + 1) + 1 by omega]

theorem nodeOf_length (p : Str) (body : List MetaData) : (nodeOf p body).length = body.length + 2 := by
  simp [nodeOf]

section
variable {σ : Type} {B : Convert → σ → CM (Option (Range × σ))} {nm : Str} {i : Nat}

theorem moves_flag {p : Str} {o : Option Bool} {s : Option Bool → σ}
    (h : ∀ b, BReads B [.bool p b] (s none) (some (s (some b))) i i 0) :
    Moves nm B (flag p o) (s none) (s o) i i 0 := by
  cases o with
  | none => exact .nil
  | some b => exact .one (item_bool p b) (h b)

theorem moves_set {strings : List (Str × Str)} {p : Str} {v : SetV} {s : Option Str → σ}
    (h : BReads B (v.data p) (s none) ((v.get strings).map fun t => s (some t)) i i 0) :
    Moves nm B (v.data p) (s none) (s (v.get strings)) i i (v.missing strings) := by
  cases hv : v.get strings with
  | none =>
    rw [hv] at h
    rw [SetV.missing, hv]
    exact .drop (item_set _ v) h
  | some t =>
    rw [hv] at h
    rw [SetV.missing, hv]
    exact .one (item_set _ v) h

theorem breads_set {strings : List (Str × Str)} {n : Nat} {p : Str} {v : SetV} {put : σ → Str → σ} {s : σ}
    (hn : 2 ≤ n) (h : BReads B (v.data p) s none i i 0) :
    BReads (fun c s => tryRead (readSet strings n p c) (put s) (B c s)) (v.data p) s
      ((v.get strings).map fun t => put s t) i i 0 := by
  have hr := reads_set (strings := strings) (v := v) (p := p) (i := i) hn
  cases hv : v.get strings with
  | none => rw [hv] at hr; exact breads_fail hr h
  | some t => rw [hv] at hr; exact breads_some hr

theorem moves_prop {strings : List (Str × Str)} {p : Option SetV} {s : Option Str → σ}
    (h : ∀ v : SetV, BReads B (v.data c!"property") (s none) ((v.get strings).map fun t => s (some t)) i i 0) :
    Moves nm B (propData p) (s none) (s (p.bind (·.get strings))) i i (propMissing strings p) := by
  cases p with
  | none => exact .nil
  | some v => exact moves_set (h v)

theorem notStart_set {p q : Str} (v : SetV) (h : q ≠ p) : NotStart p (v.data q) := by
  cases v <;> exact h

theorem set_ne_bool {p q : Str} (v : SetV) : ∀ b ts, v.data q ≠ .bool p b :: ts := by
  cases v <;> simp [SetV.data, nodeOf]

theorem set_ne_string {p q : Str} (v : SetV) : ∀ b ts, v.data q ≠ .string p b :: ts := by
  cases v <;> simp [SetV.data, nodeOf]

theorem set_ne_nil {q : Str} (v : SetV) : v.data q ≠ [] := by
  cases v <;> simp [SetV.data, nodeOf]

end

section
variable {strings : List (Str × Str)} {n : Nat} {i : Nat} (hn : 2 ≤ n)
include hn

theorem reads_tag {neg inv : Option Bool} {v : SetV} {p : Option SetV}
    (hl : (Desc.tag neg v inv p).data.length ≤ n) :
    Reads (readTag strings n) (Desc.tag neg v inv p).data
      ((Desc.tag neg v inv p).read strings i).1 i ((Desc.tag neg v inv p).read strings i).2.1
      ((Desc.tag neg v inv p).read strings i).2.2 := by
  rw [Desc.data, nodeOf_length] at hl
  have h₁ : Moves c!"tag" (tagBody strings n) (flag c!"not" neg) (none, none, none, none)
      (none, none, neg, none) i i 0 :=
    moves_flag (s := fun o => (none, none, o, none)) fun b =>
      breads_none (skips_set trivial) (breads_none (skips_set trivial) (breads_some (reads_bool _ b _)))
  have h₂ : Moves c!"tag" (tagBody strings n) (v.data c!"text") (none, none, neg, none)
      (v.get strings, none, neg, none) i i (v.missing strings) :=
    moves_set (s := fun t => (t, none, neg, none)) (breads_set hn (breads_none (skips_set (notStart_set v (by decide)))
      (breads_none (skips_bool (set_ne_bool v) (set_ne_nil v))
        (breads_none (skips_bool (set_ne_bool v) (set_ne_nil v)) breads_noRead))))
  generalize hg : v.get strings = t at h₂
  have h₃ : Moves c!"tag" (tagBody strings n) (flag c!"inverted" inv) (t, none, neg, none)
      (t, none, neg, inv) i i 0 :=
    moves_flag (s := fun o => (t, none, neg, o)) fun b =>
      breads_none (skips_set trivial) (breads_none (skips_set trivial)
        (breads_none (skips_bool (by simp) (by simp)) (breads_some (reads_bool _ b _))))
  have h₄ : Moves c!"tag" (tagBody strings n) (propData p) (t, none, neg, inv)
      (t, p.bind (·.get strings), neg, inv) i i (propMissing strings p) :=
    moves_prop (s := fun o => (t, o, neg, inv)) fun v =>
      breads_none (skips_set (notStart_set v (by decide))) (breads_set hn
      (breads_none (skips_bool (set_ne_bool v) (set_ne_nil v))
        (breads_none (skips_bool (set_ne_bool v) (set_ne_nil v)) breads_noRead)))
  have h := ((h₁.append h₂).append h₃).append h₄
  simp only [Nat.zero_add, Nat.add_zero] at h
  simp only [Desc.read, hg]
  cases t with
  | none => exact reads_loop h (by omega) fun hi start c ig _ => (bind_none rfl).trans (capped_pos hi).symm
  | some t =>
    exact reads_loop h (by omega) fun _ start c ig h =>
      (bind_some (ofOption_some rfl _)).trans (finish_eq h)

theorem moves_until {nm : Str} {any : SetV} {o : Option Bool} {p : Option SetV} :
    Moves nm (untilBody strings n) (any.data c!"any_characters" ++ flag c!"optional" o ++ propData p)
      (none, none, none) (any.get strings, o, p.bind (·.get strings)) i i
      (any.missing strings + propMissing strings p) := by
  have h₁ : Moves nm (untilBody strings n) (any.data c!"any_characters") (none, none, none)
      (any.get strings, none, none) i i (any.missing strings) :=
    moves_set (s := fun t => (t, none, none)) (breads_set hn (breads_none (skips_bool (set_ne_bool any) (set_ne_nil any))
      (breads_none (skips_set (notStart_set any (by decide))) breads_noRead)))
  generalize any.get strings = t at h₁ ⊢
  have h₂ : Moves nm (untilBody strings n) (flag c!"optional" o) (t, none, none)
      (t, o, none) i i 0 :=
    moves_flag (s := fun o => (t, o, none)) fun b =>
      breads_none (skips_set trivial) (breads_some (reads_bool _ b _))
  have h₃ : Moves nm (untilBody strings n) (propData p) (t, o, none) (t, o, p.bind (·.get strings)) i i
      (propMissing strings p) :=
    moves_prop (s := fun q => (t, o, q)) fun v =>
      breads_none (skips_set (notStart_set v (by decide)))
        (breads_none (skips_bool (set_ne_bool v) (set_ne_nil v)) (breads_set hn breads_noRead))
  exact (h₁.append h₂).append h₃

theorem reads_untilAnyOrWs {any : SetV} {o : Option Bool} {p : Option SetV}
    (hl : (Desc.untilAnyOrWs any o p).data.length ≤ n) :
    Reads (readUntilAnyOrWs strings n) (Desc.untilAnyOrWs any o p).data
      ((Desc.untilAnyOrWs any o p).read strings i).1 i ((Desc.untilAnyOrWs any o p).read strings i).2.1
      ((Desc.untilAnyOrWs any o p).read strings i).2.2 := by
  rw [Desc.data, nodeOf_length] at hl
  have h := moves_until (strings := strings) (i := i) hn (nm := c!"until_any_or_whitespace") (any := any)
    (o := o) (p := p)
  simp only [Desc.read]
  cases hg : any.get strings with
  | none => rw [hg] at h; exact reads_loop h (by omega) fun hi start c ig _ => (bind_none rfl).trans (capped_pos hi).symm
  | some t =>
    rw [hg] at h
    exact reads_loop h (by omega) fun _ start c ig h =>
      (bind_some (ofOption_some rfl _)).trans (finish_eq h)

theorem reads_untilAny {any : SetV} {o : Option Bool} {p : Option SetV}
    (hl : (Desc.untilAny any o p).data.length ≤ n) :
    Reads (readUntilAny strings n) (Desc.untilAny any o p).data
      ((Desc.untilAny any o p).read strings i).1 i ((Desc.untilAny any o p).read strings i).2.1
      ((Desc.untilAny any o p).read strings i).2.2 := by
  rw [Desc.data, nodeOf_length] at hl
  have h := moves_until (strings := strings) (i := i) hn (nm := c!"until_any") (any := any)
    (o := o) (p := p)
  simp only [Desc.read]
  cases hg : any.get strings with
  | none => rw [hg] at h; exact reads_loop h (by omega) fun hi start c ig _ => (bind_none rfl).trans (capped_pos hi).symm
  | some t =>
    rw [hg] at h
    exact reads_loop h (by omega) fun _ start c ig h =>
      (bind_some (ofOption_some rfl _)).trans (finish_eq h)

theorem reads_text {e : Option Bool} {p : Option SetV} (hl : (Desc.text e p).data.length ≤ n) :
    Reads (readText strings n) (Desc.text e p).data
      (some (.text (e.getD true) (p.bind (·.get strings)) (i + 1))) i (i + 1) (propMissing strings p) := by
  rw [Desc.data, nodeOf_length] at hl
  have h₁ : Moves c!"text" (textBody strings n) (flag c!"allow_empty" e) (none, none) (e, none) i i 0 :=
    moves_flag (s := fun o => (o, none)) fun b => breads_some (reads_bool _ b _)
  have h₂ : Moves c!"text" (textBody strings n) (propData p) (e, none) (e, p.bind (·.get strings)) i i
      (propMissing strings p) :=
    moves_prop (s := fun q => (e, q)) fun v =>
      breads_none (skips_bool (set_ne_bool v) (set_ne_nil v)) (breads_set hn breads_noRead)
  have h := h₁.append h₂
  rw [Nat.zero_add] at h
  exact reads_loop h (by omega) fun _ start c ig h => finish_eq h

theorem reads_number {u : Option Bool} {p : Option SetV} (hl : (Desc.number u p).data.length ≤ n) :
    Reads (readNumber strings n) (Desc.number u p).data
      (some (.number (p.bind (·.get strings)) (u.getD false) (i + 1))) i (i + 1) (propMissing strings p) := by
  rw [Desc.data, nodeOf_length] at hl
  have h₁ : Moves c!"number" (numberBody strings n) (flag c!"underscore" u) (none, none) (none, u) i i 0 :=
    moves_flag (s := fun o => (none, o)) fun b =>
      breads_none (skips_set trivial) (breads_some (reads_bool _ b _))
  have h₂ : Moves c!"number" (numberBody strings n) (propData p) (none, u) (p.bind (·.get strings), u) i i
      (propMissing strings p) :=
    moves_prop (s := fun q => (q, u)) fun v =>
      breads_set hn (breads_none (skips_bool (set_ne_bool v) (set_ne_nil v)) breads_noRead)
  have h := h₁.append h₂
  rw [Nat.zero_add] at h
  exact reads_loop h (by omega) fun _ start c ig h => finish_eq h

theorem reads_reference {name : Str} {p : Option SetV} (hl : (Desc.reference name p).data.length ≤ n) :
    Reads (readReference strings n) (Desc.reference name p).data
      (some (.node name (p.bind (·.get strings)) none (i + 1))) i (i + 1) (propMissing strings p) := by
  rw [Desc.data, nodeOf_length] at hl
  have h₁ : Moves c!"reference" (referenceBody strings n) [.string c!"name" name] (none, none)
      (some name, none) i i 0 := .one (item_string _ _) (breads_some (reads_string _ _ _))
  have h₂ : Moves c!"reference" (referenceBody strings n) (propData p) (some name, none)
      (some name, p.bind (·.get strings)) i i (propMissing strings p) :=
    moves_prop (s := fun q => (some name, q)) fun v =>
      breads_none (skips_string (set_ne_string v) (set_ne_nil v)) (breads_set hn breads_noRead)
  have h := h₁.append h₂
  rw [Nat.zero_add] at h
  exact reads_loop h (by omega) fun _ start c ig h =>
    (bind_some (ofOption_some rfl _)).trans (finish_eq h)

omit hn in
theorem reads_whitespace {o : Bool} :
    Reads readWhitespace (Desc.whitespace o).data (some (.whitespace o (i + 1))) i (i + 1) 0 := by
  refine ⟨fun _ rest off ig => ⟨[], rfl, ?_⟩⟩
  simp only [Desc.data, nodeOf, toks, List.map_cons, List.map_nil, List.cons_append,
    List.nil_append, readWhitespace]
  rw [bind_some (ofOption_some (a := ⟨off, 1⟩) (by simp [startNode]) _),
    bind_some (upd_eq (c := ⟨_, off⟩) (by simp))]
  simp only [List.drop_succ_cons, List.drop_zero]
  rw [bind_some (ofOption_some (a := (⟨off + 1, 1⟩, o)) (by simp [metaBool]) _)]
  simp only
  rw [bind_some (upd_eq (c := ⟨_, off + 1⟩) (by simp))]
  simp only [List.drop_succ_cons, List.drop_zero]
  rw [bind_some (ofOption_some (a := ⟨off + 1 + 1, 1⟩) (by simp [endNode]) _),
    bind_some (upd_eq (c := ⟨_, off + 1 + 1⟩) (by simp)), finish_eq (by simp; omega)]
  simp [show off + 1 + 1 + 1 - off = 3 by omega]

end

section
variable {rr : Str → Convert → CM (Range × Rule)} {i i' i'' m m' : Nat} {r b : Option Rule} {d e : List MetaData}

theorem around_le' (r : Option Rule) (i m : Nat) (f : Rule → Nat → Rule) : i ≤ (around (r, i, m) f).2.1 := by
  cases r <;> simp [around]

theorem reads_one {nm : Str} {f : Rule → Nat → Rule} {rest : List Tok} {off : Nat} {start : Convert}
    {ig : List Range}
    (h : Reads (rr c!"rule") (nodeOf c!"rule" d) r i i' m) (hi : i < 2 ^ 64) (hs : start.off ≤ off) :
    ∃ l : List Range, l.length = (around (r, i', m) f).2.2 ∧ (do
      let (r, rule) ← rr c!"rule" ⟨toks (nodeOf c!"rule" d) ++ ⟨⟨0, 0⟩, .endNode nm⟩ :: rest, off⟩
      let c ← upd ⟨toks (nodeOf c!"rule" d) ++ ⟨⟨0, 0⟩, .endNode nm⟩ :: rest, off⟩ r
      let r ← ofOption (c.endNode nm)
      let c ← c.upd r
      let id ← nextId
      return (← c.sub start, f rule id) : CM (Range × Rule)) ⟨i, ig⟩ =
      capped (around (r, i', m) f).2.1
        (.ok ((around (r, i', m) f).1.map fun x => (⟨start.off, off + (d.length + 2) + 1 - start.off⟩, x),
          ⟨(around (r, i', m) f).2.1, ig ++ l⟩)) := by
  obtain ⟨l, hl', h⟩ := h.eq hi (⟨⟨0, 0⟩, .endNode nm⟩ :: rest) off ig
  by_cases hi' : i' < 2 ^ 64
  case neg =>
    rw [capped_neg hi'] at h
    refine ⟨List.replicate _ ⟨0, 0⟩, List.length_replicate, ?_⟩
    rw [capped_neg fun h => hi' (Nat.lt_of_le_of_lt (around_le' ..) h)]
    exact bind_panic h
  rw [capped_pos hi'] at h
  cases r with
  | none => exact ⟨l, hl', (bind_none h).trans (capped_pos hi').symm⟩
  | some r =>
    refine ⟨l, hl', ?_⟩
    rw [bind_some h]
    simp only
    have hl := toks_length (nodeOf c!"rule" d)
    rw [bind_some (upd_eq (c := ⟨_, off⟩) (by simp [hl])), ← hl]
    simp only [List.drop_left]
    rw [bind_some (ofOption_some (a := ⟨off + (toks (nodeOf c!"rule" d)).length, 1⟩) (by simp [endNode]) _),
      bind_some (upd_eq (c := ⟨_, off + _⟩) (by simp)), finish_eq (by simp; omega), hl, nodeOf_length]
    rfl

theorem reads_of {nm : Str} {g : Convert → Convert → CM (Range × Rule)} {v : Option Rule} {body : List MetaData}
    (h : i < 2 ^ 64 → ∀ rest off start ig, start.off + 1 = off → ∃ l : List Range, l.length = m ∧
      g start ⟨toks body ++ ⟨⟨0, 0⟩, .endNode nm⟩ :: rest, off⟩
      ⟨i, ig⟩ = capped i' (.ok (v.map fun v => (⟨start.off, body.length + 2⟩, v), ⟨i', ig ++ l⟩))) :
    Reads (fun c => do
      let r ← ofOption (c.startNode nm)
      let c' ← c.upd r
      g c c') (nodeOf nm body) v i i' m := by
  refine ⟨fun hi rest off ig => ?_⟩
  have hs : ∀ ts, startNode ⟨⟨⟨0, 0⟩, .startNode nm⟩ :: ts, off⟩ nm = some ⟨off, 1⟩ := by simp [startNode]
  simp only [nodeOf, toks_cons, toks_append, toks_nil, List.cons_append, List.append_assoc,
    List.nil_append]
  rw [bind_some (ofOption_some (hs _) _), bind_some (upd_eq (c := ⟨_, off⟩) (by simp))]
  simp only [List.drop_succ_cons, List.drop_zero]
  obtain ⟨l, hl, e⟩ := h hi rest (off + 1) ⟨_, off⟩ ig rfl
  refine ⟨l, hl, e.trans ?_⟩
  simp

theorem reads_optional (h : Reads (rr c!"rule") (nodeOf c!"rule" d) r i i' m) :
    Reads (readOptional rr) (nodeOf c!"optional" (nodeOf c!"rule" d)) (around (r, i', m) .optional).1
      i (around (r, i', m) .optional).2.1 (around (r, i', m) .optional).2.2 := by
  refine reads_of fun hi rest off start ig hs => ?_
  obtain ⟨l, hl, e⟩ := reads_one (nm := c!"optional") (rest := rest) (off := off) (start := start) (ig := ig)
    (f := .optional) h hi (by omega)
  refine ⟨l, hl, e.trans ?_⟩
  rw [nodeOf_length, show off + (d.length + 2) + 1 - start.off = d.length + 2 + 2 by omega]

theorem reads_not (h : Reads (rr c!"rule") (nodeOf c!"rule" d) r i i' m) :
    Reads (readNot rr) (nodeOf c!"not" (nodeOf c!"rule" d)) (around (r, i', m) .not).1
      i (around (r, i', m) .not).2.1 (around (r, i', m) .not).2.2 := by
  refine reads_of fun hi rest off start ig hs => ?_
  obtain ⟨l, hl, e⟩ := reads_one (nm := c!"not") (rest := rest) (off := off) (start := start) (ig := ig)
    (f := .not) h hi (by omega)
  refine ⟨l, hl, e.trans ?_⟩
  rw [nodeOf_length, show off + (d.length + 2) + 1 - start.off = d.length + 2 + 2 by omega]

theorem reads_lines {ind : Option Bool} {f : Rule → Nat → Rule}
    (hf : f = fun rule id => .lines rule (ind.getD false) id)
    (h : Reads (rr c!"rule") (nodeOf c!"rule" d) r i i' m) :
    Reads (readLines rr) (nodeOf c!"lines" (flag c!"indent" ind ++ nodeOf c!"rule" d))
      (around (r, i', m) f).1 i (around (r, i', m) f).2.1 (around (r, i', m) f).2.2 := by
  refine reads_of fun hi rest off start ig hs => ?_
  cases ind with
  | none =>
    obtain ⟨l, hl, e⟩ := reads_one (nm := c!"lines") (rest := rest) (off := off) (start := start) (ig := ig)
      (f := f) h hi (by omega)
    refine ⟨l, hl, ?_⟩
    refine (bind_some (a := (⟨toks (nodeOf c!"rule" d) ++ ⟨⟨0, 0⟩, .endNode c!"lines"⟩ :: rest, off⟩, false))
      (st' := ⟨i, ig⟩) rfl).trans ?_
    subst hf
    refine e.trans ?_
    simp only [flag, List.nil_append]
    rw [nodeOf_length, show off + (d.length + 2) + 1 - start.off = d.length + 2 + 2 by omega]
  | some v =>
    obtain ⟨l, hl, e⟩ := reads_one (nm := c!"lines") (rest := rest) (off := off + 1) (start := start) (ig := ig)
      (f := f) h hi (by omega)
    refine ⟨l, hl, ?_⟩
    refine (bind_some (a := (⟨toks (nodeOf c!"rule" d) ++ ⟨⟨0, 0⟩, .endNode c!"lines"⟩ :: rest, off + 1⟩, v))
      (st' := ⟨i, ig⟩) ?_).trans ?_
    · simp only [readIndent, flag, toks, List.map_cons, List.cons_append,
        List.nil_append, metaBool, if_true]
      rw [bind_some (upd_eq (c := ⟨_, off⟩) (by simp))]
      rfl
    subst hf
    refine e.trans ?_
    simp only [flag, List.cons_append, List.nil_append, List.length_cons]
    rw [nodeOf_length, show off + 1 + (d.length + 2) + 1 - start.off = d.length + 2 + 1 + 2 by omega]

/-- A part of a loop that may be missing. -/
theorem moves_part {σ : Type} {B : Convert → σ → CM (Option (Range × σ))} {nm p : Str} {s : Option Rule → σ}
    (hd : Items (toks d)) (h : BReads B (nodeOf p d) (s none) (r.map fun r => s (some r)) i i' m) :
    Moves nm B (nodeOf p d) (s none) (s r) i i' (drop1 (r, i', m)) := by
  cases r with
  | none => exact .drop (item_nodeOf hd) h
  | some r => exact .one (item_nodeOf hd) h

theorem breads_part {σ : Type} {B : Convert → σ → CM (Option (Range × σ))} {f : Convert → CM (Range × Rule)}
    {put : σ → Rule → σ} {s : σ} {a : List MetaData} (h : Reads f a r i i' m) (hB : BReads B a s none i' i' 0) :
    BReads (fun c s => tryRead (f c) (put s) (B c s)) a s (r.map fun r => put s r) i i' m := by
  cases r with
  | none => exact breads_fail h hB
  | some r => exact breads_some h

theorem reads_repeat {n : Nat} {o : Bool} {f : Rule → Nat → Rule} (hf : f = fun rule id => .repeat_ rule o id)
    (hd : Items (toks d)) (hrr : ∀ a, NotStart c!"rule" a → Skips (rr c!"rule") a)
    (h : Reads (rr c!"rule") (nodeOf c!"rule" d) r i i' m) (hn : d.length + 3 < n) :
    Reads (readRepeat rr n) (nodeOf c!"repeat" (.bool c!"optional" o :: nodeOf c!"rule" d))
      (around (r, i', drop1 (r, i', m)) f).1 i (around (r, i', drop1 (r, i', m)) f).2.1
      (around (r, i', drop1 (r, i', m)) f).2.2 := by
  have h₁ : Moves c!"repeat" (repeatBody rr) [.bool c!"optional" o] (none, none) (none, some o) i i 0 :=
    .one (item_bool _ _) (breads_none (hrr _ trivial) (breads_some (reads_bool _ _ _)))
  have h₂ : Moves c!"repeat" (repeatBody rr) (nodeOf c!"rule" d) (none, some o) (r, some o) i i'
      (drop1 (r, i', m)) :=
    moves_part (s := fun r => (r, some o)) hd (breads_part h
      (breads_none (skips_bool (by simp [nodeOf]) (by simp [nodeOf])) breads_noRead))
  have h := h₁.append h₂
  rw [Nat.zero_add] at h
  subst hf
  have hle := around_le' r i' (drop1 (r, i', m)) fun rule id => .repeat_ rule o id
  cases r with
  | none => exact reads_loop h (by simp [nodeOf_length]; omega) fun hi start c ig _ => (bind_none rfl).trans (capped_pos hi).symm
  | some r =>
    exact reads_loop h (by simp [nodeOf_length]; omega) fun _ start c ig h =>
      (bind_some (ofOption_some rfl _)).trans ((bind_some (ofOption_some rfl _)).trans (finish_eq h))

/-- The result of `separated_by`. -/
def sepRead (r b : Option Rule) (i m : Nat) (o t : Bool) : Option Rule × Nat × Nat :=
  match b with
  | none => (none, i, m)
  | some b => around (r, i, m) fun r id => .separateBy r b o t id

theorem reads_separatedBy {n : Nat} {o t : Option Bool} (hd : Items (toks d)) (he : Items (toks e))
    (hrr : ∀ a p, NotStart p a → Skips (rr p) a)
    (hb : Reads (rr c!"by") (nodeOf c!"by" e) b i i' m)
    (h : Reads (rr c!"rule") (nodeOf c!"rule" d) r i' i'' m') (hle : i' ≤ i'')
    (hn : (flag c!"optional" o).length + (flag c!"allow_trail" t).length + e.length + d.length + 4 < n)
    {x : Option Rule × Nat × Nat}
    (hx : x = sepRead r b i'' (drop1 (b, i', m) + drop1 (r, i'', m')) (o.getD true) (t.getD true)) :
    Reads (readSeparatedBy rr n) (nodeOf c!"separated_by"
      (flag c!"optional" o ++ flag c!"allow_trail" t ++ nodeOf c!"by" e ++ nodeOf c!"rule" d))
      x.1 i x.2.1 x.2.2 := by
  have h₁ : Moves c!"separated_by" (separatedBody rr) (flag c!"optional" o) (none, none, none, none)
      (o, none, none, none) i i 0 :=
    moves_flag (s := fun o => (o, none, none, none)) fun b => breads_some (reads_bool _ b _)
  have h₂ : Moves c!"separated_by" (separatedBody rr) (flag c!"allow_trail" t) (o, none, none, none)
      (o, t, none, none) i i 0 :=
    moves_flag (s := fun t => (o, t, none, none)) fun b =>
      breads_none (skips_bool (by simp) (by simp)) (breads_some (reads_bool _ b _))
  have h₃ : Moves c!"separated_by" (separatedBody rr) (nodeOf c!"by" e) (o, t, none, none)
      (o, t, b, none) i i' (drop1 (b, i', m)) :=
    moves_part (s := fun b => (o, t, b, none)) he (breads_none (skips_bool (by simp [nodeOf]) (by simp [nodeOf]))
      (breads_none (skips_bool (by simp [nodeOf]) (by simp [nodeOf])) (breads_part hb
        (breads_none (hrr _ _ (by simp [nodeOf, NotStart])) breads_noRead))))
  have h₄ : Moves c!"separated_by" (separatedBody rr) (nodeOf c!"rule" d) (o, t, b, none)
      (o, t, b, r) i' i'' (drop1 (r, i'', m')) :=
    moves_part (s := fun r => (o, t, b, r)) hd (breads_none (skips_bool (by simp [nodeOf]) (by simp [nodeOf]))
      (breads_none (skips_bool (by simp [nodeOf]) (by simp [nodeOf]))
      (breads_none (hrr _ _ (by simp [nodeOf, NotStart])) (breads_part h breads_noRead))))
  have h := ((h₁.append h₂).append h₃).append h₄
  simp only [Nat.zero_add] at h
  subst hx
  have hle : i'' ≤ (sepRead r b i'' (drop1 (b, i', m) + drop1 (r, i'', m')) (o.getD true) (t.getD true)).2.1 := by
    cases b with
    | none => exact Nat.le_refl _
    | some b => exact around_le' ..
  cases b with
  | none => exact reads_loop h (by simp [nodeOf_length]; omega) fun hi start c ig _ => (bind_none rfl).trans (capped_pos hi).symm
  | some b =>
    cases r with
    | none =>
      exact reads_loop h (by simp [nodeOf_length]; omega) fun hi start c ig _ =>
        ((bind_some (ofOption_some rfl _)).trans (bind_none rfl)).trans (capped_pos hi).symm
    | some r =>
      exact reads_loop h (by simp [nodeOf_length]; omega) fun _ start c ig h =>
        (bind_some (ofOption_some rfl _)).trans ((bind_some (ofOption_some rfl _)).trans (finish_eq h))

end

/-! ### `read_rule` -/

theorem first_skips {L : Nat} {l : List (Str × (Convert → CM (Range × Rule)))}
    (hl : ∀ p ∈ l, Reader L p.1 p.2) {nm : Str} (hd : nm ∉ l.map (·.1)) {body : List MetaData}
    (rest : List Tok) (off : Nat) (st : CSt) :
    firstRule (l.map fun p => p.2 ⟨toks (nodeOf nm body) ++ rest, off⟩) st = .ok (none, st) := by
  induction l with
  | nil => rfl
  | cons p l ih =>
    simp only [List.map_cons, List.mem_cons, not_or] at hd
    show (attempt _ >>= _) _ = _
    have := (skips_reader (hl p (by simp)) (a := nodeOf nm body) hd.1).eq rest off st
    rw [bind_some (a := none) (st' := st) (by simp only [attempt, this])]
    exact ih (fun p hp => hl p (by simp [hp])) hd.2

theorem reads_first {L : Nat} {l : List (Str × (Convert → CM (Range × Rule)))}
    (hl : ∀ p ∈ l, Reader L p.1 p.2) (hd : (l.map (·.1)).Nodup) {nm : Str}
    {f : Convert → CM (Range × Rule)} (hf : (nm, f) ∈ l) {body : List MetaData} {r : Option Rule} {i i' m : Nat}
    (h : Reads f (nodeOf nm body) r i i' m) :
    Reads (fun c => firstRule (l.map fun p => p.2 c)) (nodeOf nm body) r i i' m := by
  refine ⟨fun hi rest off ig => ?_⟩
  obtain ⟨k, hk, h⟩ := h.eq hi rest off ig
  refine ⟨k, hk, ?_⟩
  induction l with
  | nil => cases hf
  | cons p l ih =>
    simp only [List.map_cons, List.nodup_cons] at hd
    show (attempt _ >>= _) _ = _
    rcases List.mem_cons.1 hf with rfl | hf
    · by_cases hi' : i' < 2 ^ 64
      case neg =>
        rw [capped_neg hi'] at h ⊢
        exact bind_panic (by simp only [attempt, h])
      rw [capped_pos hi'] at h ⊢
      rw [bind_some (a := _) (st' := ⟨i', ig ++ k⟩) (by simp only [attempt, h]; rfl)]
      cases r with
      | none => exact first_skips (fun p hp => hl p (by simp [hp])) hd.1 rest off _
      | some r => rfl
    · have hne : nm ≠ p.1 := by
        rintro rfl
        exact hd.1 (List.mem_map.2 ⟨_, hf, rfl⟩)
      have := (skips_reader (hl p (by simp)) (a := nodeOf nm body) hne).eq rest off ⟨i, ig⟩
      rw [bind_some (a := none) (st' := ⟨i, ig⟩) (by simp only [attempt, this])]
      exact ih (fun p hp => hl p (by simp [hp])) hd.2 hf

theorem reads_step {strings : List (Str × Str)} {rr : Str → Convert → CM (Range × Rule)} {n : Nat}
    (hrr : ∀ p, Reader 0 p (rr p)) {nm : Str} {f : Convert → CM (Range × Rule)}
    (hf : (nm, f) ∈ ruleReaders strings rr n) {body : List MetaData} {r : Option Rule} {i i' m : Nat}
    (h : Reads f (nodeOf nm body) r i i' m) (property : Str) :
    Reads (readRuleStep strings rr n property) (nodeOf property (nodeOf nm body)) r i i' m := by
  have h' := reads_first (ruleReaders_reader (by omega) strings hrr) (ruleReaders_nodup ..) hf h
  refine reads_of (g := fun start c => do
    let (r, rule) ← firstRule ((ruleReaders strings rr n).map fun p => p.2 c)
    let c ← c.upd r
    let r ← ofOption (c.endNode property)
    let c ← c.upd r
    return (← c.sub start, rule)) ?_
  intro hi rest off start ig hs
  have hl := toks_length (nodeOf nm body)
  obtain ⟨k, hk, e⟩ := h'.eq hi (⟨⟨0, 0⟩, .endNode property⟩ :: rest) off ig
  refine ⟨k, hk, ?_⟩
  by_cases hi' : i' < 2 ^ 64
  case neg =>
    rw [capped_neg hi'] at e ⊢
    exact bind_panic e
  rw [capped_pos hi'] at e ⊢
  cases r with
  | none => exact bind_none e
  | some r =>
    rw [bind_some e]
    simp only
    rw [bind_some (upd_eq (c := ⟨_, off⟩) (by simp [hl])), ← hl]
    simp only [List.drop_left]
    rw [bind_some (ofOption_some (a := ⟨off + (toks (nodeOf nm body)).length, 1⟩) (by simp [endNode]) _),
      bind_some (upd_eq (c := ⟨_, off + _⟩) (by simp)), bind_some (sub_eq (by simp; omega)), hl]
    simp only [Pure.pure, CM.pure]
    rw [show off + (nodeOf nm body).length + 1 - start.off = (nodeOf nm body).length + 2 by omega]
    rfl

theorem skips_rule {strings : List (Str × Str)} {n : Nat} {p : Str} {a : List MetaData}
    (h : NotStart p a) : Skips (readRule strings (n + 1) p) a :=
  skips_reader (reader_rule strings n p) h

mutual
/-- `i < i'`: a rule uses at least one id. -/
theorem Desc.rule_lt {strings : List (Str × Str)} (d : Desc) {i i' : Nat} {r : Rule}
    (h : d.rule strings i = some (r, i')) : i < i' := by
  cases d <;> simp only [Desc.rule] at h <;> (repeat' (split at h)) <;>
    simp only [Option.some.injEq, Prod.mk.injEq, reduceCtorEq] at h <;> obtain ⟨-, rfl⟩ := h
  all_goals first
    | omega
    | (rename_i e; have := Desc.rule_lt _ e; omega)
    | (rename_i e; have := Desc.ruleL_le _ e; omega)
    | (rename_i e _ _ _ e'; have := Desc.rule_lt _ e; have := Desc.rule_lt _ e'; omega)
theorem Desc.ruleL_le {strings : List (Str × Str)} (ds : List Desc) {i i' : Nat} {rs : List Rule}
    (h : Desc.ruleL strings ds i = some (rs, i')) : i ≤ i' := by
  cases ds with
  | nil => simp only [Desc.ruleL, Option.some.injEq, Prod.mk.injEq] at h; omega
  | cons d ds =>
    simp only [Desc.ruleL] at h
    split at h
    · cases h
    next e =>
    split at h
    next e' =>
      simp only [Option.some.injEq, Prod.mk.injEq] at h
      obtain ⟨_, rfl⟩ := h
      have := Desc.rule_lt _ e
      have := Desc.ruleL_le _ e'
      omega
    · cases h
end

/-! ### Descriptions -/

theorem around_le (x : Option Rule × Nat × Nat) (f : Rule → Nat → Rule) : x.2.1 ≤ (around x f).2.1 :=
  around_le' ..

mutual
theorem Desc.read_le (strings : List (Str × Str)) (d : Desc) (i : Nat) : i ≤ (d.read strings i).2.1 := by
  cases d with
  | whitespace | text | number | reference => simp [Desc.read]
  | untilAnyOrWs any | untilAny any => simp only [Desc.read]; cases any.get strings <;> simp [needs]
  | tag neg t => simp only [Desc.read]; cases t.get strings <;> simp [needs]
  | sequence args | select args =>
    simp only [Desc.read]
    have := Desc.readL_le strings args i
    omega
  | optional d | not d | lines ind d =>
    simp only [Desc.read]
    exact Nat.le_trans (Desc.read_le strings d i) (around_le _ _)
  | repeat_ o d =>
    simp only [Desc.read]
    exact Nat.le_trans (Desc.read_le strings d i) (around_le' ..)
  | separatedBy o t b d =>
    simp only [Desc.read]
    have h₁ := Desc.read_le strings b i
    have h₂ := Desc.read_le strings d (b.read strings i).2.1
    cases (b.read strings i).1 with
    | none => exact Nat.le_trans h₁ h₂
    | some b => exact Nat.le_trans (Nat.le_trans h₁ h₂) (around_le' ..)
theorem Desc.readL_le (strings : List (Str × Str)) (ds : List Desc) (i : Nat) :
    i ≤ (Desc.readL strings ds i).2.1 := by
  cases ds with
  | nil => simp [Desc.readL]
  | cons d ds =>
    simp only [Desc.readL]
    exact Nat.le_trans (Desc.read_le strings d i) (Desc.readL_le strings ds _)
end

mutual
theorem reads_desc {strings : List (Str × Str)} (d : Desc) {n : Nat} {p : Str} {i : Nat}
    (hn : d.data.length ≤ n) :
    Reads (readRule strings (n + 1) p) (nodeOf p d.data) (d.read strings i).1 i (d.read strings i).2.1
      (d.read strings i).2.2 := by
  have hp : 2 ≤ d.data.length := by cases d <;> simp [Desc.data, nodeOf_length]
  have hle := Desc.read_le strings d i
  obtain ⟨m, rfl⟩ : ∃ m, n = m + 1 := ⟨n - 1, by omega⟩
  have hrr : ∀ p, Reader 0 p (readRule strings (m + 1) p) := fun p => (reader_rule strings m p).mono (by omega)
  cases d with
  | whitespace o => exact reads_step hrr (by simp [ruleReaders]) reads_whitespace p
  | untilAnyOrWs any o q =>
    exact reads_step hrr (by simp [ruleReaders]) (reads_untilAnyOrWs (by omega) hn) p
  | untilAny any o q => exact reads_step hrr (by simp [ruleReaders]) (reads_untilAny (by omega) hn) p
  | tag neg t inv q => exact reads_step hrr (by simp [ruleReaders]) (reads_tag (by omega) hn) p
  | text e q => exact reads_step hrr (by simp [ruleReaders]) (reads_text (by omega) hn) p
  | number u q => exact reads_step hrr (by simp [ruleReaders]) (reads_number (by omega) hn) p
  | reference name q =>
    exact reads_step hrr (by simp [ruleReaders]) (reads_reference (by omega) hn) p
  | sequence args =>
    simp only [Desc.data, nodeOf_length] at hn
    simp only [Desc.read]
    have := moves_descL (strings := strings) (nm := c!"sequence") (acc := []) args (i := i) (n := m) (by omega)
    refine reads_step hrr (f := readSequence (readRule strings (m + 1)) (m + 1)) (by simp [ruleReaders]) ?_ p
    exact reads_loop this (by omega) fun _ start c ig h => finish_eq h
  | select args =>
    simp only [Desc.data, nodeOf_length] at hn
    simp only [Desc.read]
    have := moves_descL (strings := strings) (nm := c!"select") (acc := []) args (i := i) (n := m) (by omega)
    refine reads_step hrr (f := readSelect (readRule strings (m + 1)) (m + 1)) (by simp [ruleReaders]) ?_ p
    exact reads_loop this (by omega) fun _ start c ig h => finish_eq h
  | optional d =>
    simp only [Desc.data, nodeOf_length] at hn
    simp only [Desc.read]
    exact reads_step hrr (by simp [ruleReaders])
      (reads_optional (reads_desc d (n := m) (by omega))) p
  | not d =>
    simp only [Desc.data, nodeOf_length] at hn
    simp only [Desc.read]
    exact reads_step hrr (by simp [ruleReaders])
      (reads_not (reads_desc d (n := m) (by omega))) p
  | separatedBy o t b d =>
    simp only [Desc.data, nodeOf_length, List.length_append] at hn
    have hx := Desc.read_le strings d (b.read strings i).2.1
    refine reads_step hrr (f := readSeparatedBy (readRule strings (m + 1)) (m + 1)) (by simp [ruleReaders])
      (reads_separatedBy (item_desc d).items (item_desc b).items (fun a p => skips_rule)
        (reads_desc b (i := i) (n := m) (by omega))
        (reads_desc d (i := (b.read strings i).2.1) (n := m) (by omega)) hx
        (by omega) ?_) p
    simp only [Desc.read]
    rfl
  | lines ind d =>
    simp only [Desc.data, nodeOf_length, List.length_append] at hn
    simp only [Desc.read]
    exact reads_step hrr (by simp [ruleReaders])
      (reads_lines rfl (reads_desc d (n := m) (by omega))) p
  | repeat_ o d =>
    simp only [Desc.data, nodeOf_length, List.length_cons] at hn
    simp only [Desc.read]
    exact reads_step hrr (f := readRepeat (readRule strings (m + 1)) (m + 1)) (by simp [ruleReaders])
      (reads_repeat rfl (item_desc d).items (fun a => skips_rule)
        (reads_desc d (n := m) (by omega)) (by omega)) p
theorem moves_descL {strings : List (Str × Str)} {nm : Str} {acc : List Rule} (ds : List Desc) {n : Nat}
    {i : Nat} (hn : (Desc.dataL ds).length ≤ n) :
    Moves nm (argsBody (readRule strings (n + 1))) (Desc.dataL ds) acc (acc ++ (Desc.readL strings ds i).1)
      i (Desc.readL strings ds i).2.1 (Desc.readL strings ds i).2.2 := by
  cases ds with
  | nil =>
    simp only [Desc.readL, List.append_nil]
    exact .nil
  | cons d ds =>
    simp only [Desc.dataL, List.length_append, nodeOf_length] at hn
    simp only [Desc.readL]
    have := Desc.readL_le strings ds (d.read strings i).2.1
    have h₁ := reads_desc (strings := strings) (p := c!"rule") d (i := i) (n := n) (by omega)
    have h₂ : Moves nm (argsBody (readRule strings (n + 1))) (nodeOf c!"rule" d.data) acc
        (acc ++ (d.read strings i).1.toList) i (d.read strings i).2.1 (drop1 (d.read strings i)) := by
      have h := moves_part (nm := nm) (B := argsBody (readRule strings (n + 1))) (s := fun r => acc ++ r.toList)
        (item_desc d).items (r := (d.read strings i).1) (p := c!"rule") (i := i)
        (i' := (d.read strings i).2.1) (m := (d.read strings i).2.2) (by
          simp only [Option.toList_none, List.append_nil]
          exact breads_part h₁ breads_noRead)
      simpa using h
    have h₃ := moves_descL (strings := strings) (nm := nm) (acc := acc ++ (d.read strings i).1.toList) ds (i := (d.read strings i).2.1) (n := n)
      (by omega)
    rw [Desc.dataL, ← List.append_assoc]
    exact h₂.append h₃
end

/-! ### Documents -/

section
variable {n off : Nat} {r : Range} {rest : List Tok} {name text : Option Str} {st : CSt} {s : Str}

theorem stringLoop_done : stringLoop (n + 1) ⟨⟨r, .endNode c!"string"⟩ :: rest, off⟩ name text st =
    .ok (some (⟨rest, off + 1⟩, name, text), st) := by
  simp only [stringLoop, endNode, metaString, if_true]
  rw [bind_some (upd_eq (c := ⟨_, off⟩) (by simp))]
  rfl

theorem stringLoop_name : stringLoop (n + 1) ⟨⟨r, .string c!"name" s⟩ :: rest, off⟩ name text st =
    stringLoop n ⟨rest, off + 1⟩ (some s) text st := by
  simp only [stringLoop, metaString, if_true]
  rw [bind_some (upd_eq (c := ⟨_, off⟩) (by simp))]
  rfl

theorem stringLoop_text : stringLoop (n + 1) ⟨⟨r, .string c!"text" s⟩ :: rest, off⟩ name text st =
    stringLoop n ⟨rest, off + 1⟩ name (some s) st := by
  have h : ¬ c!"text" = c!"name" := by decide
  simp only [stringLoop, metaString, h, if_false, if_true]
  rw [bind_some (upd_eq (c := ⟨_, off⟩) (by simp))]
  rfl

end

/-- The data of a string. -/
def stringData (s : Str × Str) : List MetaData :=
  nodeOf c!"string" [.string c!"name" s.1, .string c!"text" s.2]

/-- The data of a node. -/
def nodeData (k : F64 × Str × Desc) : List MetaData :=
  nodeOf c!"node" (.f64 c!"id" k.1 :: .string c!"name" k.2.1 :: nodeOf c!"rule" k.2.2.data)

theorem reads_stringNode {n : Nat} (hn : 3 ≤ n) (s : Str × Str) (i : Nat) :
    Reads (readString n) (stringData s) (some s) i i 0 := by
  obtain ⟨n, rfl⟩ : ∃ m, n = m + 3 := ⟨n - 3, by omega⟩
  refine ⟨fun hi rest off ig => ⟨[], rfl, (capped_pos hi).symm ▸ ?_⟩⟩
  have hs : ∀ ts, startNode ⟨⟨⟨0, 0⟩, .startNode c!"string"⟩ :: ts, off⟩ c!"string" = some ⟨off, 1⟩ := by
    simp [startNode]
  simp only [readString, stringData, nodeOf, toks_cons, toks_nil, List.cons_append, List.nil_append]
  rw [bind_some (ofOption_some (hs _) _), bind_some (upd_eq (c := ⟨_, off⟩) (by simp))]
  simp only [List.drop_succ_cons, List.drop_zero]
  rw [bind_some (stringLoop_name.trans (stringLoop_text.trans stringLoop_done))]
  simp only
  rw [bind_some (ofOption_some rfl _), bind_some (ofOption_some rfl _), bind_some (sub_eq (by simp; omega))]
  simp [Pure.pure, CM.pure]
  omega

theorem reads_node {strings : List (Str × Str)} {n : Nat} {k : F64} {name : Str} {d : Desc}
    {i : Nat}
    (hn : (nodeData (k, name, d)).length ≤ n) :
    Reads (readNode strings n) (nodeData (k, name, d))
      ((d.read strings (k.toUsize * 1000)).1.map fun r => (name, r)) i
      (d.read strings (k.toUsize * 1000)).2.1 (drop1 (d.read strings (k.toUsize * 1000))) := by
  simp only [nodeData, nodeOf_length, List.length_cons] at hn
  obtain ⟨n, rfl⟩ : ∃ m, n = m + 1 := ⟨n - 1, by omega⟩
  have h₁ : Moves c!"node" (nodeBody strings (n + 1)) [.f64 c!"id" k] (none, none, none)
      (some k.toUsize, none, none) i i 0 :=
    .one (item_f64 _ _) (breads_some (put := fun s v => (some v.toUsize, s.2)) (reads_f64 _ _ _))
  have h₂ : Moves c!"node" (nodeBody strings (n + 1)) [.string c!"name" name] (some k.toUsize, none, none)
      (some k.toUsize, some name, none) i i 0 :=
    .one (item_string _ _) (breads_none (skips_f64 (by simp) (by simp)) (breads_some (reads_string _ _ _)))
  have hle := Desc.read_le strings d (k.toUsize * 1000)
  have h₀ : Reads (fun c => do setId k.toUsize; readRule strings (n + 1) c!"rule" c) (nodeOf c!"rule" d.data)
      (d.read strings (k.toUsize * 1000)).1 i (d.read strings (k.toUsize * 1000)).2.1
      (d.read strings (k.toUsize * 1000)).2.2 := by
    refine ⟨fun _ rest off ig => ?_⟩
    by_cases hk : k.toUsize * 1000 < 2 ^ 64
    · obtain ⟨l, hl, e⟩ := (reads_desc (p := c!"rule") d (n := n) (by omega)).eq hk rest off ig
      refine ⟨l, hl, (bind_some (a := ()) (st' := ⟨k.toUsize * 1000, ig⟩) ?_).trans e⟩
      simp only [setId]
      rw [if_pos hk]
    · refine ⟨List.replicate _ ⟨0, 0⟩, List.length_replicate, ?_⟩
      rw [capped_neg (by omega)]
      refine bind_panic ?_
      simp only [setId]
      rw [if_neg hk]
  have h₃ : Moves c!"node" (nodeBody strings (n + 1)) (nodeOf c!"rule" d.data)
      (some k.toUsize, some name, none) (some k.toUsize, some name, (d.read strings (k.toUsize * 1000)).1)
      i (d.read strings (k.toUsize * 1000)).2.1 (drop1 (d.read strings (k.toUsize * 1000))) := by
    refine moves_part (s := fun r => (some k.toUsize, some name, r)) (item_desc d).items ?_
    refine breads_none (skips_f64 (by simp [nodeOf]) (by simp [nodeOf])) ?_
    refine breads_none (skips_string (by simp [nodeOf]) (by simp [nodeOf])) ?_
    have h := breads_part (B := fun _ _ => noRead) (put := fun s v => (s.1, s.2.1, some v))
      (s := (some k.toUsize, some name, none)) h₀ breads_noRead
    exact ⟨h.eq⟩
  have h := (h₁.append h₂).append h₃
  simp only [Nat.zero_add] at h
  refine reads_loop h (by simp [nodeOf_length]; omega) ?_
  intro hi start c ig h
  rw [capped_pos hi]
  refine (bind_some (ofOption_some rfl _)).trans ?_
  cases (d.read strings (k.toUsize * 1000)).1 with
  | none => exact bind_none rfl
  | some r => exact (bind_some (ofOption_some rfl _)).trans (bind_some (sub_eq h))

theorem skips_readString {n : Nat} {a : List MetaData} (h : NotStart c!"string" a) :
    Skips (readString n) a := by
  refine ⟨fun rest off st => ?_⟩
  simp only [readString, h.eq]
  exact bind_none rfl

theorem strings_eq {n : Nat} (hn : 3 ≤ n) : ∀ (ss : List (Str × Str)) (k : Nat) (acc : List (Str × Str))
    (rest : List Tok) (off i : Nat) (ig : List Range), i < 2 ^ 64 → ss.length < k →
    (∀ off st, readString n ⟨rest, off⟩ st = .ok (none, st)) →
    stringsLoop n k ⟨toks (ss.flatMap stringData) ++ rest, off⟩ acc ⟨i, ig⟩ =
      .ok (some (⟨rest, off + (ss.flatMap stringData).length⟩, acc ++ ss), ⟨i, ig⟩)
  | [], k, acc, rest, off, i, ig, hi, hk, hr => by
    obtain ⟨k, rfl⟩ : ∃ m, k = m + 1 := ⟨k - 1, by simp at hk; omega⟩
    simp only [stringsLoop, List.flatMap_nil, toks_nil, List.nil_append]
    rw [bind_some (a := none) (st' := ⟨i, ig⟩) (by simp only [attempt, hr])]
    simp [Pure.pure, CM.pure]
  | s :: ss, k, acc, rest, off, i, ig, hi, hk, hr => by
    simp only [List.length_cons] at hk
    obtain ⟨k, rfl⟩ : ∃ m, k = m + 1 := ⟨k - 1, by omega⟩
    have hl := toks_length (stringData s)
    simp only [stringsLoop, List.flatMap_cons, toks_append, List.append_assoc]
    rw [bind_some (a := some (⟨off, (stringData s).length⟩, s)) (st' := ⟨i, ig⟩)
      (by
        obtain ⟨l, hl, e⟩ := (reads_stringNode hn s i).eq hi (toks (ss.flatMap stringData) ++ rest) off ig
        cases l with
        | nil => rw [capped_pos hi] at e; simp only [attempt]; rw [e]; simp
        | cons => simp at hl)]
    simp only
    rw [bind_some (upd_eq (c := ⟨_, off⟩) (by simp [hl])), ← hl]
    simp only [List.drop_left]
    rw [strings_eq hn ss k _ rest _ i ig hi (by omega) hr]
    simp [Nat.add_assoc, hl]

theorem Spec.Doc.Overflow.exists {strings : List (Str × Str)} : ∀ {ns : List (F64 × Str × Desc)},
    Doc.Overflow strings ns → ∃ x ∈ ns, 2 ^ 64 ≤ (x.2.2.read strings (x.1.toUsize * 1000)).2.1
  | [], h => h.elim
  | (_, _, _) :: _, .inl h => ⟨_, List.mem_cons_self, h⟩
  | (_, _, _) :: _, .inr ⟨_, h⟩ => by
    obtain ⟨x, hx, h⟩ := h.exists
    exact ⟨x, List.mem_cons_of_mem _ hx, h⟩

theorem Spec.Doc.Overflows.exists {doc : Doc} (h : doc.Overflows) :
    ∃ x ∈ doc.nodes, 2 ^ 64 ≤ (x.2.2.read doc.strings (x.1.toUsize * 1000)).2.1 := Doc.Overflow.exists h

theorem nodes_eq {strings : List (Str × Str)} {n : Nat} : ∀ (ns : List (F64 × Str × Desc))
    (k : Nat) (acc : Syntax) (off i : Nat) (ig : List Range), i < 2 ^ 64 → ns.length < k →
    (ns.flatMap nodeData).length ≤ n →
    (¬ Doc.Overflow strings ns → ∃ i' l, l.length = (Doc.read strings ns).2 ∧
      nodesLoop strings n k ⟨toks (ns.flatMap nodeData), off⟩ acc ⟨i, ig⟩ =
      .ok ((Doc.read strings ns).1.map fun rs => rs.foldl (fun s x => s.push x.1 x.2) acc, ⟨i', ig ++ l⟩)) ∧
    (Doc.Overflow strings ns →
      nodesLoop strings n k ⟨toks (ns.flatMap nodeData), off⟩ acc ⟨i, ig⟩ = .panic)
  | [], k, acc, off, i, ig, hi, hk, hn => by
    obtain ⟨k, rfl⟩ : ∃ m, k = m + 1 := ⟨k - 1, by simp at hk; omega⟩
    refine ⟨fun _ => ⟨i, [], rfl, ?_⟩, fun h => h.elim⟩
    simp only [nodesLoop, List.flatMap_nil, toks_nil, List.append_nil]
    rw [bind_some (a := none) (st' := ⟨i, ig⟩) rfl]
    rfl
  | (x, name, d) :: ns, k, acc, off, i, ig, hi, hk, hn => by
    simp only [List.length_cons] at hk
    obtain ⟨k, rfl⟩ : ∃ m, k = m + 1 := ⟨k - 1, by omega⟩
    simp only [List.flatMap_cons, List.length_append] at hn
    have hl := toks_length (nodeData (x, name, d))
    have hr := reads_node (strings := strings) (k := x) (name := name) (d := d) (i := i) (n := n)
      (Nat.le_trans (Nat.le_add_right _ _) hn)
    obtain ⟨l, hll, e⟩ := hr.eq hi (toks (ns.flatMap nodeData)) off ig
    simp only [nodesLoop, List.flatMap_cons, toks_append, Doc.read, Doc.Overflow]
    by_cases hi' : (d.read strings (x.toUsize * 1000)).2.1 < 2 ^ 64
    case neg =>
      rw [capped_neg hi'] at e
      exact ⟨fun h => absurd (.inl (by omega)) h, fun _ => bind_panic (by simp only [attempt]; rw [e])⟩
    rw [capped_pos hi'] at e
    rw [bind_some (a := _) (st' := _) (by simp only [attempt]; rw [e])]
    cases hd : (d.read strings (x.toUsize * 1000)).1 with
    | none =>
      refine ⟨fun _ => ⟨(d.read strings (x.toUsize * 1000)).2.1, l, hll, ?_⟩, fun h => ?_⟩
      · simp only [Option.map_none]
        rw [if_pos]
        · rfl
        · simp only [Convert.remaining, List.length_append, toks_length, nodeData, nodeOf_length]
          omega
      · rcases h with h | h
        · omega
        · simp at h
    | some r =>
      have ih := nodes_eq (strings := strings) (n := n) ns k (acc.push name r) (off + (nodeData (x, name, d)).length)
        (d.read strings (x.toUsize * 1000)).2.1 (ig ++ l) hi'
        (by omega) (Nat.le_trans (Nat.le_add_left _ _) hn)
      simp only [Option.map_some]
      rw [bind_some (upd_eq (c := ⟨_, off⟩) (by simp [hl]))]
      simp only [← hl, List.drop_left]
      rw [hl]
      refine ⟨fun h => ?_, fun h => ?_⟩
      · obtain ⟨i', l', hl', ih⟩ := ih.1 fun h' => h (.inr ⟨rfl, h'⟩)
        refine ⟨i', l ++ l', ?_, ?_⟩
        · rw [List.length_append, hll, hl', drop1, hd]; rfl
        · rw [ih, Option.map_map, List.append_assoc]
          rfl
      · rcases h with h | ⟨_, h⟩
        · omega
        · exact ih.2 h

/-- `convert` on the data of a document. -/
theorem convert_doc {doc : Doc} {data : List Tok} (hd : data.map (·.data) = doc.data) (ig : List Range) :
    ∃ n, (¬ doc.Overflows → ∃ l, l.length = (Doc.read doc.strings doc.nodes).2 ∧ convert n data ig =
        .ok ((Doc.read doc.strings doc.nodes).1.map fun rs =>
          (rs.foldl (fun s x => s.push x.1 x.2) Syntax.new).updateRefs, ig ++ l)) ∧
      (doc.Overflows → convert n data ig = .panic) := by
  refine ⟨doc.data.length + doc.strings.length + doc.nodes.length + 3, ?_⟩
  rw [convert_same (data' := toks doc.data) (by rw [hd]; simp [toks, Function.comp_def])]
  generalize hn : doc.data.length + doc.strings.length + doc.nodes.length + 3 = n
  have hl : (doc.nodes.flatMap nodeData).length ≤ doc.data.length := by
    simp only [Doc.data, List.length_append]
    exact Nat.le_add_left _ _
  have h₀ : ∀ off st, readString n ⟨toks (doc.nodes.flatMap nodeData), off⟩ st = .ok (none, st) := by
    intro off st
    cases hn : doc.nodes with
    | nil => rfl
    | cons x xs =>
      simp only [List.flatMap_cons, toks_append]
      exact (skips_readString (by show c!"node" ≠ c!"string"; decide)).eq _ off st
  have h₁ := strings_eq (n := n) (by omega) doc.strings n [] (toks (doc.nodes.flatMap nodeData)) 0 0 ig
    (by omega) (by omega) h₀
  have h₂ := nodes_eq (strings := doc.strings) (n := n) doc.nodes n .new
    (0 + (doc.strings.flatMap stringData).length) 0 ig (by omega) (by omega) (by omega)
  have e : ∀ y, (nodesLoop doc.strings n n
      ⟨toks (doc.nodes.flatMap nodeData), 0 + (doc.strings.flatMap stringData).length⟩ .new >>= fun s =>
        (Pure.pure s.updateRefs : CM Syntax)) ⟨0, ig⟩ = y → convertM n (toks doc.data) ⟨0, ig⟩ = y := by
    rintro y rfl
    simp only [convertM, Convert.new]
    refine (bind_some (a := (⟨toks (doc.nodes.flatMap nodeData), _⟩, [] ++ doc.strings)) (st' := ⟨0, ig⟩)
      (Eq.trans ?_ h₁)).trans rfl
    rw [← toks_append]; rfl
  refine ⟨fun h => ?_, fun h => ?_⟩
  · obtain ⟨i', l, hl', h₂⟩ := h₂.1 h
    refine ⟨l, hl', ?_⟩
    have e : convertM n (toks doc.data) ⟨0, ig⟩ =
        .ok ((Doc.read doc.strings doc.nodes).1.map fun rs =>
          (rs.foldl (fun s x => s.push x.1 x.2) Syntax.new).updateRefs, ⟨i', ig ++ l⟩) := by
      refine e _ ?_
      cases hr : (Doc.read doc.strings doc.nodes).1 with
      | none =>
        rw [hr] at h₂
        exact bind_none h₂
      | some rs =>
        rw [hr] at h₂
        rw [bind_some h₂]
        rfl
    simp only [convert, e]
  · simp only [convert, e _ (bind_panic (h₂.2 h))]

end Verif
