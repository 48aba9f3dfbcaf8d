import Verif.Proofs.ConvertTreeRule
import Verif.Proofs.ConvertStep
import Verif.Proofs.ConvertSim
/-
`convert` on trees of meta data: nodes, strings, documents (for C73).
-/
namespace Verif
open Spec CM Convert

/-! ### Nodes -/

/-- The variables of `read_node`. -/
abbrev NodeSt := Option Nat × Option Str × Option Rule

/-- The step of `read_node`. -/
def nodeStep (strings : List (Str × Str)) : Step NodeSt := fun s k off i =>
  match k.f64? c!"id", k.string? c!"name" with
  | some v, _ => (some (some v.toUsize, s.2), i, 0, [])
  | none, some v => (some (s.1, some v, s.2.2), i, 0, [])
  | none, none =>
    let x := k.held strings [c!"rule"] off (s.1.getD 0 * 1000)
    (x.1.map fun v => (s.1, s.2.1, some v), x.2.1, x.2.1, x.2.2)

theorem steps_node {strings : List (Str × Str)} {n : Nat} {k : Piece} (hn : k.size ≤ n) :
    Steps (nodeBody strings n) (nodeStep strings) k := by
  have hp := k.size_pos
  obtain ⟨n, rfl⟩ : ∃ m, n = m + 1 := ⟨n - 1, by omega⟩
  refine ⟨fun s off i hi rest ig => ?_, fun s off i hi h => ?_⟩
  · simp only [nodeBody]
    rw [Plain.try (f := fun c => ofOption (c.metaF64 _)) (plain_f64 _ k)]
    cases h₁ : k.f64? c!"id" with
    | some v => simp [nodeStep, h₁, capped_pos]
    | none =>
      simp only [Option.elim]
      rw [Plain.try (f := fun c => ofOption (c.metaString _)) (plain_string _ k)]
      cases h₂ : k.string? c!"name" with
      | some v => simp [nodeStep, h₁, h₂, capped_pos]
      | none =>
        have hg := gets_held (strings := strings) n c!"rule" k hn off (s.1.getD 0 * 1000)
        simp only [Option.elim, nodeStep, h₁, h₂]
        by_cases hb : s.1.getD 0 * 1000 < 2 ^ 64
        case neg =>
          have := hg.le
          rw [capped_neg (by omega)]
          refine tryRead_panic (bind_panic ?_)
          show (if _ then _ else _) = _
          rw [if_neg hb]
        have e : (do setId (s.1.getD 0); readRule strings (n + 1) c!"rule" ⟨toks k.data ++ rest, off⟩ :
            CM (Range × Rule)) ⟨i, ig⟩ =
            readRule strings (n + 1) c!"rule" ⟨toks k.data ++ rest, off⟩ ⟨s.1.getD 0 * 1000, ig⟩ :=
          bind_some (by show (if _ then _ else _) = _; rw [if_pos hb])
        have e' := hg.eq hb rest ig
        rw [← e] at e'
        generalize k.held strings [c!"rule"] off (s.1.getD 0 * 1000) = x at e' ⊢
        obtain ⟨v, i', l⟩ := x
        simp only at e' ⊢
        by_cases hi' : i' < 2 ^ 64
        case neg =>
          rw [capped_neg hi'] at e' ⊢
          exact tryRead_panic e'
        rw [capped_pos hi'] at e' ⊢
        cases v with
        | none => exact tryRead_none e'
        | some v => exact tryRead_some e'
  · simp only [nodeStep] at h ⊢
    split
    · exact hi
    · exact hi
    · rename_i e₁ e₂
      simp only [e₁, e₂] at h
      exact h

theorem addAll_walk {strings : List (Str × Str)} : ∀ (ks : List Piece) (s : NodeRead) (off i : Nat),
    NodeRead.addAll strings s ks off =
      let w := walk (nodeStep strings) ks (s.num, s.name, s.rule) off i
      ⟨w.1.1, w.1.2.1, w.1.2.2, max s.top w.2.2.1, s.ignored ++ w.2.2.2⟩
  | [], s, off, i => by simp [NodeRead.addAll, walk]
  | k :: ks, s, off, i => by
    simp only [NodeRead.addAll, walk]
    rw [addAll_walk ks _ (off + k.size) (nodeStep strings (s.num, s.name, s.rule) k off i).2.1]
    rcases h₁ : k.f64? c!"id" with _ | v
    · rcases h₂ : k.string? c!"name" with _ | v
      · rw [show s.add strings k off = _ by simp only [NodeRead.add, h₁, h₂]; rfl,
          show nodeStep strings (s.num, s.name, s.rule) k off i = _ by simp only [nodeStep, h₁, h₂]; rfl]
        generalize k.held strings [c!"rule"] off (s.num.getD 0 * 1000) = x
        obtain ⟨v, j, l⟩ := x
        cases v <;> simp [Nat.max_assoc]
      · rw [show s.add strings k off = { s with name := some v } by simp only [NodeRead.add, h₁, h₂],
          show nodeStep strings (s.num, s.name, s.rule) k off i = (some (s.num, some v, s.rule), i, 0, []) by
            simp only [nodeStep, h₁, h₂]]
        simp
    · rw [show s.add strings k off = { s with num := some v.toUsize } by simp only [NodeRead.add, h₁],
        show nodeStep strings (s.num, s.name, s.rule) k off i = (some (some v.toUsize, s.name, s.rule), i, 0, []) by
          simp only [nodeStep, h₁]]
      simp

theorem readNode_piece {strings : List (Str × Str)} {n : Nat} {k : Piece} (hn : k.size ≤ n + 1) {off i : Nat}
    (hi : i < 2 ^ 64) (rest : List Tok) (ig : List Range) :
    ∃ i', ((k.nodeRead strings off).top < 2 ^ 64 → i' < 2 ^ 64) ∧
    readNode strings n ⟨toks k.data ++ rest, off⟩ ⟨i, ig⟩ = capped (k.nodeRead strings off).top
      (.ok ((k.nodeRead strings off).named.map fun d => (⟨off, k.size⟩, d),
        ⟨i', ig ++ (k.nodeRead strings off).ignored⟩)) := by
  by_cases h : ∃ ks, k = .node c!"node" ks
  case neg =>
    have e' : k.nodeRead strings off = {} := by
      cases k with
      | node q ks =>
        have : q ≠ c!"node" := fun e => h ⟨ks, by rw [e]⟩
        simp only [Piece.nodeRead]
        rw [if_neg this]
      | _ => rfl
    have e := startNode_piece c!"node" k rest off (fun ks e => h ⟨ks, e⟩)
    refine ⟨i, fun _ => hi, ?_⟩
    have e₂ : ofOption (startNode ⟨toks k.data ++ rest, off⟩ c!"node") ⟨i, ig⟩ = .ok (none, ⟨i, ig⟩) := by
      simp [ofOption, e]
    rw [e', capped_pos (by simp)]
    exact (bind_none e₂).trans (by simp [NodeRead.named])
  obtain ⟨ks, rfl⟩ := h
  have hs := Piece.size_node c!"node" ks
  have hS : ∀ k ∈ ks, Steps (nodeBody strings n) (nodeStep strings) k := fun k hk =>
    steps_node (by have := mem_size hk; omega)
  have hr : (Piece.node c!"node" ks).nodeRead strings off = NodeRead.addAll strings {} ks (off + 1) := by
    simp [Piece.nodeRead]
  have hl := loop_pieces (nm := c!"node") hS (s := (none, none, none)) (off := off + 1) (n := n) (rest := rest)
    (ig := ig) hi (by omega)
  have hb := walk_bound hS (s := (none, none, none)) (off := off + 1) hi
  rw [hr, addAll_walk ks {} (off + 1) i]
  simp only
  generalize walk (nodeStep strings) ks (none, none, none) (off + 1) i = w at hl hb ⊢
  obtain ⟨⟨num, name, rule⟩, i', top, l⟩ := w
  simp only [Nat.zero_max, List.nil_append] at hl hb ⊢
  refine ⟨i', hb, ?_⟩
  simp only [Piece.data, nodeOf, toks_cons, toks_append, toks_nil, List.cons_append, List.append_assoc,
    List.nil_append]
  rw [readNode_eq]
  by_cases ht : top < 2 ^ 64
  case neg =>
    rw [capped_neg ht] at hl ⊢
    exact bind_panic hl
  rw [capped_pos ht] at hl ⊢
  refine (bind_some hl).trans ?_
  simp only
  cases name with
  | none => exact (bind_none rfl).trans (by simp [NodeRead.named])
  | some name =>
    refine (bind_some (ofOption_some rfl _)).trans ?_
    cases rule with
    | none => exact (bind_none rfl).trans (by simp [NodeRead.named])
    | some rule =>
      refine (bind_some (ofOption_some rfl _)).trans ?_
      refine (bind_some (sub_eq (by simp; omega))).trans ?_
      simp [Pure.pure, CM.pure, NodeRead.named, hs]
      omega

theorem nodes_pieces {strings : List (Str × Str)} {n : Nat} : ∀ (ks : List Piece) (m : Nat) (acc : Syntax)
    (off i : Nat) (ig : List Range), i < 2 ^ 64 → ks.length < m → (Piece.dataL ks).length ≤ n →
    ∃ i', nodesLoop strings n m ⟨toks (Piece.dataL ks), off⟩ acc ⟨i, ig⟩ =
      capped (nodeReads strings ks off).2.1
        (.ok ((nodeReads strings ks off).1.map fun rs => rs.foldl (fun s x => s.push x.1 x.2) acc,
          ⟨i', ig ++ (nodeReads strings ks off).2.2⟩))
  | [], m, acc, off, i, ig, hi, hm, hn => by
    obtain ⟨m, rfl⟩ : ∃ m', m = m' + 1 := ⟨m - 1, by omega⟩
    refine ⟨i, ?_⟩
    simp only [nodesLoop, Piece.dataL, toks_nil, nodeReads]
    refine (bind_some (a := none) (st' := ⟨i, ig⟩) rfl).trans ?_
    rw [capped_pos (by simp)]
    simp [remaining, Pure.pure, CM.pure]
  | k :: ks, m, acc, off, i, ig, hi, hm, hn => by
    simp only [List.length_cons] at hm
    obtain ⟨m, rfl⟩ : ∃ m', m = m' + 1 := ⟨m - 1, by omega⟩
    have hd : Piece.dataL (k :: ks) = k.data ++ Piece.dataL ks := by simp [Piece.dataL]
    have hp := k.size_pos
    rw [Piece.dataL_cons] at hn
    obtain ⟨i₁, hi₁, e⟩ := readNode_piece (strings := strings) (n := n) (k := k) (off := off) (by omega) hi
      (toks (Piece.dataL ks)) ig
    rw [hd, toks_append]
    simp only [nodesLoop, nodeReads]
    generalize k.nodeRead strings off = x at hi₁ e ⊢
    by_cases ht : x.top < 2 ^ 64
    case neg =>
      rw [capped_neg ht] at e
      refine ⟨0, ?_⟩
      rw [bind_panic (by simp only [attempt, e])]
      cases x.named <;> simp only <;> rw [capped_neg (by omega)]
    rw [capped_pos ht] at e
    cases hx : x.named with
    | none =>
      rw [hx] at e
      refine ⟨i₁, ?_⟩
      refine (bind_some (a := none) (st' := ⟨i₁, ig ++ x.ignored⟩) (by simp only [attempt, e]; rfl)).trans ?_
      rw [capped_pos ht]
      simp only
      rw [if_pos]
      · rfl
      · have : k.data.length = k.size := rfl
        simp only [remaining, List.length_append, toks_length]
        omega
    | some d =>
      rw [hx] at e
      obtain ⟨i₂, e₂⟩ := nodes_pieces (strings := strings) (n := n) ks m (acc.push d.1 d.2) (off + k.size) i₁ (ig ++ x.ignored) (hi₁ ht)
        (by omega) (by omega)
      refine ⟨i₂, ?_⟩
      refine (bind_some (a := some _) (st' := ⟨i₁, ig ++ x.ignored⟩) (by simp only [attempt, e]; rfl)).trans ?_
      simp only
      refine (bind_some (upd_eq (c := ⟨_, off⟩) (by simp [toks_length, Piece.size]))).trans ?_
      simp only [← Piece.size_eq, List.drop_left]
      rw [Piece.size_eq, e₂]
      generalize nodeReads strings ks (off + k.size) = y
      obtain ⟨y, j, l⟩ := y
      simp only
      by_cases hj : j < 2 ^ 64
      · rw [capped_pos hj, capped_pos (by omega)]
        cases y <;> simp
      · rw [capped_neg hj, capped_neg (by omega)]

/-! ### Strings -/

theorem stringLoop_pieces : ∀ (ks : List Piece) (n off : Nat) (name text : Option Str) (st : CSt) (rest : List Tok),
    (Piece.dataL ks).length < n →
    stringLoop n ⟨toks (Piece.dataL ks) ++ ⟨⟨0, 0⟩, .endNode c!"string"⟩ :: rest, off⟩ name text st =
      .ok (if ∀ k ∈ ks, (k.string? c!"name").isSome ∨ (k.string? c!"text").isSome then
        some (⟨rest, off + (Piece.dataL ks).length + 1⟩, (lastOf (·.string? c!"name") ks).or name,
          (lastOf (·.string? c!"text") ks).or text) else none, st)
  | [], n, off, name, text, st, rest, hn => by
    obtain ⟨n, rfl⟩ : ∃ m, n = m + 1 := ⟨n - 1, by omega⟩
    simp only [Piece.dataL, toks_nil, List.nil_append]
    rw [stringLoop_done]
    simp [lastOf]
  | k :: ks, n, off, name, text, st, rest, hn => by
    have hp := k.size_pos
    rw [Piece.dataL_cons] at hn
    obtain ⟨n, rfl⟩ : ∃ m, n = m + 1 := ⟨n - 1, by omega⟩
    have hd : Piece.dataL (k :: ks) = k.data ++ Piece.dataL ks := by simp [Piece.dataL]
    rw [hd, lastOf_cons, lastOf_cons, toks_append, List.append_assoc]
    by_cases h : ∃ q v, k = .string q v
    · obtain ⟨q, v, rfl⟩ := h
      simp only [Piece.data, toks_cons, toks_nil, List.cons_append, List.nil_append]
      by_cases h₁ : q = c!"name"
      · subst h₁
        rw [stringLoop_name, stringLoop_pieces ks n _ _ _ _ _ (by omega)]
        simp [Piece.string?, Nat.add_assoc, Nat.add_comm]
      by_cases h₂ : q = c!"text"
      · subst h₂
        rw [stringLoop_text, stringLoop_pieces ks n _ _ _ _ _ (by omega)]
        simp [Piece.string?, Nat.add_assoc, Nat.add_comm]
      rw [if_neg (by simp [Piece.string?, h₁, h₂])]
      simp only [stringLoop, metaString, endNode, h₁, h₂, if_false]
      rfl
    · rw [if_neg (by cases k <;> simp [Piece.string?] at h ⊢)]
      cases k with
      | string q v => exact absurd ⟨q, v, rfl⟩ h
      | _ => rfl

theorem readString_piece {n : Nat} {k : Piece} (hn : k.size ≤ n + 1) (off : Nat) (rest : List Tok) (st : CSt) :
    readString n ⟨toks k.data ++ rest, off⟩ st = .ok (k.stringDef.map fun d => (⟨off, k.size⟩, d), st) := by
  by_cases h : ∃ ks, k = .node c!"string" ks
  case neg =>
    have e' : k.stringDef = none := by
      cases k with
      | node q ks =>
        have : q ≠ c!"string" := fun e => h ⟨ks, by rw [e]⟩
        simp only [Piece.stringDef]
        rw [if_neg (fun h => this h.1)]
      | _ => rfl
    have e := startNode_piece c!"string" k rest off (fun ks e => h ⟨ks, e⟩)
    have e₂ : ofOption (startNode ⟨toks k.data ++ rest, off⟩ c!"string") st = .ok (none, st) := by
      simp [ofOption, e]
    rw [e']
    exact (bind_none e₂).trans (by simp)
  obtain ⟨ks, rfl⟩ := h
  have hs := Piece.size_node c!"string" ks
  have hl := stringLoop_pieces ks n (off + 1) none none st rest (by omega)
  simp only [Piece.data, nodeOf, toks_cons, toks_append, toks_nil, List.cons_append, List.append_assoc,
    List.nil_append, Piece.stringDef, readString]
  have e₁ : ∀ ts, startNode ⟨⟨⟨0, 0⟩, .startNode c!"string"⟩ :: ts, off⟩ c!"string" = some ⟨off, 1⟩ := by
    simp [startNode]
  refine (bind_some (ofOption_some (e₁ _) _)).trans ?_
  refine (bind_some (upd_eq (c := ⟨_, off⟩) (by simp))).trans ?_
  simp only [List.drop_succ_cons, List.drop_zero]
  simp only [Option.or_none] at hl
  by_cases ha : ∀ k ∈ ks, (k.string? c!"name").isSome ∨ (k.string? c!"text").isSome
  case neg =>
    rw [if_neg ha] at hl
    rw [if_neg (fun h => ha h.2)]
    exact (bind_none hl).trans (by simp)
  rw [if_pos ha] at hl
  rw [if_pos ⟨by trivial, ha⟩]
  refine (bind_some hl).trans ?_
  simp only
  cases lastOf (·.string? c!"name") ks with
  | none => exact (bind_none rfl).trans (by simp)
  | some name =>
    refine (bind_some (ofOption_some rfl _)).trans ?_
    cases lastOf (·.string? c!"text") ks with
    | none => exact (bind_none rfl).trans (by simp)
    | some text =>
      refine (bind_some (ofOption_some rfl _)).trans ?_
      refine (bind_some (sub_eq (by simp; omega))).trans ?_
      simp [Pure.pure, CM.pure, hs]
      omega

theorem strings_pieces {n : Nat} : ∀ (ks : List Piece) (m off : Nat) (acc : List (Str × Str)) (st : CSt),
    ks.length < m → (Piece.dataL ks).length ≤ n →
    stringsLoop n m ⟨toks (Piece.dataL ks), off⟩ acc st =
      .ok (some (⟨toks (Piece.dataL (ks.dropWhile (·.stringDef.isSome))),
        off + (Piece.dataL (ks.takeWhile (·.stringDef.isSome))).length⟩, acc ++ stringDefs ks), st)
  | [], m, off, acc, st, hm, hn => by
    obtain ⟨m, rfl⟩ : ∃ m', m = m' + 1 := ⟨m - 1, by omega⟩
    simp only [stringsLoop, Piece.dataL, toks_nil]
    refine (bind_some (a := none) (st' := st) rfl).trans ?_
    simp [Pure.pure, CM.pure, stringDefs, Piece.dataL, toks]
  | k :: ks, m, off, acc, st, hm, hn => by
    simp only [List.length_cons] at hm
    obtain ⟨m, rfl⟩ : ∃ m', m = m' + 1 := ⟨m - 1, by omega⟩
    have hd : Piece.dataL (k :: ks) = k.data ++ Piece.dataL ks := by simp [Piece.dataL]
    have hp := k.size_pos
    have hk := hn
    rw [Piece.dataL_cons] at hk
    have e := readString_piece (n := n) (k := k) (by omega) off (toks (Piece.dataL ks)) st
    cases hx : k.stringDef with
    | none =>
      rw [List.dropWhile_cons_of_neg (by simp [hx]), List.takeWhile_cons_of_neg (by simp [hx]), stringDefs,
        List.takeWhile_cons_of_neg (by simp [hx])]
      rw [hx, ← toks_append, ← hd] at e
      simp only [stringsLoop]
      refine (bind_some (a := none) (st' := st) (by simp only [attempt, e]; rfl)).trans ?_
      simp [Pure.pure, CM.pure, Piece.dataL]
    | some d =>
      rw [List.dropWhile_cons_of_pos (by simp [hx]), List.takeWhile_cons_of_pos (by simp [hx]), stringDefs,
        List.takeWhile_cons_of_pos (by simp [hx]), List.filterMap_cons_some hx, Piece.dataL_cons]
      rw [hx] at e
      rw [hd, toks_append]
      simp only [stringsLoop]
      refine (bind_some (a := some _) (st' := st) (by simp only [attempt, e]; rfl)).trans ?_
      simp only
      refine (bind_some (upd_eq (c := ⟨_, off⟩) (by simp [toks_length, Piece.size]))).trans ?_
      simp only [← Piece.size_eq, List.drop_left]
      rw [Piece.size_eq, strings_pieces ks m _ _ st (by omega) (by omega)]
      simp [stringDefs, Nat.add_assoc]

/-! ### All the data -/

theorem convert_pieces {ks : List Piece} {data : List Tok} (hd : data.map (·.data) = Piece.dataL ks) (ig : List Range) :
    ∃ n, convert n data ig = capped (pieceReads ks).2.1
      (.ok ((pieceReads ks).1.map fun rs => (rs.foldl (fun s x => s.push x.1 x.2) Syntax.new).updateRefs,
        ig ++ (pieceReads ks).2.2)) := by
  have hl := Piece.length_le ks
  have hl' := Piece.length_le (ks.dropWhile (·.stringDef.isSome))
  have hlen : (Piece.dataL (ks.dropWhile (·.stringDef.isSome))).length ≤ (Piece.dataL ks).length := by
    conv => rhs; rw [← List.takeWhile_append_dropWhile (p := (·.stringDef.isSome)) (l := ks), Piece.dataL_append]
    simp
  refine ⟨(Piece.dataL ks).length + 1, ?_⟩
  rw [convert_same (data' := toks (Piece.dataL ks)) (by rw [hd]; simp [toks, Function.comp_def])]
  have h₁ := strings_pieces (n := (Piece.dataL ks).length + 1) ks ((Piece.dataL ks).length + 1) 0 [] ⟨0, ig⟩
    (by omega) (by omega)
  obtain ⟨i', h₂⟩ := nodes_pieces (strings := stringDefs ks) (n := (Piece.dataL ks).length + 1)
    (ks.dropWhile (·.stringDef.isSome)) ((Piece.dataL ks).length + 1) Syntax.new
    (Piece.dataL (ks.takeWhile (·.stringDef.isSome))).length 0 ig (by omega) (by omega) (by omega)
  simp only [List.nil_append, Nat.zero_add] at h₁
  rw [← pieceReads] at h₂
  simp only [convert]
  by_cases ht : (pieceReads ks).2.1 < 2 ^ 64
  · rw [capped_pos ht] at h₂ ⊢
    have e : convertM ((Piece.dataL ks).length + 1) (toks (Piece.dataL ks)) ⟨0, ig⟩ =
        .ok ((pieceReads ks).1.map fun rs => (rs.foldl (fun s x => s.push x.1 x.2) Syntax.new).updateRefs,
          ⟨i', ig ++ (pieceReads ks).2.2⟩) := by
      refine (bind_some h₁).trans ?_
      simp only
      cases hr : (pieceReads ks).1 with
      | none =>
        rw [hr] at h₂
        exact bind_none h₂
      | some rs =>
        rw [hr] at h₂
        exact (bind_some h₂).trans rfl
    rw [e]
  · rw [capped_neg ht] at h₂ ⊢
    have e : convertM ((Piece.dataL ks).length + 1) (toks (Piece.dataL ks)) ⟨0, ig⟩ = .panic :=
      (bind_some h₁).trans (bind_panic h₂)
    rw [e]

end Verif
