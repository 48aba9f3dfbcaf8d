import Verif.Proofs.ConvertCost
import Verif.Proofs.ConvertCalls
import Verif.Props.ConvertTree
import Verif.Props.Notation
import Verif.Props.Sayable
import Verif.Spec.SelfDoc
/-
C96: how long it takes to convert meta data to rules.
-/
namespace Verif.Props
open Verif Verif.Spec

/-! ### The numbers change nothing -/

/-- C96: `convert` with the number is `convert`. -/
theorem C96_counts (n : Nat) (data : List Tok) (ignored : List Range) :
    (do let (r, ignored', _) ← Counted.convert n data ignored; return (r, ignored')) = convert n data ignored := by
  have h := (counts_convertM n data).eq ⟨0, ignored⟩
  unfold convert Counted.convert
  simp only [Bind.bind, Comp.bind] at h ⊢
  rw [← h]
  cases Counted.convertM n data ⟨0, ignored⟩ <;> rfl

/-- There is a number whenever `convert` returns. -/
theorem C96_defined {data : List Tok} {ignored ignored' : List Range} {r : Option Syntax} :
    Converts data ignored r ignored' ↔ ∃ k, ConvertsIn data ignored r ignored' k := by
  constructor
  · rintro ⟨n, h⟩
    have hc := C96_counts n data ignored
    rw [h] at hc
    simp only [Bind.bind, Comp.bind, Pure.pure] at hc
    cases hk : Counted.convert n data ignored with
    | panic => rw [hk] at hc; cases hc
    | timeout => rw [hk] at hc; cases hc
    | ok x =>
      obtain ⟨r', l, k⟩ := x
      rw [hk] at hc
      cases hc
      exact ⟨k, n, hk⟩
  · rintro ⟨k, n, h⟩
    refine ⟨n, ?_⟩
    rw [← C96_counts, h]
    rfl

/-! ### Bounds -/

/-- C96: on data with at most `d` items one inside the other and `m` nodes called `string`, the number is between what is ignored
and 20 + `m` for each item plus what is ignored; and of each item at most `d` times its length is ignored. -/
theorem C96_bound {data : List Tok} {d : Nat} (hd : NestedTo d data) {ignored ignored' : List Range} {r : Option Syntax} {k : Nat}
    (h : ConvertsIn data ignored r ignored' k) :
    ∃ l, ignored' = ignored ++ l ∧ totalLength l ≤ k ∧
      k ≤ (stringNodes data + 20) * data.length + 3 + totalLength l ∧ totalLength l ≤ data.length * d := by
  obtain ⟨n, h⟩ := h
  unfold Counted.convert at h
  cases hm : Counted.convertM n data ⟨0, ignored⟩ with
  | panic => rw [hm] at h; cases h
  | timeout => rw [hm] at h; cases h
  | ok x =>
    obtain ⟨r', st, k'⟩ := x
    rw [hm] at h
    cases h
    obtain ⟨l, h1, h2, h3, h4⟩ := spends_convertM n hd _ _ _ _ hm
    exact ⟨l, h1, h2, h4, h3⟩

/-- Every well nested list has a depth. -/
theorem C96_depth {data : List Tok} (h : WellNested (data.map (·.data))) : NestedTo data.length data :=
  (items_iff.2 h).nestedTo

/-- C96: if nothing is ignored, the number is at most 20 plus the number of strings for each item. -/
theorem C96_linear {data : List Tok} (hw : WellNested (data.map (·.data))) {ignored : List Range} {r : Option Syntax} {k : Nat}
    (h : ConvertsIn data ignored r ignored k) : k ≤ (stringNodes data + 20) * data.length + 3 := by
  obtain ⟨l, h1, h2, h3, h4⟩ := C96_bound (C96_depth hw) h
  obtain rfl : l = [] := by simpa using h1
  simpa [totalLength] using h3

/-- C96: never more than quadratic. -/
theorem C96_quadratic {data : List Tok} (hw : WellNested (data.map (·.data))) {ignored ignored' : List Range} {r : Option Syntax}
    {k : Nat} (h : ConvertsIn data ignored r ignored' k) : k ≤ 2 * data.length ^ 2 + 20 * data.length + 3 := by
  obtain ⟨l, h1, h2, h3, h4⟩ := C96_bound (C96_depth hw) h
  have hs : stringNodes data ≤ data.length := List.countP_le_length
  have := Nat.mul_le_mul_right data.length hs
  rw [Nat.add_mul] at h3
  rw [Nat.pow_two]
  omega

/-- C96: in particular on what `parse` makes, whatever the rules. -/
theorem C96_parsed {L : Lexer} {syn : Syntax} {text : Str} {ind : Indent} {data : List Tok}
    (hp : Parses L syn text [] ind (.ok data)) {ignored ignored' : List Range} {r : Option Syntax} {k : Nat}
    (h : ConvertsIn data ignored r ignored' k) : k ≤ 2 * data.length ^ 2 + 20 * data.length + 3 := by
  obtain ⟨ts, rfl, hw⟩ := C05_data_well_nested hp
  exact C96_quadratic hw h

/-! ### A rule file that takes quadratic time -/

/-- `.r?(.r?(… _x …))`, with a string `x`. -/
def again : Nat → Desc
  | 0 => .tag none (.ref c!"x") none none
  | k + 1 => .repeat_ true (again k)

/-- Its text. -/
def againText : Nat → Str
  | 0 => c!"_x"
  | k + 1 => c!".r?(" ++ (againText k ++ c!")")

theorem again_text (L : Lexer) (k : Nat) : (again k).Text L (againText k) := by
  induction k with
  | zero => exact ⟨[], c!"_x", rfl, ⟨by decide, rfl⟩, rfl, rfl⟩
  | succ k ih => exact ⟨againText k, ih, rfl⟩

theorem againText_length (k : Nat) : (againText k).length = 5 * k + 2 := by
  induction k with
  | zero => rfl
  | succ k ih => simp [againText, ih]; omega

/-- One node, `0 a = [.r?(.r?(… _x …))]`. -/
def againDoc (k : Nat) : Doc := ⟨[], [(⟨0⟩, c!"a", .sequence [again k])]⟩
/-- Its text. -/
def againFile (k : Nat) : Str := c!"0 a = [" ++ (againText k ++ c!"]")

theorem againFile_text {L : Lexer} (hz : ReadsZero L) (k : Nat) : (againDoc k).Text L (againFile k) := by
  refine ⟨[], [.node ⟨0⟩ c!"a" (.sequence [again k])], by simp, by simp [Entry.isString], ?_, rfl, rfl⟩
  refine ⟨[], againFile k, [], by decide, by simp, ?_, by simp [EntriesText, Space], by simp⟩
  refine ⟨c!"0", c!" ", c!" ", c!" ", '[' :: (againText k ++ [']']), hz _ _ (by decide), by decide, by decide, by decide, by decide,
    by decide, by decide, by decide, ⟨by simp, againText k, ?_, rfl⟩, by simp [againFile]⟩
  exact ⟨[], againText k, [], by decide, again_text L k, by simp [Desc.TextL, Space], by simp, by simp⟩

/-- The same as trees. -/
def againPiece : Nat → Piece
  | 0 => .node c!"tag" [.node c!"text" [.string c!"ref" c!"x"]]
  | k + 1 => .node c!"repeat" [.bool c!"optional" true, .node c!"rule" [againPiece k]]

theorem againPiece_data (k : Nat) : (againPiece k).data = (again k).data := by
  induction k with
  | zero => rfl
  | succ k ih => simp [againPiece, again, Desc.data, Piece.data, Piece.dataL, ih]

theorem againPiece_size (k : Nat) : (againPiece k).size = 5 * k + 5 := by
  induction k with
  | zero => rfl
  | succ k ih =>
    simp only [Piece.size] at ih
    simp [againPiece, Piece.size, Piece.data, Piece.dataL, nodeOf, ih]
    omega

/-- What is ignored of it. -/
def againIgnored : (k off : Nat) → List Range
  | 0, off => [⟨off + 1, 3⟩]
  | k + 1, off => againIgnored k (off + 3) ++ [⟨off + 2, 5 * k + 7⟩]

theorem again_rule (k : Nat) : ∀ off i, (againPiece k).rule [] off i = (none, i, againIgnored k off) := by
  induction k with
  | zero => intro off i; rfl
  | succ k ih =>
    intro off i
    have hs : (Piece.node c!"rule" [againPiece k]).size = 5 * k + 7 := by
      have := againPiece_size k
      simp only [Piece.size] at this
      simp [Piece.size, Piece.data, Piece.dataL, nodeOf, this]
    have h1 : (Piece.node c!"rule" [againPiece k]).held [] [c!"rule"] (off + 2) i = (none, i, againIgnored k (off + 3)) := by
      simp [Piece.held, Piece.single, ih]
    have hx : Piece.parts [] [c!"rule"] repeatField [.bool c!"optional" true, .node c!"rule" [againPiece k]] (off + 1) i =
        ([], i, againIgnored (k + 1) off) := by
      rw [Piece.parts, if_pos (by decide), Piece.parts, if_neg (by simp [repeatField, Piece.bool?]), show off + 1 + (Piece.bool c!"optional" true).size = off + 2 from rfl]
      simp only [h1, hs, Piece.parts, againIgnored]
    rw [againPiece, Piece.rule]
    simp only [hx]
    rfl

theorem againIgnored_total (k : Nat) : ∀ off, 2 * totalLength (againIgnored k off) = 5 * k ^ 2 + 9 * k + 6 := by
  induction k with
  | zero => intro off; rfl
  | succ k ih =>
    intro off
    have := ih (off + 3)
    simp only [totalLength, againIgnored, List.map_append, List.sum_append, List.map_cons, List.map_nil, List.sum_cons, List.sum_nil] at this ⊢
    rw [Nat.pow_succ] at *
    simp only [Nat.pow_one, Nat.mul_add, Nat.add_mul] at *
    omega


/-- The whole file as trees. -/
def againPieces (k : Nat) : List Piece :=
  [.node c!"node" [.f64 c!"id" ⟨0⟩, .string c!"name" c!"a", .node c!"rule" [.node c!"sequence" [.node c!"rule" [againPiece k]]]]]

theorem againPieces_data (k : Nat) : Piece.dataL (againPieces k) = (againDoc k).data := by
  simp [againPieces, againDoc, Doc.data, Piece.data, Piece.dataL, Desc.data, Desc.dataL, againPiece_data]

theorem againDoc_length (k : Nat) : (againDoc k).data.length = 5 * k + 15 := by
  have := againPiece_size k
  rw [Piece.size, againPiece_data] at this
  simp [againDoc, Doc.data, Desc.data, Desc.dataL, nodeOf, this]

theorem again_reads (k : Nat) :
    pieceReads (againPieces k) = (some [(c!"a", .sequence [] 1)], 1, againIgnored k 6 ++ [⟨5, 5 * k + 7⟩]) := by
  have hz : (⟨0⟩ : F64).toUsize = 0 := by decide +kernel
  have hs : (Piece.node c!"rule" [againPiece k]).size = 5 * k + 7 := by
    have := againPiece_size k
    simp only [Piece.size] at this
    simp [Piece.size, Piece.data, Piece.dataL, nodeOf, this]
  have h1 : (Piece.node c!"rule" [againPiece k]).held [] [c!"rule"] 5 0 = (none, 0, againIgnored k 6) := by
    simp [Piece.held, Piece.single, again_rule]
  have h2 : Piece.parts [] [c!"rule"] (fun _ => false) [.node c!"rule" [againPiece k]] 5 0 =
      ([], 0, againIgnored k 6 ++ [⟨5, 5 * k + 7⟩]) := by
    rw [Piece.parts, if_neg (by simp)]
    simp only [h1, hs, Piece.parts]
  have h3 : (Piece.node c!"sequence" [.node c!"rule" [againPiece k]]).rule [] 4 0 =
      (some (.sequence [] 1), 1, againIgnored k 6 ++ [⟨5, 5 * k + 7⟩]) := by
    rw [Piece.rule]
    · simp only [h2]
      rfl
    · intro q v h
      cases h
  have h4 : (Piece.node c!"rule" [.node c!"sequence" [.node c!"rule" [againPiece k]]]).held [] [c!"rule"] 3 0 =
      (some (.sequence [] 1), 1, againIgnored k 6 ++ [⟨5, 5 * k + 7⟩]) := by
    simp [Piece.held, Piece.single, h3]
  have h5 : ∀ v : F64, v.toUsize = 0 → Piece.nodeRead [] (.node c!"node" [.f64 c!"id" v, .string c!"name" c!"a",
      .node c!"rule" [.node c!"sequence" [.node c!"rule" [againPiece k]]]]) 0 =
      ⟨some 0, some c!"a", some (.sequence [] 1), 1, againIgnored k 6 ++ [⟨5, 5 * k + 7⟩]⟩ := by
    intro v hv
    rw [Piece.nodeRead, if_pos rfl]
    simp [NodeRead.addAll, NodeRead.add, Piece.f64?, Piece.string?, hv, Piece.size, Piece.data, h4]
  have h6 : (againPieces k).takeWhile (·.stringDef.isSome) = [] := by
    simp [againPieces, Piece.stringDef]
  have h7 : (againPieces k).dropWhile (·.stringDef.isSome) = againPieces k := by
    simp [againPieces, Piece.stringDef]
  rw [pieceReads, stringDefs, h6, h7, againPieces]
  have h8 := h5 ⟨0⟩ hz
  generalize (⟨0⟩ : F64) = v at h8
  simp [nodeReads, Piece.dataL, h8, NodeRead.named]

theorem again_read (k : Nat) : ∀ i, ∃ m, (again k).read [] i = (none, i, m) := by
  induction k with
  | zero => exact fun i => ⟨_, rfl⟩
  | succ k ih =>
    intro i
    obtain ⟨m, h⟩ := ih i
    exact ⟨_, by rw [again, Desc.read, h]; rfl⟩

theorem again_doc (k : Nat) : ((Desc.sequence [again k]).read [] ((⟨0⟩ : F64).toUsize * 1000)).1 = some (.sequence [] 1) ∧
    ((Desc.sequence [again k]).read [] ((⟨0⟩ : F64).toUsize * 1000)).2.1 = 1 := by
  have hz : (⟨0⟩ : F64).toUsize * 1000 = 0 := by decide +kernel
  obtain ⟨m, h⟩ := again_read k 0
  rw [hz, Desc.read, Desc.readL, h]
  exact ⟨rfl, rfl⟩

/-- C96: the rule file `0 a = [.r?(.r?(… _x …))]`, in which no string is defined, is accepted, and the time to convert it is
quadratic: every `.r?` ignores what is in it, and is ignored itself. -/
theorem C96_worst {L : Lexer} (hL : L.Lawful) (hX : L.Exact) (hz : ReadsZero L) (k : Nat) :
    (againFile k).length = 5 * k + 10 ∧ SyntaxReturns L (againFile k) (.ok ⟨[.sequence [] 1], [c!"a"]⟩) ∧
    ∃ data, Parses L bootstrapRules (againFile k) [] Indent.default (.ok data) ∧ data.length = 5 * k + 15 ∧
      ∃ r l j, ConvertsIn data [] r l j ∧ 5 * k ^ 2 + 19 * k + 20 ≤ 2 * j := by
  have ht := againFile_text (L := L) hz k
  obtain ⟨data, hp, hd⟩ := text_writes hL (exact_noSlash hX) ht
  refine ⟨by simp [againFile, againText_length], ?_, data, hp, ?_, ?_⟩
  · refine (C53_returns_iff hL hX _).2 ⟨_, [(c!"a", .sequence [] 1)], ht, ?_, ?_, 5, rfl⟩
    · rintro (h | ⟨_, h⟩)
      · rw [show (againDoc k).strings = [] from rfl, (again_doc k).2] at h
        exact absurd h (by decide)
      · exact h
    · show (Doc.read [] [(⟨0⟩, c!"a", .sequence [again k])]).1 = _
      simp only [Doc.read, (again_doc k).1]
      rfl
  · have := congrArg List.length hd
    simpa [againDoc_length] using this
  · rw [← againPieces_data] at hd
    have h := (C73_reads hd []).1 (by rw [again_reads]; exact (by decide : 1 < 2 ^ 64))
    obtain ⟨j, h⟩ := C96_defined.1 h
    refine ⟨_, _, j, h, ?_⟩
    obtain ⟨l, e, h1, -⟩ := C96_bound (C96_depth (by rw [hd]; exact wellNested_dataL _)) h
    rw [again_reads, List.nil_append, List.nil_append] at e
    subst e
    have := againIgnored_total k 6
    simp only [totalLength, List.map_append, List.sum_append, List.map_cons, List.map_nil, List.sum_cons, List.sum_nil] at this h1
    omega

/-! ### Examples -/

/-- `a = "b"`, five items one inside the other. -/
def plainData : List Tok :=
  toks [.startNode c!"node", .f64 c!"id" ⟨0⟩, .string c!"name" c!"a", .startNode c!"rule", .startNode c!"tag", .startNode c!"text",
    .string c!"value" c!"b", .endNode c!"text", .endNode c!"tag", .endNode c!"rule", .endNode c!"node"]

/-- Whether there is a result, what is ignored, and the number. -/
def costOf (data : List Tok) : Option (Bool × List Range × Nat) :=
  match Counted.convert (data.length + 1) data [] with
  | .ok (r, l, k) => some (r.isSome, l, k)
  | _ => none

example : costOf plainData = some (true, [], 45) := by decide +kernel
example : costOf (toks (againDoc 0).data) = some (true, [⟨7, 3⟩, ⟨5, 7⟩], 76) := by decide +kernel
example : costOf (toks (againDoc 1).data) = some (true, [⟨10, 3⟩, ⟨8, 7⟩, ⟨5, 12⟩], 115) := by decide +kernel
example : (costOf (toks (againDoc 20).data)).map (·.2.2) = some 1806 := by decide +kernel

/-- The description of the language in itself has 1252 items: 5125. -/
example : (toks selfDoc.data).length = 1252 ∧ costOf (toks selfDoc.data) = some (true, [], 5125) := by decide +kernel

/-- One of each kind that is not in there. -/
def others : Doc := ⟨[(c!"s", c!"t"), (c!"p", c!"q")], [(⟨0⟩, c!"a", .sequence [
    .not (.reference c!"b" (some (.ref c!"p"))), .lines (some true) (.number (some true) (some (.value c!"x"))), .lines none (.text none none),
    .untilAny (.ref c!"s") (some true) (some (.ref c!"z")), .untilAnyOrWs (.ref c!"p") none none,
    .optional (.tag (some true) (.ref c!"p") (some true) (some (.ref c!"s"))),
    .separatedBy (some false) (some true) (.not (.select [])) (.repeat_ true (.number none (some (.ref c!"z"))))])]⟩

example : (toks others.data).length = 109 ∧ costOf (toks others.data) = some (true, [⟨52, 3⟩, ⟨97, 3⟩], 507) := by decide +kernel

example : againFile 2 = c!"0 a = [.r?(.r?(_x))]" := by decide

example : ∃ data, Parses stdLexer bootstrapRules (againFile 1000) [] Indent.default (.ok data) ∧ data.length = 5015 ∧
    ∃ r l j, ConvertsIn data [] r l j ∧ 2509510 ≤ j := by
  obtain ⟨-, -, data, h1, h2, r, l, j, h3, h4⟩ := C96_worst stdLexer_lawful stdLexer_exact std_readsZero 1000
  exact ⟨data, h1, h2, r, l, j, h3, by omega⟩

end Verif.Props
