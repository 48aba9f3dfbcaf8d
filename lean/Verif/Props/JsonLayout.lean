import Verif.Proofs.JsonLayout
import Verif.Props.Json
import Verif.Props.DataSize
/-
C95: the JSON text, line by line, and its length.
-/
namespace Verif.Props
open Spec Spec.Json

/-! ### Layout -/

/-- C95: what `write` writes, if it does not panic, is one line for each item, indented by how deep it lies. -/
theorem C95_layout {fmt : F64 → Str} {data : List Tok} (hlen : data.length < 2 ^ 31) {text : Str} (h : writeJson fmt data = .ok text) :
    text = jsonLayout fmt data := by
  have hc : ∀ p : MetaData → Bool, (data.map (·.data)).countP p < 2 ^ 32 := fun p => by
    have := List.countP_le_length (p := p) (l := data.map (·.data))
    rw [List.length_map] at this
    omega
  have hb : (depth data).natAbs = max ((data.map (·.data)).countP (·.isStart) % 2 ^ 32) ((data.map (·.data)).countP (·.isEnd) % 2 ^ 32) -
      min ((data.map (·.data)).countP (·.isStart) % 2 ^ 32) ((data.map (·.data)).countP (·.isEnd) % 2 ^ 32) := by
    rw [← bal_eq, bal_count, Nat.mod_eq_of_lt (hc _), Nat.mod_eq_of_lt (hc _)]
    omega
  have hw : writeLoop fmt (data.map (·.data)) false true (depth data).natAbs = .ok text := by rw [hb]; exact h
  unfold jsonLayout
  split
  · rename_i e
    subst e
    cases hw
    rfl
  · rename_i hne
    have hpre : ∀ a, a <+: data → 0 ≤ ((depth data).natAbs : Int) + depth a := by
      rcases writeJson_total fmt data hlen with ⟨h', -⟩ | ⟨-, hl⟩
      · rw [h] at h'; cases h'
      · intro a ha
        have := hl a ha
        omega
    rw [(writeLoop_lines fmt _ _ _ _ _ hw).2 rfl rfl (by simpa using hne),
      jsonLinesOf_range fmt data data [] _ rfl (by simp [depth]) hpre]
    simp

/-- C95: data of a parse is written without indentation at the margin: the depth of a line is that of the nodes around it. -/
theorem C95_parsed {L : Lexer} {syn : Syntax} {text : Str} {ind : Indent} {data : List Tok}
    (h : Parses L syn text [] ind (.ok data)) (fmt : F64 → Str) (hlen : data.length < 2 ^ 31) :
    writeJson fmt data = .ok (jsonLayout fmt data) ∧
      ∀ k, (lineDepth data k : Int) = min (depth (data.take k)) (depth (data.take (k + 1))) := by
  obtain ⟨t, ht⟩ := C34_parsed_data h fmt hlen
  obtain ⟨ts, e, hw⟩ := C05_data_well_nested h
  simp at e
  subst e
  refine ⟨by rw [ht, C95_layout hlen ht], fun k => ?_⟩
  have hi := items_iff.2 hw
  have h0 : depth data = 0 := hi.depth
  have h1 := hi.depth_prefix (data.take k) (data.drop k) (List.take_append_drop k data).symm
  have h2 := hi.depth_prefix (data.take (k + 1)) (data.drop (k + 1)) (List.take_append_drop (k + 1) data).symm
  rw [lineDepth, h0]
  omega

/-! ### Length -/

theorem sum_map_add {α : Type} (f g : α → Nat) : ∀ l : List α, (l.map fun x => f x + g x).sum = (l.map f).sum + (l.map g).sum
  | [] => rfl
  | x :: l => by simp only [List.map_cons, List.sum_cons, sum_map_add f g l]; omega

theorem sum_map_le {α : Type} {f g : α → Nat} : ∀ {l : List α}, (∀ x ∈ l, f x ≤ g x) → (l.map f).sum ≤ (l.map g).sum
  | [], _ => Nat.le_refl _
  | x :: l, h => by
    have h1 := h x (by simp)
    have h2 := sum_map_le (l := l) fun y hy => h y (by simp [hy])
    simp only [List.map_cons, List.sum_cons]
    omega

theorem sum_map_one {α : Type} (l : List α) : (l.map fun _ => 1).sum = l.length := by
  induction l with
  | nil => rfl
  | cons x l ih => simp only [List.map_cons, List.sum_cons, ih, List.length_cons]; omega

/-- Lines indented like a triangle. -/
theorem triangle (n : Nat) : 4 * ((List.range n).map fun k => min k (n - 1 - k)).sum ≤ (n - 1) * (n - 1) := by
  induction n using Nat.strongRecOn with
  | _ n ih =>
    match n with
    | 0 => simp
    | 1 => simp
    | n + 2 =>
      have h := ih n (by omega)
      have hr : List.range (n + 2) = 0 :: ((List.range n).map Nat.succ ++ [n + 1]) := by
        rw [List.range_succ_eq_map, List.range_succ]
        simp
      have hm : ((List.range n).map fun k => min (k + 1) (n + 2 - 1 - (k + 1))).sum =
          ((List.range n).map fun k => min k (n - 1 - k) + 1).sum := by
        congr 1
        apply List.map_congr_left
        intro k hk
        have := List.mem_range.1 hk
        omega
      rw [hr]
      simp only [List.map_cons, List.map_append, List.map_map, List.sum_cons, List.sum_append, List.map_nil, List.sum_nil]
      have hcomp : ((fun k => min k (n + 2 - 1 - k)) ∘ Nat.succ) = fun k => min (k + 1) (n + 2 - 1 - (k + 1)) := rfl
      rw [hcomp, hm, sum_map_add]
      rw [sum_map_one, List.length_range]
      have h3 : n + 2 - 1 = n + 1 := rfl
      rw [h3]
      cases n with
      | zero => simp
      | succ m =>
        simp only [Nat.add_sub_cancel] at h ⊢
        have e1 : (m + 1 + 1) * (m + 1 + 1) = m * m + 4 * m + 4 := by
          simp only [Nat.add_mul, Nat.mul_add]; omega
        omega

theorem length_flatMap_range (f : Nat → Str) (n : Nat) :
    ((List.range n).flatMap f).length = ((List.range n).map fun k => (f k).length).sum := by
  rw [List.length_flatMap]

/-- The characters of an item. -/
def itemLength (fmt : F64 → Str) (data : List Tok) (k : Nat) : Nat :=
  (((data[k]?).map fun t => itemText fmt t.data).getD []).length

/-- C95: the length of the text: items, indentation, commas, ends of lines. -/
theorem C95_length (fmt : F64 → Str) {data : List Tok} (hne : data ≠ []) :
    (jsonLayout fmt data).length = ((List.range data.length).map (itemLength fmt data)).sum +
      ((List.range data.length).map (lineDepth data)).sum +
      ((List.range data.length).map fun k => (lineComma data k).length).sum + data.length := by
  rw [jsonLayout, if_neg hne, length_flatMap_range]
  have : (fun k => (jsonLine fmt data k).length) =
      fun k => ((itemLength fmt data k + lineDepth data k) + (lineComma data k).length) + 1 := by
    funext k
    simp only [jsonLine, itemLength, List.length_append, List.length_replicate, List.length_cons, List.length_nil]
    omega
  rw [this, sum_map_add, sum_map_add, sum_map_add, sum_map_one, List.length_range]

theorem depth_le (a : List Tok) : depth a ≤ a.length ∧ -(a.length : Int) ≤ depth a := by
  induction a with
  | nil => simp [depth]
  | cons t a ih =>
    obtain ⟨r, d⟩ := t
    cases d <;> simp [depth] <;> omega

theorem depth_concat (a b : List Tok) : depth (a ++ b) = depth a + depth b := by
  rw [← bal_eq, ← bal_eq, ← bal_eq, bal_count, bal_count, bal_count]
  simp
  omega

/-- The indentation of a line is bounded by its distance from both ends. -/
theorem lineDepth_le {data : List Tok} (h0 : depth data = 0) {k : Nat} (hk : k < data.length) :
    lineDepth data k ≤ min k (data.length - 1 - k) := by
  have h1 := (depth_le (data.take k)).1
  have h2 : depth (data.take (k + 1)) + depth (data.drop (k + 1)) = 0 := by
    rw [← depth_concat, List.take_append_drop, h0]
  have h3 := (depth_le (data.drop (k + 1))).2
  rw [List.length_take] at h1
  rw [List.length_drop] at h3
  rw [lineDepth, h0]
  omega

/-- C95: the spaces of indentation: at most a quarter of the square of the number of items. -/
theorem C95_indentation {data : List Tok} (h0 : depth data = 0) :
    4 * ((List.range data.length).map (lineDepth data)).sum ≤ (data.length - 1) * (data.length - 1) := by
  have h1 := sum_map_le (l := List.range data.length) (f := lineDepth data) (g := fun k => min k (data.length - 1 - k))
    fun k hk => lineDepth_le h0 (List.mem_range.1 hk)
  have h2 := triangle data.length
  omega

theorem lineComma_le (data : List Tok) (k : Nat) : (lineComma data k).length ≤ 1 := by
  unfold lineComma
  split <;> simp

/-- C95: the length of the text is at most that of the items, two characters for each, and the indentation. -/
theorem C95_bound (fmt : F64 → Str) {data : List Tok} (h0 : depth data = 0) (hne : data ≠ []) :
    4 * (jsonLayout fmt data).length ≤ 4 * ((List.range data.length).map (itemLength fmt data)).sum +
      (data.length - 1) * (data.length - 1) + 8 * data.length := by
  rw [C95_length fmt hne]
  have h1 := C95_indentation h0
  have h2 := sum_map_le (l := List.range data.length) (f := fun k => (lineComma data k).length) (g := fun _ => 1)
    fun k _ => lineComma_le data k
  rw [sum_map_one, List.length_range] at h2
  omega

/-! ### Nodes in each other -/

/-- Parentheses: `0 p = ["(" ?p:"" ")"]`. -/
def parens : Syntax :=
  ⟨[.sequence [.tag c!"(" false false none 0, .optional (.node c!"p" (some []) (some 0) 0) 0, .tag c!")" false false none 0] 0], [c!"p"]⟩

/-- `k` nodes without a name, in each other. -/
def nest : Nat → List MetaData
  | 0 => []
  | k + 1 => .startNode [] :: (nest k ++ [.endNode []])

theorem nest_length (k : Nat) : (nest k).length = 2 * k := by
  induction k with
  | zero => rfl
  | succ k ih => simp [nest, ih]; omega

theorem jsonLinesOf_nest (fmt : F64 → Str) : ∀ (k n : Nat) (post : List MetaData), (∀ e, post.head? = some e → e.isEnd = true) →
    (jsonLinesOf fmt (nest k ++ post) n).length = k * k + 6 * k + 2 * n * k + (jsonLinesOf fmt post n).length
  | 0, n, post, _ => by simp [nest]
  | k + 1, n, post, hp => by
    have ih := jsonLinesOf_nest fmt k (n + 1) (.endNode [] :: post) (by simp [MetaData.isEnd])
    have e : nest (k + 1) ++ post = .startNode [] :: (nest k ++ .endNode [] :: post) := by simp [nest]
    have hc : commaOf (.endNode []) post = [] := by
      unfold commaOf
      cases post with
      | nil => simp [MetaData.isStart]
      | cons a es => simp [MetaData.isStart, hp a rfl]
    have e2 : (jsonLinesOf fmt (.endNode [] :: post) (n + 1)).length = n + 2 + (jsonLinesOf fmt post n).length := by
      simp [jsonLinesOf, MetaData.isStart, MetaData.isEnd, hc, writeItem]
      omega
    have e3 : (jsonLinesOf fmt (.startNode [] :: (nest k ++ .endNode [] :: post)) n).length =
        n + 5 + (jsonLinesOf fmt (nest k ++ .endNode [] :: post) (n + 1)).length := by
      simp [jsonLinesOf, MetaData.isStart, MetaData.isEnd, commaOf, writeItem, writeString]
      omega
    rw [e, e3, ih, e2]
    simp only [Nat.add_mul, Nat.mul_add]
    omega

theorem parens_run {L : Lexer} {ind : Indent} : ∀ (k : Nat) (p : Pos) (i : Nat) (rest : Str),
    p.src = List.replicate (k + 1) '(' ++ (List.replicate (k + 1) ')' ++ rest) →
    ∃ ts tr, Run (envOf L parens.rules ind) (.rule (.sequence [.tag c!"(" false false none 0,
      .optional (.node c!"p" (some []) (some 0) 0) 0, .tag c!")" false false none 0] 0)) p i (some (2 * k + 2, ts)) i tr ∧
      ts.map (·.data) = nest k := by
  intro k
  induction k with
  | zero =>
    intro p i rest hp
    have h1 : Run (envOf L parens.rules ind) (.rule (.tag c!"(" false false none 0)) p i (some (1, [])) i [] :=
      .tag_ok (by rw [hp]; exact ⟨_, rfl⟩)
    have hf : Run (envOf L parens.rules ind) (.rule (.sequence [.tag c!"(" false false none 0,
      .optional (.node c!"p" (some []) (some 0) 0) 0, .tag c!")" false false none 0] 0)) (adv p 1) i none i _ :=
      .sequence (.seq_fail (.tag_fail (by simp [adv, hp])))
    have h2 : Run (envOf L parens.rules ind) (.rule (.optional (.node c!"p" (some []) (some 0) 0) 0)) (adv p 1) i (some (0, [])) i _ :=
      .optional_none (.node_fail rfl hf)
    have h3 : Run (envOf L parens.rules ind) (.rule (.tag c!")" false false none 0)) (adv (adv p 1) 0) i (some (1, [])) i [] :=
      .tag_ok (by simp [adv, hp])
    exact ⟨[], _, .sequence (.seq_cons h1 (.seq_cons h2 (.seq_cons h3 .seq_nil))), rfl⟩
  | succ k ih =>
    intro p i rest hp
    have h1 : Run (envOf L parens.rules ind) (.rule (.tag c!"(" false false none 0)) p i (some (1, [])) i [] :=
      .tag_ok (by rw [hp]; exact ⟨_, rfl⟩)
    have hs : (adv p 1).src = List.replicate (k + 1) '(' ++ (List.replicate (k + 1) ')' ++ (')' :: rest)) := by
      simp only [adv, hp]
      rw [List.replicate_succ (n := k + 1), List.replicate_succ' (n := k + 1)]
      simp
    obtain ⟨ts, tr, h, hd⟩ := ih (adv p 1) i (')' :: rest) hs
    have h2 : Run (envOf L parens.rules ind) (.rule (.optional (.node c!"p" (some []) (some 0) 0) 0)) (adv p 1) i
        (some (2 * k + 2, wrapped (some []) (adv p 1).off (2 * k + 2) ts)) i tr := .optional_some (.node_ok rfl h)
    have h3 : Run (envOf L parens.rules ind) (.rule (.tag c!")" false false none 0)) (adv (adv p 1) (2 * k + 2)) i (some (1, [])) i [] := by
      refine .tag_ok ?_
      have : (adv (adv p 1) (2 * k + 2)).src = ')' :: rest := by
        show (adv p 1).src.drop (2 * k + 2) = _
        rw [hs, ← List.append_assoc, List.drop_append_of_le_length (by simp; omega), List.drop_of_length_le (by simp; omega)]
        rfl
      rw [this]
      exact ⟨_, rfl⟩
    have hr := Run.sequence (id := 0) (Run.seq_cons h1 (Run.seq_cons h2 (Run.seq_cons h3 .seq_nil)))
    have e : 2 * (k + 1) + 2 = 1 + (2 * k + 2 + (1 + 0)) := by omega
    rw [e]
    exact ⟨_, _, hr, by simp [wrapped, hd, nest]⟩

/-- C95: the length may be quadratic in that of the text: `k + 1` pairs of parentheses in each other make `2 * k` items of data
and `k * k + 6 * k` characters of JSON. -/
theorem C95_quadratic {L : Lexer} (hL : L.Lawful) (ind : Indent) (fmt : F64 → Str) {k : Nat} (hk : 0 < k) (hlen : 2 * k < 2 ^ 31) :
    ∃ data json, Parses L parens (List.replicate (k + 1) '(' ++ List.replicate (k + 1) ')') [] ind (.ok data) ∧
      data.length = 2 * k ∧ writeJson fmt data = .ok json ∧ json.length = k * k + 6 * k := by
  obtain ⟨ts, tr, h, hd⟩ := parens_run (L := L) (ind := ind) k ⟨List.replicate (k + 1) '(' ++ List.replicate (k + 1) ')', 0⟩
    ind.indent [] (by simp)
  have hp : Parses L parens (List.replicate (k + 1) '(' ++ List.replicate (k + 1) ')') [] ind (.ok ts) := by
    refine (C04_ok_iff_meaning hL).2 ⟨ts, ⟨_, ind.indent, tr, rfl, ?_⟩, rfl⟩
    have e : (List.replicate (k + 1) '(' ++ List.replicate (k + 1) ')').length = 2 * k + 2 := by simp; omega
    rw [e]
    exact h
  have hl : ts.length = 2 * k := by
    rw [← List.length_map (f := fun t : Tok => t.data), hd, nest_length]
  obtain ⟨json, hj⟩ := C34_parsed_data hp fmt (by omega)
  refine ⟨ts, json, hp, hl, hj, ?_⟩
  have hb : ∀ k, (nest k).countP (·.isStart) = k ∧ (nest k).countP (·.isEnd) = k := by
    intro k
    induction k with
    | zero => exact ⟨rfl, rfl⟩
    | succ k ih =>
      rw [nest, List.countP_cons, List.countP_cons, List.countP_append, List.countP_append, ih.1, ih.2]
      exact ⟨rfl, rfl⟩
  have hw : writeLoop fmt (nest k) false true 0 = .ok json := by
    have := hj
    simp only [writeJson, hd, (hb k).1, (hb k).2, Nat.max_self, Nat.min_self, Nat.sub_self] at this
    exact this
  rw [(writeLoop_lines fmt _ _ _ _ _ hw).2 rfl rfl (by cases k with | zero => omega | succ k => simp [nest])]
  have := jsonLinesOf_nest fmt k 0 [] (by simp)
  simpa [jsonLinesOf] using this

/-- A text and its layout. -/
example (r : Range) : jsonLayout (fun _ => c!"1") [⟨r, .startNode c!"a"⟩, ⟨r, .bool c!"b" true⟩, ⟨r, .string c!"c" c!"d\"\n"⟩,
    ⟨r, .endNode c!"a"⟩, ⟨r, .f64 c!"e" ⟨0⟩⟩] = c!"\"a\":{\n \"b\":true,\n \"c\":\"d\\\"\\n\"\n},\n\"e\":1\n" := by
  rfl

end Verif.Props
