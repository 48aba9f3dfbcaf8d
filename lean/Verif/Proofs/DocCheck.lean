import Verif.Proofs.NotationCheck
import Verif.Props.SelfSyntax
/-
A check that a text without comments stands for a document.
-/
namespace Verif
open Spec

/-- The text at the beginning of an entry: whitespace with a new line in it, if it is not the first. -/
def gapOk (first : Bool) (s : Str) : Bool := first || (s.takeWhile isWs).contains '\n'

theorem skipWs_gap (s : Str) : s = s.takeWhile isWs ++ skipWs s ∧ Space (s.takeWhile isWs) := by
  refine ⟨(List.takeWhile_append_dropWhile).symm, ?_⟩
  intro c hc
  exact List.all_eq_true.1 List.all_takeWhile c hc

/-- The text stands for these nodes, whose numbers are written with these digits. -/
def eatNodes : (first : Bool) → List (Str × F64 × Str × Desc) → Str → Bool
  | _, [], s => s.all isWs
  | first, (digits, k, name, d) :: ns, s =>
    gapOk first s && (selfRules.map fun x => (x.1, x.2.1)).contains (digits, k) &&
      match eatNode digits name d (skipWs s) with
      | some r => eatNodes false ns r
      | none => false

/-- The text stands for these strings and nodes. -/
def eatDoc : (first : Bool) → List (Str × Str) → List (Str × F64 × Str × Desc) → Str → Bool
  | first, [], ns, s => eatNodes first ns s
  | first, (name, text) :: ss, ns, s =>
    gapOk first s &&
      match eatString name text (skipWs s) with
      | some r => eatDoc false ss ns r
      | none => false

variable {L : Lexer}

theorem gapOk_mem {first : Bool} {s : Str} (h : gapOk first s = true) :
    first = false → '\n' ∈ s.takeWhile isWs := by
  rintro rfl
  simpa [gapOk] using h

def nodeEntries (ns : List (Str × F64 × Str × Desc)) : List Entry := ns.map fun x => .node x.2.1 x.2.2.1 x.2.2.2

theorem eatNodes_text (hL : L.Lawful) (hN : Props.ReadsNumbers L) : ∀ (ns : List (Str × F64 × Str × Desc)) (first : Bool)
    (s : Str), eatNodes first ns s = true → EntriesText L first (nodeEntries ns) s
  | [], first, s, h => by simpa [eatNodes, nodeEntries, EntriesText, Space] using h
  | (digits, k, name, d) :: ns, first, s, h => by
    simp only [eatNodes, Bool.and_eq_true] at h
    obtain ⟨⟨h1, h2⟩, h⟩ := h
    split at h
    · rename_i r hr
      have hn : ∀ c rest, isWs c = true → IsNumber L k digits (c :: rest) := by
        rw [List.contains_iff_mem] at h2
        obtain ⟨x, hx, e⟩ := List.mem_map.1 h2
        cases e
        exact hN x hx
      obtain ⟨a, ea, ha⟩ := eatNode_text hL hn hr
      obtain ⟨e, hw⟩ := skipWs_gap s
      refine ⟨_, a, r, hw, gapOk_mem h1, ha r, eatNodes_text hL hN ns false r h, ?_⟩
      rw [← ea, ← e]
    · cases h

def stringEntries (ss : List (Str × Str)) : List Entry := ss.map fun x => .string x.1 x.2

theorem eatDoc_entries (hL : L.Lawful) (hN : Props.ReadsNumbers L) {ns : List (Str × F64 × Str × Desc)} :
    ∀ (ss : List (Str × Str)) (first : Bool) (s : Str), eatDoc first ss ns s = true →
      EntriesText L first (stringEntries ss ++ nodeEntries ns) s
  | [], first, s, h => eatNodes_text hL hN ns first s h
  | (name, text) :: ss, first, s, h => by
    simp only [eatDoc, Bool.and_eq_true] at h
    obtain ⟨h1, h⟩ := h
    split at h
    · rename_i r hr
      obtain ⟨a, ea, ha⟩ := eatString_text hL hr
      obtain ⟨e, hw⟩ := skipWs_gap s
      refine ⟨_, a, r, hw, gapOk_mem h1, ha r, eatDoc_entries hL hN ss false r h, ?_⟩
      rw [← ea, ← e]
    · cases h

theorem stringsIn_entries : ∀ ss, stringsIn (stringEntries ss) = ss
  | [] => rfl
  | (a, b) :: ss => by
    have := stringsIn_entries ss
    simpa [stringEntries, stringsIn] using this

theorem nodesIn_entries : ∀ ns, nodesIn (nodeEntries ns) = ns.map (·.2)
  | [] => rfl
  | (a, b, c, d) :: ns => by
    have := nodesIn_entries ns
    simpa [nodeEntries, nodesIn] using this

/-- The check is sound. -/
theorem eatDoc_text (hL : L.Lawful) (hN : Props.ReadsNumbers L) {ss : List (Str × Str)}
    {ns : List (Str × F64 × Str × Desc)} {text : Str} (h : eatDoc true ss ns text = true) :
    Doc.Text L ⟨ss, ns.map (·.2)⟩ text := by
  refine ⟨stringEntries ss, nodeEntries ns, ?_, ?_, eatDoc_entries hL hN ss true text h, (stringsIn_entries ss).symm,
    (nodesIn_entries ns).symm⟩
  · intro e he
    obtain ⟨x, -, rfl⟩ := List.mem_map.1 he
    rfl
  · intro e he
    obtain ⟨x, -, rfl⟩ := List.mem_map.1 he
    rfl

end Verif
