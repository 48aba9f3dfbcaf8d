import Verif.Proofs.RefsSize
import Verif.Proofs.ConvertCalls
import Verif.Proofs.ConvertFuel
/-
`convert` up to the call of `update_refs`.
-/
namespace Verif
open Spec CM Convert

/-- `convert` up to the call of `update_refs`. -/
def rawM (n : Nat) (data : List Tok) : CM Syntax := do
  let (c, strings) ← Convert.stringsLoop n n (.new data) []
  Convert.nodesLoop strings n n c .new

theorem counts_rawM (n : Nat) (data : List Tok) : CountsFor (Counted.rawM n data) (rawM n data) :=
  (counts_stringsLoop n n _ _).bind fun _ => counts_nodesLoop n n _ _

theorem fle_rawM {n m : Nat} (h : n ≤ m) (data : List Tok) : FLe (rawM n data) (rawM m data) :=
  (fle_stringsLoop h h _ _).bind fun _ => fle_nodesLoop h h _ _

theorem rawM_same {data data' : List Tok} (h : data.map (·.data) = data'.map (·.data)) (n : Nat) :
    rawM n data = rawM n data' := by
  refine CSim.eq ?_
  simp only [rawM]
  refine (csim_stringsLoop n n [] (c := .new data) (c' := .new data') ⟨rfl, h⟩).bind ?_
  rintro ⟨c, s⟩ ⟨c', s'⟩ ⟨h₁, e⟩
  cases e
  exact same_nodesLoop s n n _ h₁

theorem convertM_raw (n : Nat) (data : List Tok) : convertM n data = rawM n data >>= fun s => Pure.pure s.updateRefs := by
  funext st
  simp only [convertM, rawM, Bind.bind, CM.bind]
  cases Convert.stringsLoop n n (.new data) [] st with
  | panic => rfl
  | timeout => rfl
  | ok x =>
    obtain ⟨r, st'⟩ := x
    cases r with
    | none => rfl
    | some r => rfl

theorem counted_raw (n : Nat) (data : List Tok) :
    Counted.convertM n data = Counted.rawM n data >>= fun s => Pure.pure s.updateRefs := by
  funext st
  simp only [Counted.convertM, Counted.rawM, Bind.bind, CCM.bind]
  cases Counted.stringsLoop n n (.new data) [] st with
  | panic => rfl
  | timeout => rfl
  | ok x =>
    obtain ⟨r, st', k⟩ := x
    cases r with
    | none => rfl
    | some r =>
      simp only
      cases Counted.nodesLoop r.2 n n r.1 Syntax.new st' with
      | panic => rfl
      | timeout => rfl
      | ok y =>
        obtain ⟨r', st'', k'⟩ := y
        cases r' <;> simp [Pure.pure, CCM.pure]

theorem raw_doc {doc : Doc} {data : List Tok} (hd : data.map (·.data) = doc.data) (ho : ¬ doc.Overflows) (ig : List Range) :
    ∃ n st, rawM n data ⟨0, ig⟩ = .ok ((Doc.read doc.strings doc.nodes).1.map fun rs => ⟨rs.map (·.2), rs.map (·.1)⟩, st) := by
  refine ⟨doc.data.length + doc.strings.length + doc.nodes.length + 3, ?_⟩
  rw [rawM_same (data' := toks doc.data) (by rw [hd]; simp [toks, Function.comp_def])]
  generalize hn : doc.data.length + doc.strings.length + doc.nodes.length + 3 = n
  have hl : (doc.nodes.flatMap nodeData).length ≤ doc.data.length := by
    simp only [Doc.data, List.length_append]
    exact Nat.le_add_left _ _
  have h₀ : ∀ off st, readString n ⟨toks (doc.nodes.flatMap nodeData), off⟩ st = .ok (none, st) := by
    intro off st
    cases hn : doc.nodes with
    | nil => rfl
    | cons x xs =>
      simp only [List.flatMap_cons, toks_append]
      exact (skips_readString (by show c!"node" ≠ c!"string"; decide)).eq _ off st
  have h₁ := strings_eq (n := n) (by omega) doc.strings n [] (toks (doc.nodes.flatMap nodeData)) 0 0 ig
    (by omega) (by omega) h₀
  have h₂ := nodes_eq (strings := doc.strings) (n := n) doc.nodes n .new
    (0 + (doc.strings.flatMap stringData).length) 0 ig (by omega) (by omega) (by omega)
  obtain ⟨i', l, -, h₂⟩ := h₂.1 ho
  refine ⟨⟨i', ig ++ l⟩, ?_⟩
  simp only [rawM, Convert.new]
  refine (bind_some (a := (⟨toks (doc.nodes.flatMap nodeData), _⟩, [] ++ doc.strings)) (st' := ⟨0, ig⟩)
    (Eq.trans ?_ h₁)).trans ?_
  · rw [← toks_append]; rfl
  · refine h₂.trans ?_
    congr 3
    funext rs
    rw [foldl_push]
    simp [Syntax.new]

/-- What `update_refs` is called on for a document. -/
theorem raw_doc_iff {doc : Doc} {data : List Tok} (hd : data.map (·.data) = doc.data) (ho : ¬ doc.Overflows) {ig : List Range}
    {n : Nat} {r : Option Syntax} {st : CSt} (h : rawM n data ⟨0, ig⟩ = .ok (r, st)) :
    r = (Doc.read doc.strings doc.nodes).1.map fun rs => ⟨rs.map (·.2), rs.map (·.1)⟩ := by
  obtain ⟨m, st', h'⟩ := raw_doc hd ho ig
  have h1 := (fle_rawM (Nat.le_max_left n m) data).eq ⟨0, ig⟩ (by rw [h]; simp)
  have h2 := (fle_rawM (Nat.le_max_right n m) data).eq ⟨0, ig⟩ (by rw [h']; simp)
  rw [h] at h1
  rw [h', h1] at h2
  cases h2
  rfl

end Verif
