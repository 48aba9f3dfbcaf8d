import Verif.Spec.JsonLayout
import Verif.Proofs.Json
/-
The loop of `write` prints one line for each item.
-/
namespace Verif
open Spec Spec.Json

theorem jsonChar_eq (c : Char) : jsonChar c = escapeChar c := by
  simp only [jsonChar, escapeChar, List.lookup]
  by_cases h1 : c = '\\'
  · subst h1; rfl
  by_cases h2 : c = '"'
  · subst h2; rfl
  by_cases h3 : c = '\n'
  · subst h3; rfl
  by_cases h4 : c = '\r'
  · subst h4; rfl
  by_cases h5 : c = '\t'
  · subst h5; rfl
  simp [beq_eq_false_iff_ne.2 h1, beq_eq_false_iff_ne.2 h2, beq_eq_false_iff_ne.2 h3, beq_eq_false_iff_ne.2 h4,
    beq_eq_false_iff_ne.2 h5, h1, h2, h3, h4, h5]

theorem inQuotes_eq (s : Str) : inQuotes s = writeString s := by
  simp [inQuotes, writeString, funext jsonChar_eq]

theorem itemText_eq (fmt : F64 → Str) (d : MetaData) : itemText fmt d = writeItem fmt d := by
  cases d with
  | bool n b => cases b <;> simp [itemText, writeItem, inQuotes_eq]
  | _ => simp [itemText, writeItem, inQuotes_eq]

/-- The comma behind `d` if `ds` follow. -/
def commaOf (d : MetaData) (ds : List MetaData) : Str :=
  if d.isStart then [] else
    match ds with
    | [] => []
    | e :: _ => if e.isEnd then [] else [',']

/-- What is written before the end of the line before. -/
def sepOf (first : Bool) : List MetaData → Str
  | [] => []
  | e :: _ => if !first && !e.isEnd then [','] else []

/-- The lines from an indentation on. -/
def jsonLinesOf (fmt : F64 → Str) : List MetaData → Nat → Str
  | [], _ => []
  | d :: ds, n =>
    let n' := if d.isEnd then n - 1 else n
    List.replicate n' ' ' ++ writeItem fmt d ++ commaOf d ds ++ ['\n'] ++ jsonLinesOf fmt ds (if d.isStart then n' + 1 else n')

theorem writeLoop_lines (fmt : F64 → Str) : ∀ (ds : List MetaData) (st first : Bool) (n : Nat) (t : Str),
    writeLoop fmt ds st first n = .ok t →
    (st = true → t = sepOf first ds ++ ['\n'] ++ jsonLinesOf fmt ds n) ∧
    (st = false → first = true → ds ≠ [] → t = jsonLinesOf fmt ds n)
  | [], st, first, n, t, h => by
    cases h
    exact ⟨fun _ => rfl, fun _ _ h => absurd rfl h⟩
  | d :: ds, st, first, n, t, h => by
    have hc : sepOf d.isStart ds = commaOf d ds := by
      unfold commaOf
      cases hs : d.isStart <;> cases ds <;> simp [sepOf]
      split <;> simp_all
    simp only [writeLoop] at h
    obtain ⟨n', hn'⟩ : ∃ n', n' = if d.isEnd then n - 1 else n := ⟨_, rfl⟩
    rw [← hn'] at h
    by_cases hp : (d.isEnd && n == 0) = true
    · rw [if_pos hp] at h; cases h
    rw [if_neg hp] at h
    by_cases hp : (d.isStart && !decide (n' + 1 < 2 ^ 32)) = true
    · rw [if_pos hp] at h; cases h
    rw [if_neg hp] at h
    cases hr : writeLoop fmt ds true d.isStart (if d.isStart then n' + 1 else n') with
    | panic => rw [hr] at h; cases h
    | timeout => rw [hr] at h; cases h
    | ok rest =>
      obtain ⟨h1, -⟩ := writeLoop_lines fmt ds _ _ _ _ hr
      have h1 := h1 rfl
      rw [hc] at h1
      rw [hr] at h
      cases h
      subst h1
      refine ⟨?_, ?_⟩
      · rintro rfl
        simp only [jsonLinesOf, sepOf, ← hn']
        cases first <;> cases d.isEnd <;> simp
      · rintro rfl rfl -
        simp [jsonLinesOf, ← hn']

/-- The lines, by the number of the item. -/
theorem jsonLinesOf_range (fmt : F64 → Str) (data : List Tok) : ∀ (post pre : List Tok) (n : Nat), data = pre ++ post →
    ((n : Int) = (depth data).natAbs + depth pre) →
    (∀ a, a <+: data → 0 ≤ ((depth data).natAbs : Int) + depth a) →
    jsonLinesOf fmt (post.map (·.data)) n = (List.range post.length).flatMap fun k => jsonLine fmt data (pre.length + k)
  | [], pre, n, _, _, _ => rfl
  | t :: post, pre, n, e, hn, hp => by
    have e' : data = (pre ++ [t]) ++ post := by rw [e]; simp
    have hd : ∀ a : List Tok, depth (a ++ [t]) = depth a + (if t.data.isStart then 1 else if t.data.isEnd then -1 else 0) := by
      intro a
      rw [← bal_eq, ← bal_eq, bal_count, bal_count]
      obtain ⟨r, d⟩ := t
      cases d <;> simp [MetaData.isStart, MetaData.isEnd] <;> omega
    have hpre := hp (pre ++ [t]) ⟨post, e'.symm⟩
    have hse : (t.data.isStart && t.data.isEnd) = false := by
      obtain ⟨r, d⟩ := t
      cases d <;> simp [MetaData.isStart, MetaData.isEnd]
    have ih := jsonLinesOf_range fmt data post (pre ++ [t])
      (if t.data.isStart then (if t.data.isEnd then n - 1 else n) + 1 else (if t.data.isEnd then n - 1 else n)) e' (by
        rw [hd] at hpre ⊢
        cases hs : t.data.isStart <;> cases he : t.data.isEnd <;> (try simp [hs, he] at hse) <;> simp [hs, he] at hpre ⊢ <;> omega) hp
    have h1 : data.take pre.length = pre := by rw [e]; simp
    have h2 : data.take (pre.length + 1) = pre ++ [t] := by rw [e', List.take_append_of_le_length (by simp)]; exact List.take_of_length_le (by simp)
    have h3 : data[pre.length]? = some t := by rw [e]; simp
    have h4 : data[pre.length + 1]? = post.head? := by
      rw [e', List.getElem?_append_right (by simp)]
      simp [List.head?_eq_getElem?]
    have hdepth : (if t.data.isEnd then n - 1 else n) = lineDepth data pre.length := by
      rw [lineDepth, h1, h2]
      rw [hd] at hpre ⊢
      cases hs : t.data.isStart <;> cases he : t.data.isEnd <;> (try simp [hs, he] at hse) <;> simp [hs, he] at hpre ⊢ <;> omega
    have hcomma : commaOf t.data (post.map (·.data)) = lineComma data pre.length := by
      rw [lineComma, h3, h4, commaOf.eq_def]
      obtain ⟨r, d⟩ := t
      cases post with
      | nil => cases d <;> simp [MetaData.isStart]
      | cons u us =>
        obtain ⟨r', d'⟩ := u
        cases d <;> cases d' <;> simp [MetaData.isStart, MetaData.isEnd]
    rw [List.length_cons, List.range_succ_eq_map, List.flatMap_cons, List.flatMap_map]
    simp only [List.map_cons, jsonLinesOf]
    rw [ih, hdepth, hcomma]
    have hfun : (fun k => jsonLine fmt data ((pre ++ [t]).length + k)) = fun k => jsonLine fmt data (pre.length + k.succ) := by
      funext k
      congr 1
      simp
      omega
    rw [hfun]
    congr 1
    simp [jsonLine, h3, itemText_eq]

end Verif
