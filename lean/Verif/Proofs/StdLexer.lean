import Verif.Model.StdLexer
import Verif.Spec.Lexer
/-
The concrete lexer satisfies the contract.
-/
namespace Verif.Std

theorem scanStr_le : ∀ (cs : List Char) (e : Bool) (n : Nat), scanStr cs e = some n →
    1 ≤ n ∧ n ≤ cs.length
  | [], _, _, h => by simp [scanStr] at h
  | c :: cs, true, n, h => by
    simp only [scanStr, Option.map_eq_some_iff] at h
    obtain ⟨m, hm, rfl⟩ := h
    have := scanStr_le cs _ _ hm
    simp; omega
  | c :: cs, false, n, h => by
    simp only [scanStr] at h
    split at h
    · simp only [Option.map_eq_some_iff] at h
      obtain ⟨m, hm, rfl⟩ := h
      have := scanStr_le cs _ _ hm
      simp; omega
    · split at h
      · simp at h; subst h; simp
      · simp only [Option.map_eq_some_iff] at h
        obtain ⟨m, hm, rfl⟩ := h
        have := scanStr_le cs _ _ hm
        simp; omega

theorem str_some {src : List Char} {n : Nat} (h : str src = some n) :
    2 ≤ n ∧ n ≤ src.length ∧ src.head? = some '"' := by
  unfold str at h
  split at h
  · simp only [Option.map_eq_some_iff] at h
    obtain ⟨m, hm, rfl⟩ := h
    have := scanStr_le _ _ _ hm
    simp; omega
  · simp at h

theorem except_map_error {α β ε} {x : Except ε α} {f : α → β} {e : ε}
    (h : x.map f = .error e) : x = .error e := by
  cases x with
  | error a => simpa [Except.map] using h
  | ok a => simp [Except.map] at h

theorem decode_err : ∀ (cs : List Char) (off : Nat) (r : Range) (e : StrErr),
    decode cs off = .error (r, e) → r.offset + r.length ≤ off + cs.length := by
  intro cs off
  fun_induction decode cs off with
  | case1 => intro r e h; simp at h
  | case2 off a b c d cs' x hx ih =>
    intro r e h
    have := ih _ _ (except_map_error h)
    simp; omega
  | case3 off a b c d cs' hx => intro r e h; simp at h; simp [← h.1]
  | case4 off c cs' h1 x hx ih =>
    intro r e h
    have := ih _ _ (except_map_error h)
    simp; omega
  | case5 off c cs' h1 hx => intro r e h; simp at h; simp [← h.1]
  | case6 off => intro r e h; simp at h; simp [← h.1]
  | case7 off c cs h1 ih =>
    intro r e h
    have := ih _ _ (except_map_error h)
    simp; omega

theorem parseStr_err {src n r e} (hs : str src = some n) (h : parseStr src n = .error (r, e)) :
    r.offset + r.length ≤ n := by
  have := decode_err _ _ _ _ h
  have h2 := str_some hs
  simp at this
  omega

theorem scan_items (items : List StrItem) (rest : List Char) :
    scanStr (items.flatMap StrItem.text ++ '"' :: rest) false
      = some ((items.flatMap StrItem.text).length + 1) := by
  induction items with
  | nil => simp [scanStr]
  | cons i is ih =>
    cases i with
    | plain c h => simp [StrItem.text, scanStr, h.1, h.2.1, ih]
    | _ => simp [StrItem.text, scanStr, ih]

theorem decode_plain {c : Char} (hc : c ≠ '\\') (cs : List Char) (off : Nat) :
    decode (c :: cs) off = (decode cs (off + 1)).map (c :: ·) := by
  rw [decode]
  exact hc

theorem decode_items (items : List StrItem) : ∀ off,
    decode (items.flatMap StrItem.text) off = .ok (items.map StrItem.char) := by
  induction items with
  | nil => intro off; simp [decode]
  | cons i is ih =>
    intro off
    cases i with
    | plain c h =>
      simp only [List.flatMap_cons, StrItem.text, List.cons_append, List.nil_append,
        List.map_cons, StrItem.char]
      rw [decode_plain h.2.1, ih]; rfl
    | _ => simp [StrItem.text, decode, unescape, ih, StrItem.char, Except.map]

theorem str_items (items : List StrItem) (rest : List Char) :
    str ('"' :: items.flatMap StrItem.text ++ '"' :: rest)
        = some ((items.flatMap StrItem.text).length + 2) ∧
      parseStr ('"' :: items.flatMap StrItem.text ++ '"' :: rest)
        ((items.flatMap StrItem.text).length + 2) = .ok (items.map StrItem.char) := by
  constructor
  · simp only [List.cons_append, str, scan_items]; rfl
  · simp only [List.cons_append, parseStr, List.drop_succ_cons, List.drop_zero,
      Nat.add_sub_cancel, List.take_left', decode_items]

theorem digits_le (u : Bool) (cs : List Char) : digits u cs ≤ cs.length :=
  (List.takeWhile_sublist _).length_le

theorem digits_pos {u : Bool} {c : Char} {cs : List Char} (h : isDigit c = true) :
    1 ≤ digits u (c :: cs) := by
  simp [digits, h]

theorem numFrac_le (u : Bool) (cs : List Char) : numFrac u cs ≤ cs.length := by
  unfold numFrac
  split
  · have := digits_le u
    rename_i cs; have := this cs; simp; omega
  · simp

theorem numExp_le (cs : List Char) : numExp cs ≤ cs.length := by
  unfold numExp
  split
  · rename_i e cs
    split
    · have h := digits_le false (cs.drop (expSign cs))
      simp at h
      simp only
      split <;> simp <;> omega
    · simp
  · simp

theorem num_some {u : Bool} {src : List Char} {n : Nat} (h : num u src = some n) :
    1 ≤ n ∧ n ≤ src.length := by
  unfold num at h
  simp only at h
  generalize numSign src = sign at h
  split at h
  · rename_i hdig
    cases hd : src.drop sign with
    | nil => rw [hd] at hdig; simp at hdig
    | cons c cs =>
      rw [hd] at hdig
      have hp : 1 ≤ digits u (src.drop sign) := by rw [hd]; exact digits_pos (by simpa using hdig)
      have hle := digits_le u (src.drop sign)
      have hl := congrArg List.length hd
      simp only [List.length_drop, List.length_cons] at hl hle
      have h0 : 1 ≤ sign + digits u (src.drop sign) ∧ sign + digits u (src.drop sign) ≤ src.length := by
        omega
      generalize sign + digits u (src.drop sign) = n0 at *
      have h1 := numFrac_le u (src.drop n0)
      generalize numFrac u (src.drop n0) = n1 at *
      have h2 := numExp_le (src.drop (n0 + n1))
      generalize numExp (src.drop (n0 + n1)) = n2 at *
      simp only [List.length_drop, Option.some.injEq] at *
      omega
  · simp at h

theorem takeWhile_mem {cs : List Char} {c : Char} (h : c ∈ cs.takeWhile isWs) : isWs c = true := by
  induction cs with
  | nil => simp at h
  | cons a as ih =>
    rw [List.takeWhile_cons] at h
    split at h
    · rcases List.mem_cons.1 h with rfl | h
      · assumption
      · exact ih h
    · simp at h

theorem afterLastNl_le : ∀ cs, afterLastNl cs ≤ cs.length
  | [] => by simp [afterLastNl]
  | c :: cs => by
    have := afterLastNl_le cs
    simp only [afterLastNl, List.length_cons]
    split
    · split <;> omega
    · omega

theorem afterLastNl_drop : ∀ cs : List Char, ∀ c ∈ cs.drop (afterLastNl cs), c ≠ '\n'
  | [] => by simp
  | c :: cs => by
    have ih := afterLastNl_drop cs
    simp only [afterLastNl]
    split
    · rename_i h0
      rw [h0] at ih
      split
      · simpa using ih
      · rename_i hc
        simp at ih
        simpa [hc] using ih
    · simpa using ih

theorem afterLastNl_take : ∀ cs, afterLastNl cs ≠ 0 →
    (cs.take (afterLastNl cs)).getLast? = some '\n'
  | [], h => by simp [afterLastNl] at h
  | c :: cs, h => by
    have ih := afterLastNl_take cs
    simp only [afterLastNl] at h ⊢
    split
    · rename_i h0
      simp only [h0, if_true] at h
      split
      · rename_i hc; simp [hc]
      · rename_i hc; simp [hc] at h
    · rename_i h0
      have := ih h0
      rw [List.take_succ_cons, List.getLast?_cons]
      simp [this]

theorem takeWhile_append_drop (cs : List Char) (k : Nat) (hk : k ≤ (cs.takeWhile isWs).length) :
    cs.take k = (cs.takeWhile isWs).take k ∧
    cs.drop k = (cs.takeWhile isWs).drop k ++ cs.dropWhile isWs := by
  have h : cs.takeWhile isWs ++ cs.dropWhile isWs = cs := List.takeWhile_append_dropWhile
  constructor
  · conv => lhs; rw [← h]
    rw [List.take_append_of_le_length hk]
  · conv => lhs; rw [← h]
    rw [List.drop_append_of_le_length hk]

theorem dropWhile_ne_nil {cs : List Char} (h : (cs.takeWhile isWs).length ≠ cs.length) :
    ∃ c r, cs.dropWhile isWs = c :: r ∧ isWs c = false := by
  cases hd : cs.dropWhile isWs with
  | nil =>
    have := List.takeWhile_append_dropWhile (p := isWs) (l := cs)
    rw [hd] at this
    simp at this
    rw [this] at h
    simp at h
  | cons c r =>
    refine ⟨c, r, rfl, ?_⟩
    have := List.head?_dropWhile_not isWs cs
    rw [hd] at this
    simpa using this

theorem nonBlank {cs : List Char} (h : (cs.takeWhile isWs).length ≠ cs.length) (k : Nat)
    (hk : k ≤ (cs.takeWhile isWs).length) (hn : ∀ c ∈ (cs.takeWhile isWs).drop k, c ≠ '\n') :
    NonBlankLine (cs.drop k) := by
  obtain ⟨c, r, hd, hc⟩ := dropWhile_ne_nil h
  refine ⟨(cs.takeWhile isWs).drop k, c, r, ?_, hc, ?_⟩
  · rw [(takeWhile_append_drop cs k hk).2, hd]
  · intro x hx
    exact ⟨takeWhile_mem (List.mem_of_mem_drop hx), hn x hx⟩

theorem trailingNl_mem {cs : List Char} (h : trailingNl cs = true) : '\n' ∈ cs := by
  unfold trailingNl at h
  have h1 : '\n' ∈ cs.reverse.takeWhile isWs := by simpa using h
  have := (List.takeWhile_sublist isWs).mem h1
  simpa using this

theorem lineNext_spec (first : Bool) (item rest : List Char) :
    match lineNext first item rest with
    | .call k => k ≤ rest.length ∧ (∀ c ∈ rest.take k, isWs c = true) ∧
        (k = 0 ∨ (rest.take k).getLast? = some '\n') ∧ NonBlankLine (rest.drop k) ∧
        (first = false → '\n' ∈ item ++ rest.take k)
    | .done k => k = rest.length ∧ ∀ c ∈ rest, isWs c = true
    | .fail k => first = false ∧ k ≤ rest.length ∧
        (∀ c ∈ rest.take k, isWs c = true ∧ c ≠ '\n') ∧ NonBlankLine (rest.drop k) := by
  have hle : (rest.takeWhile isWs).length ≤ rest.length := (List.takeWhile_sublist _).length_le
  unfold lineNext
  simp only
  by_cases h1 : (rest.takeWhile isWs).length = rest.length
  · rw [if_pos h1]
    refine ⟨rfl, ?_⟩
    intro c hc
    have := List.takeWhile_append_dropWhile (p := isWs) (l := rest)
    have h2 : rest.takeWhile isWs = rest := (List.takeWhile_sublist _).eq_of_length h1
    rw [← h2] at hc
    exact takeWhile_mem hc
  · rw [if_neg h1]
    have hk := afterLastNl_le (rest.takeWhile isWs)
    have hdr := afterLastNl_drop (rest.takeWhile isWs)
    by_cases h2 : afterLastNl (rest.takeWhile isWs) = 0
    · rw [h2] at hdr
      have hnb : NonBlankLine (rest.drop 0) := nonBlank h1 0 (by omega) hdr
      rw [if_neg (by simpa using h2)]
      cases first with
      | true => simpa using hnb
      | false =>
        simp only [Bool.false_eq_true, if_false]
        by_cases h3 : trailingNl item = true
        · rw [if_pos h3]
          have := trailingNl_mem h3
          simpa [this] using hnb
        · rw [if_neg h3]; simpa using hnb
    · rw [if_pos h2]
      have ht := takeWhile_append_drop rest _ hk
      refine ⟨by omega, ?_, ?_, nonBlank h1 _ hk hdr, ?_⟩
      · intro c hc
        rw [ht.1] at hc
        exact takeWhile_mem (List.mem_of_mem_take hc)
      · right; rw [ht.1]; exact afterLastNl_take _ h2
      · intro _
        have := afterLastNl_take _ h2
        rw [← ht.1] at this
        exact List.mem_append_right _ (List.mem_of_getLast? this)

/-! ### The further assumptions -/

theorem scanStr_local : ∀ (cs : List Char) (e : Bool) (n : Nat), scanStr cs e = some n → ∀ rest,
    scanStr (cs.take n ++ rest) e = some n
  | [], _, _, h, _ => by simp [scanStr] at h
  | c :: cs, true, n, h, rest => by
    simp only [scanStr, Option.map_eq_some_iff] at h
    obtain ⟨m, hm, rfl⟩ := h
    simp [scanStr, scanStr_local cs _ _ hm rest]
  | c :: cs, false, n, h, rest => by
    simp only [scanStr] at h
    by_cases h1 : c = '\\'
    · rw [if_pos h1, Option.map_eq_some_iff] at h
      obtain ⟨m, hm, rfl⟩ := h
      simp [scanStr, h1, scanStr_local cs _ _ hm rest]
    · rw [if_neg h1] at h
      by_cases h2 : c = '"'
      · rw [if_pos h2] at h
        cases h
        simp [scanStr, h2]
      · rw [if_neg h2, Option.map_eq_some_iff] at h
        obtain ⟨m, hm, rfl⟩ := h
        simp [scanStr, h1, h2, scanStr_local cs _ _ hm rest]

theorem getLast_cons {c : Char} {l : List Char} (h : l.getLast? = some '"') : (c :: l).getLast? = some '"' := by
  cases l with
  | nil => cases h
  | cons x l => rw [List.getLast?_cons_cons]; exact h

theorem scanStr_last : ∀ (cs : List Char) (e : Bool) (n : Nat), scanStr cs e = some n →
    (cs.take n).getLast? = some '"'
  | [], _, _, h => by simp [scanStr] at h
  | c :: cs, true, n, h => by
    simp only [scanStr, Option.map_eq_some_iff] at h
    obtain ⟨m, hm, rfl⟩ := h
    exact getLast_cons (scanStr_last cs _ _ hm)
  | c :: cs, false, n, h => by
    simp only [scanStr] at h
    by_cases h1 : c = '\\'
    · rw [if_pos h1, Option.map_eq_some_iff] at h
      obtain ⟨m, hm, rfl⟩ := h
      exact getLast_cons (scanStr_last cs _ _ hm)
    · rw [if_neg h1] at h
      by_cases h2 : c = '"'
      · rw [if_pos h2] at h
        cases h
        simp [h2]
      · rw [if_neg h2, Option.map_eq_some_iff] at h
        obtain ⟨m, hm, rfl⟩ := h
        exact getLast_cons (scanStr_last cs _ _ hm)

theorem str_local {src : List Char} {n : Nat} (h : str src = some n) (rest : List Char) :
    str (src.take n ++ rest) = some n ∧ parseStr (src.take n ++ rest) n = parseStr src n := by
  have hs := str_some h
  unfold str at h
  split at h
  · simp only [Option.map_eq_some_iff] at h
    obtain ⟨m, hm, rfl⟩ := h
    rename_i cs
    have hl := scanStr_le _ _ _ hm
    refine ⟨by simp [str, scanStr_local _ _ _ hm], ?_⟩
    simp only [parseStr, List.take_succ_cons, List.cons_append, List.drop_succ_cons, List.drop_zero]
    rw [List.take_append_of_le_length (by simp; omega), List.take_take, Nat.min_eq_left (by omega)]
  · simp at h

theorem str_last {src : List Char} {n : Nat} (h : str src = some n) : (src.take n).getLast? = some '"' := by
  unfold str at h
  split at h
  · simp only [Option.map_eq_some_iff] at h
    obtain ⟨m, hm, rfl⟩ := h
    exact getLast_cons (scanStr_last _ _ _ hm)
  · simp at h

theorem num_head {c : Char} {s : List Char} {n : Nat} (h : num false (c :: s) = some n) :
    isWs c = false ∧ c ≠ '_' ∧ c ≠ '/' := by
  by_cases h1 : c = '-'
  · subst h1; decide
  · have hs : numSign (c :: s) = 0 := by
      unfold numSign
      split
      · rename_i e; cases e; exact absurd rfl h1
      · rfl
    have hd : isDigit c = true := by
      cases hd : isDigit c with
      | true => rfl
      | false => simp [num, hs, hd] at h
    simp only [isDigit, Bool.and_eq_true, decide_eq_true_eq] at hd
    refine ⟨by simp [isWs]; omega, ?_, ?_⟩ <;> · rintro rfl; exact absurd hd (by decide)

theorem trailingNl_split {cs : List Char} (h : trailingNl cs = true) :
    ∃ x w, cs = x ++ '\n' :: w ∧ ∀ c ∈ w, isWs c = true := by
  unfold trailingNl at h
  have h1 : '\n' ∈ cs.reverse.takeWhile isWs := by simpa using h
  obtain ⟨a, b, e⟩ := List.append_of_mem h1
  refine ⟨(b ++ cs.reverse.dropWhile isWs).reverse, a.reverse, ?_, ?_⟩
  · have := List.takeWhile_append_dropWhile (p := isWs) (l := cs.reverse)
    rw [e] at this
    have h2 := congrArg List.reverse this
    simp only [List.reverse_reverse] at h2
    refine h2.symm.trans ?_
    simp
  · intro c hc
    refine takeWhile_mem (cs := cs.reverse) ?_
    rw [e]
    exact List.mem_append_left _ (by simpa using hc)

theorem line_newline {item rest : List Char} {k : Nat} (h : lineNext false item rest = .call k) :
    '\n' ∈ rest.take k ∨ ∃ x w, item = x ++ '\n' :: w ∧ ∀ c ∈ w, isWs c = true := by
  have hc := lineNext_spec false item rest
  rw [h] at hc
  by_cases hk : k = 0
  · right
    subst hk
    simp only [lineNext, Bool.false_eq_true, if_false] at h
    split at h
    · cases h
    · split at h
      · rename_i h2
        exact absurd (by simpa using h) h2
      · split at h
        · rename_i h3
          exact trailingNl_split h3
        · cases h
  · left
    rcases hc.2.2.1 with h0 | h0
    · exact absurd h0 hk
    · exact List.mem_of_getLast? h0

end Verif.Std

namespace Verif

/-- The concrete lexer satisfies the contract. -/
theorem stdLexer_lawful : stdLexer.Lawful where
  str_some := Std.str_some
  str_err := Std.parseStr_err
  str_items := Std.str_items
  num_some := Std.num_some
  line_call := by
    intro f i r k h
    have := Std.lineNext_spec f i r
    rw [show Std.lineNext f i r = .call k from h] at this
    exact this
  line_done := by
    intro f i r k h
    have := Std.lineNext_spec f i r
    rw [show Std.lineNext f i r = .done k from h] at this
    exact this
  line_fail := by
    intro f i r k h
    have := Std.lineNext_spec f i r
    rw [show Std.lineNext f i r = .fail k from h] at this
    exact this

/-- It satisfies the further assumptions as well. -/
theorem stdLexer_exact : stdLexer.Exact where
  str_local := Std.str_local
  str_last := Std.str_last
  num_head := Std.num_head
  line_newline := Std.line_newline

end Verif

/-! ### Values -/

namespace Verif.Std

/-- Hexadecimal digits, and the characters next to them. -/
example : c!"0123456789abcdefABCDEF".map hexVal = ((List.range 16 ++ [10, 11, 12, 13, 14, 15]).map some) := by decide +kernel
example : c!"/:@G`g".map hexVal = List.replicate 6 none := by decide +kernel
example : decode c!"\\u00e9\\u0041b" 0 = .ok c!"éAb" := rfl
example : decode c!"a\\ud800" 0 = .error (⟨1, 6⟩, ⟨1⟩) := rfl
example : decode c!"\\u0041x\\n\\q" 1 = .error (⟨10, 2⟩, ⟨0⟩) := rfl
example : decode c!"\\\"\\\\\\/\\b\\f\\n\\r\\t" 0 = .ok ['"', '\\', '/', Char.ofNat 8, Char.ofNat 12, '\n', '\r', '\t'] := rfl
example : decode c!"ab\\" 1 = .error (⟨3, 1⟩, ⟨0⟩) := rfl

/-- Numbers are rounded to the nearest double, half-way cases to the even one. -/
example : parseNum false c!"1.5" 3 = .ok ⟨0x3ff8000000000000⟩ := rfl
example : parseNum false c!"0.1" 3 = .ok ⟨0x3fb999999999999a⟩ := rfl
example : parseNum false c!"-25e-2" 6 = .ok ⟨0xbfd0000000000000⟩ := rfl
example : ratBits (2 ^ 53 - 1) 1 = 0x433fffffffffffff := by decide +kernel
example : ratBits (2 ^ 53 + 1) 1 = 0x4340000000000000 := by decide +kernel
example : ratBits (2 ^ 53 + 3) 1 = 0x4340000000000002 := by decide +kernel
example : ratBits (2 ^ 54 + 5) 1 = 0x4350000000000001 := by decide +kernel
example : ratBits (2 ^ 54 - 1) 1 = 0x4350000000000000 := by decide +kernel
example : ratBits 3 (2 ^ 1024 - 1) = 0xC000000000000 := by decide +kernel
example : ratBits 1 (2 ^ 1074) = 1 := by decide +kernel
example : ratBits 1 (2 ^ 1075) = 0 := by decide +kernel
example : ratBits 3 (2 ^ 1075) = 2 := by decide +kernel
example : ratBits (2 ^ 1024 - 2 ^ 970) 1 = 0x7ff0000000000000 := by decide +kernel
example : ratBits (2 ^ 1024 - 2 ^ 970 - 1) 1 = 0x7fefffffffffffff := by decide +kernel

end Verif.Std
