import Verif.Model.Json
import Verif.Spec.Json
import Verif.Proofs.Depth
/-
JSON: reading is a function of the text, and what `write` writes.
-/
namespace Verif.Spec.Json

/-! ### Reading gives one value -/

theorem unescape_u : unescape 'u' = none := by decide

theorem StrTail.det {strict strict' : Bool} {i s r : Str} (h : StrTail strict i s r) :
    ∀ {s' r'}, StrTail strict' i s' r' → s = s' ∧ r = r' := by
  induction h with
  | done =>
    intro s' r' h'
    cases h' with
    | done => exact ⟨rfl, rfl⟩
    | plain h₁ => exact absurd rfl h₁
  | plain h₁ h₂ h₃ h ih =>
    intro s' r' h'
    cases h' with
    | done => exact absurd rfl h₁
    | plain _ _ _ h' => have := ih h'; simp [this.1, this.2]
    | escaped => exact absurd rfl h₂
    | unicode => exact absurd rfl h₂
    | pair => exact absurd rfl h₂
  | escaped hc h ih =>
    intro s' r' h'
    cases h' with
    | plain _ h₂ => exact absurd rfl h₂
    | escaped hc' h' =>
      rw [hc] at hc'
      have := ih h'
      simp [this.1, this.2, Option.some.inj hc']
    | unicode => simp [unescape_u] at hc
    | pair => simp [unescape_u] at hc
  | unicode hn h hr ih =>
    intro s' r' h'
    cases h' with
    | plain _ h₂ => exact absurd rfl h₂
    | escaped hc' => simp [unescape_u] at hc'
    | unicode hn' _ hr' =>
      rw [hn] at hn'
      have := ih hr'
      simp [this.1, this.2, Option.some.inj hn']
    | pair hn' h' =>
      rw [hn] at hn'
      have := Option.some.inj hn'
      omega
  | pair hn h hm h' hr ih =>
    intro s' r' h''
    cases h'' with
    | plain _ h₂ => exact absurd rfl h₂
    | escaped hc' => simp [unescape_u] at hc'
    | unicode hn' h₁ =>
      rw [hn] at hn'
      have := Option.some.inj hn'
      omega
    | pair hn' _ hm' _ hr' =>
      rw [hn] at hn'
      rw [hm] at hm'
      have := ih hr'
      simp [this.1, this.2, Option.some.inj hn', Option.some.inj hm']

/-- Strict strings are strings. -/
theorem StrTail.lenient {strict : Bool} {i s r : Str} (h : StrTail strict i s r) : StrTail false i s r := by
  induction h with
  | done => exact .done
  | plain h₁ h₂ _ _ ih => exact .plain h₁ h₂ (by simp) ih
  | escaped hc _ ih => exact .escaped hc ih
  | unicode hn h _ ih => exact .unicode hn h ih
  | pair hn h hm h' _ ih => exact .pair hn h hm h' ih

theorem isNumChar_digit {c : Char} (h : '0' ≤ c ∧ c ≤ '9') : isNumChar c = true := by
  simp [isNumChar, h.1, h.2]

theorem IsNumber.chars {s : Str} (h : IsNumber s) : ∀ c ∈ s, isNumChar c = true := by
  obtain ⟨m, int, fr, ex, rfl, hm, hi, _, hf, he⟩ := h
  intro c hc
  simp only [List.mem_append] at hc
  rcases hc with ((hc | hc) | hc) | hc
  · rcases hm with rfl | rfl
    · simp at hc
    · simp at hc; subst hc; decide
  · exact isNumChar_digit (hi.2 c hc)
  · rcases hf with rfl | ⟨ds, rfl, hd⟩
    · simp at hc
    · rcases List.mem_cons.1 hc with rfl | hc
      · decide
      · exact isNumChar_digit (hd.2 c hc)
  · rcases he with rfl | ⟨e, sign, ds, rfl, h1, h2, hd⟩
    · simp at hc
    · rcases List.mem_cons.1 hc with rfl | hc
      · rcases h1 with rfl | rfl <;> decide
      · rcases List.mem_append.1 hc with hc | hc
        · rcases h2 with rfl | rfl | rfl
          · simp at hc
          · simp at hc; subst hc; decide
          · simp at hc; subst hc; decide
        · exact isNumChar_digit (hd.2 c hc)

/-- A number begins with a digit or a minus sign. -/
theorem IsNumber.head {s : Str} (h : IsNumber s) :
    ∃ c t, s = c :: t ∧ (c = '-' ∨ ('0' ≤ c ∧ c ≤ '9')) := by
  obtain ⟨m, int, fr, ex, rfl, hm, hi, _, hf, he⟩ := h
  rcases hm with rfl | rfl
  · cases int with
    | nil => exact absurd rfl hi.1
    | cons c t => exact ⟨c, t ++ fr ++ ex, by simp, .inr (hi.2 c (by simp))⟩
  · exact ⟨'-', int ++ fr ++ ex, by simp, .inl rfl⟩

theorem IsNumber.head_ne {s r : Str} (h : IsNumber s) {c : Char} {t : Str} (e : s ++ r = c :: t) :
    c ≠ '"' ∧ c ≠ '{' ∧ c ≠ 't' ∧ c ≠ 'f' ∧ isWs c = false := by
  obtain ⟨d, u, rfl, hd⟩ := h.head
  simp at e
  obtain ⟨rfl, _⟩ := e
  rcases hd with rfl | hd
  · decide
  · refine ⟨?_, ?_, ?_, ?_, ?_⟩
    all_goals first
      | (rintro rfl; revert hd; decide)
      | skip
    simp only [isWs, Bool.or_eq_false_iff, beq_eq_false_iff_ne]
    refine ⟨⟨⟨?_, ?_⟩, ?_⟩, ?_⟩ <;> (rintro rfl; revert hd; decide)

/-- Maximal munch. -/
theorem munch {p : Char → Bool} : ∀ {a r a' r' : Str}, (∀ c ∈ a, p c = true) → (∀ c ∈ a', p c = true) →
    (∀ c, r.head? = some c → p c = false) → (∀ c, r'.head? = some c → p c = false) →
    a ++ r = a' ++ r' → a = a' ∧ r = r'
  | [], r, [], r', _, _, _, _, e => ⟨rfl, e⟩
  | [], r, b :: bs, r', _, h₂, h₃, _, e => by
    simp at e
    have := h₃ b (by simp [e])
    have := h₂ b (by simp)
    simp_all
  | a :: as, r, [], r', h₁, _, _, h₄, e => by
    simp at e
    have := h₄ a (by simp [← e])
    have := h₁ a (by simp)
    simp_all
  | a :: as, r, b :: bs, r', h₁, h₂, h₃, h₄, e => by
    simp at e
    have := munch (fun c hc => h₁ c (by simp [hc])) (fun c hc => h₂ c (by simp [hc])) h₃ h₄ e.2
    simp [e.1, this.1, this.2]

mutual
theorem Value.det {strict strict' : Bool} {rd : Str → F64} {i : Str} {v : Json} {r : Str} :
    Value strict rd i v r → ∀ {i' v' r'}, Value strict' rd i' v' r' → i = i' → v = v' ∧ r = r'
  | .str h, _, _, _, h', e => by
    cases h' with
    | str h' => simp at e; subst e; have := h.det h'; simp [this.1, this.2]
    | true => simp at e
    | false => simp at e
    | num hn => exact absurd rfl (hn.head_ne e.symm).1
    | empty => simp at e
    | obj => simp at e
  | .true, _, _, _, h', e => by
    cases h' with
    | str h' => simp at e
    | true => simp at e; simp [e]
    | false => simp at e
    | num hn => exact absurd rfl (hn.head_ne e.symm).2.2.1
    | empty => simp at e
    | obj => simp at e
  | .false, _, _, _, h', e => by
    cases h' with
    | str h' => simp at e
    | true => simp at e
    | false => simp at e; simp [e]
    | num hn => exact absurd rfl (hn.head_ne e.symm).2.2.2.1
    | empty => simp at e
    | obj => simp at e
  | .num hn hr, _, _, _, h', e => by
    cases h' with
    | str h' => exact absurd rfl (hn.head_ne e).1
    | true => exact absurd rfl (hn.head_ne e).2.2.1
    | false => exact absurd rfl (hn.head_ne e).2.2.2.1
    | num hn' hr' => have := munch hn.chars hn'.chars hr hr' e; simp [this.1, this.2]
    | empty => exact absurd rfl (hn.head_ne e).2.1
    | obj => exact absurd rfl (hn.head_ne e).2.1
  | .empty h, _, _, _, h', e => by
    cases h' with
    | str h' => simp at e
    | true => simp at e
    | false => simp at e
    | num hn => exact absurd rfl (hn.head_ne e.symm).2.1
    | empty h' => simp at e; subst e; rw [h] at h'; simp at h'; simp [h']
    | obj h' =>
      simp at e; subst e
      cases h' with
      | last h₁ => rw [h] at h₁; simp at h₁
      | more h₁ => rw [h] at h₁; simp at h₁
  | .obj h, _, _, _, h', e => by
    cases h' with
    | str h' => simp at e
    | true => simp at e
    | false => simp at e
    | num hn => exact absurd rfl (hn.head_ne e.symm).2.1
    | empty h' =>
      simp at e; subst e
      cases h with
      | last h₁ => rw [h'] at h₁; simp at h₁
      | more h₁ => rw [h'] at h₁; simp at h₁
    | obj h' => simp at e; subst e; have := h.det h'; simp [this.1, this.2]
theorem Members.det {strict strict' : Bool} {rd : Str → F64} {i : Str} {ms : List (Str × Json)} {r : Str} :
    Members strict rd i ms r → ∀ {ms' r'}, Members strict' rd i ms' r' → ms = ms' ∧ r = r'
  | .last h₁ h₂ h₃ h₄ h₅, _, _, h' => by
    cases h' with
    | last g₁ g₂ g₃ g₄ g₅ =>
      rw [h₁] at g₁; simp at g₁; subst g₁
      obtain ⟨rfl, rfl⟩ := h₂.det g₂
      rw [h₃] at g₃; simp at g₃; subst g₃
      obtain ⟨rfl, rfl⟩ := h₄.det g₄ rfl
      rw [h₅] at g₅; simp at g₅; subst g₅
      simp
    | more g₁ g₂ g₃ g₄ g₅ g₆ =>
      rw [h₁] at g₁; simp at g₁; subst g₁
      obtain ⟨rfl, rfl⟩ := h₂.det g₂
      rw [h₃] at g₃; simp at g₃; subst g₃
      obtain ⟨rfl, rfl⟩ := h₄.det g₄ rfl
      rw [h₅] at g₅; simp at g₅
  | .more h₁ h₂ h₃ h₄ h₅ h₆, _, _, h' => by
    cases h' with
    | last g₁ g₂ g₃ g₄ g₅ =>
      rw [h₁] at g₁; simp at g₁; subst g₁
      obtain ⟨rfl, rfl⟩ := h₂.det g₂
      rw [h₃] at g₃; simp at g₃; subst g₃
      obtain ⟨rfl, rfl⟩ := h₄.det g₄ rfl
      rw [h₅] at g₅; simp at g₅
    | more g₁ g₂ g₃ g₄ g₅ g₆ =>
      rw [h₁] at g₁; simp at g₁; subst g₁
      obtain ⟨rfl, rfl⟩ := h₂.det g₂
      rw [h₃] at g₃; simp at g₃; subst g₃
      obtain ⟨rfl, rfl⟩ := h₄.det g₄ rfl
      rw [h₅] at g₅; simp at g₅; subst g₅
      obtain ⟨rfl, rfl⟩ := h₆.det g₆
      simp
end

/-! ### Strings -/

theorem strTail_escape {strict : Bool} (s : Str) (r : Str) (h : strict = true → Plain s) :
    StrTail strict (s.flatMap escapeChar ++ '"' :: r) s r := by
  induction s with
  | nil => exact .done
  | cons c s ih =>
    have ih := ih (fun hs d hd => h hs d (by simp [hd]))
    simp only [List.flatMap_cons, List.append_assoc]
    by_cases h1 : c = '\\'
    · subst h1; exact .escaped (by decide) ih
    by_cases h2 : c = '"'
    · subst h2; exact .escaped (by decide) ih
    by_cases h3 : c = '\n'
    · subst h3; exact .escaped (by decide) ih
    by_cases h4 : c = '\r'
    · subst h4; exact .escaped (by decide) ih
    by_cases h5 : c = '\t'
    · subst h5; exact .escaped (by decide) ih
    have e : escapeChar c = [c] := by simp [escapeChar, h1, h2, h3, h4, h5]
    rw [e]
    refine .plain h2 h1 (fun hs => ?_) ih
    have := h hs c (by simp)
    simp_all

/-- Strictly read text of `write_string` comes from plain strings. -/
theorem plain_of_strTail (s : Str) {r s' r' : Str} (h : StrTail true (s.flatMap escapeChar ++ '"' :: r) s' r') :
    Plain s := by
  induction s generalizing s' with
  | nil => intro c hc; simp at hc
  | cons c s ih =>
    simp only [List.flatMap_cons, List.append_assoc] at h
    have key : ∀ {s''}, StrTail true (s.flatMap escapeChar ++ '"' :: r) s'' r' →
        (32 ≤ c.toNat ∨ c = '\n' ∨ c = '\r' ∨ c = '\t') → Plain (c :: s) := by
      intro s'' g hc d hd
      rcases List.mem_cons.1 hd with rfl | hd
      · exact hc
      · exact ih g d hd
    have esc : ∀ (e x : Char) (i : Str), e ≠ 'u' → StrTail true ('\\' :: e :: i) s' r' →
        ∃ s'', StrTail true i s'' r' := by
      intro e x i he g
      cases g with
      | plain _ h₂ => exact absurd rfl h₂
      | escaped _ g => exact ⟨_, g⟩
      | unicode => exact absurd rfl he
      | pair => exact absurd rfl he
    by_cases h1 : c = '\\'
    · subst h1; obtain ⟨_, g⟩ := esc '\\' 'a' _ (by decide) h; exact key g (by decide)
    by_cases h2 : c = '"'
    · subst h2; obtain ⟨_, g⟩ := esc '"' 'a' _ (by decide) h; exact key g (by decide)
    by_cases h3 : c = '\n'
    · subst h3; obtain ⟨_, g⟩ := esc 'n' 'a' _ (by decide) h; exact key g (by decide)
    by_cases h4 : c = '\r'
    · subst h4; obtain ⟨_, g⟩ := esc 'r' 'a' _ (by decide) h; exact key g (by decide)
    by_cases h5 : c = '\t'
    · subst h5; obtain ⟨_, g⟩ := esc 't' 'a' _ (by decide) h; exact key g (by decide)
    have e : escapeChar c = [c] := by simp [escapeChar, h1, h2, h3, h4, h5]
    rw [e, List.singleton_append] at h
    generalize s.flatMap escapeChar ++ '"' :: r = x at h key
    cases h with
    | done => exact absurd rfl h2
    | plain _ _ h₃ g => exact key g (.inl (h₃ rfl))
    | escaped => exact absurd rfl h1
    | unicode => exact absurd rfl h1
    | pair => exact absurd rfl h1

/-! ### Trees -/

theorem wellNested_tree {ds : List MetaData} (h : WellNested ds) : ∃ ms, Tree ds ms := by
  induction h with
  | nil => exact ⟨_, .nil⟩
  | @value m rest h _ ih =>
    obtain ⟨ms, ih⟩ := ih
    cases m with
    | startNode => exact absurd trivial h
    | endNode => exact absurd trivial h
    | bool => exact ⟨_, .bool ih⟩
    | f64 => exact ⟨_, .f64 ih⟩
    | string => exact ⟨_, .string ih⟩
  | node _ _ ih₁ ih₂ =>
    obtain ⟨_, ih₁⟩ := ih₁
    obtain ⟨_, ih₂⟩ := ih₂
    exact ⟨_, .node ih₁ ih₂⟩

theorem Tree.wellNested {ds ms} (h : Tree ds ms) : WellNested ds := by
  induction h with
  | nil => exact .nil
  | bool _ ih => exact .value (by simp [IsNode]) ih
  | f64 _ ih => exact .value (by simp [IsNode]) ih
  | string _ ih => exact .value (by simp [IsNode]) ih
  | node _ _ ih₁ ih₂ => exact .node ih₁ ih₂

/-- The members determine the data. -/
theorem Tree.inj {ds ms} (h : Tree ds ms) : ∀ {ds'}, Tree ds' ms → ds = ds' := by
  induction h with
  | nil => intro ds' h'; cases h'; rfl
  | bool _ ih => intro ds' h'; cases h' with | bool h' => rw [ih h']
  | f64 _ ih => intro ds' h'; cases h' with | f64 h' => rw [ih h']
  | string _ ih => intro ds' h'; cases h' with | string h' => rw [ih h']
  | node _ _ ih₁ ih₂ => intro ds' h'; cases h' with | node h₁ h₂ => rw [ih₁ h₁, ih₂ h₂]

/-! ### `write` -/

/-- Text in front of what is still to come. -/
def pre (w : Str) : Comp Str → Comp Str
  | .ok t => .ok (w ++ t)
  | .panic => .panic
  | .timeout => .timeout

theorem pre_pre (a b : Str) (c : Comp Str) : pre a (pre b c) = pre (a ++ b) c := by
  cases c <;> simp [pre]

theorem pre_nil (c : Comp Str) : pre [] c = c := by cases c <;> rfl

/-- What is written between two items. -/
def sep (started first isEnd : Bool) : Str :=
  if !first && !isEnd then [',', '\n'] else if started then ['\n'] else []

theorem writeLoop_value {fmt : F64 → Str} {d : MetaData} (h : ¬ IsNode d) (ds : List MetaData)
    (st f : Bool) (n : Nat) :
    writeLoop fmt (d :: ds) st f n =
      pre (sep st f false ++ List.replicate n ' ' ++ writeItem fmt d) (writeLoop fmt ds true false n) := by
  have h₁ : d.isStart = false := by cases d <;> simp_all [IsNode, MetaData.isStart]
  have h₂ : d.isEnd = false := by cases d <;> simp_all [IsNode, MetaData.isEnd]
  rw [writeLoop]
  simp only [h₁, h₂, sep]
  simp
  cases writeLoop fmt ds true false n <;> simp [pre]

theorem writeLoop_start {fmt : F64 → Str} {name : Str} (ds : List MetaData)
    (st f : Bool) {n : Nat} (hn : n + 1 < 2 ^ 32) :
    writeLoop fmt (.startNode name :: ds) st f n =
      pre (sep st f false ++ List.replicate n ' ' ++ writeItem fmt (.startNode name))
        (writeLoop fmt ds true true (n + 1)) := by
  rw [writeLoop]
  simp only [MetaData.isStart, MetaData.isEnd, sep]
  have : n < 4294967295 := by omega
  simp [this]
  cases writeLoop fmt ds true true (n + 1) <;> simp [pre, this]

theorem writeLoop_end {fmt : F64 → Str} {name : Str} (ds : List MetaData) (f : Bool) (n : Nat) :
    writeLoop fmt (.endNode name :: ds) true f (n + 1) =
      pre ('\n' :: List.replicate n ' ' ++ ['}']) (writeLoop fmt ds true false n) := by
  rw [writeLoop]
  simp only [MetaData.isStart, MetaData.isEnd, writeItem]
  simp
  cases writeLoop fmt ds true false n <;> simp [pre]

theorem skipWs_spaces (n : Nat) (i : Str) : skipWs (List.replicate n ' ' ++ i) = skipWs i := by
  induction n with
  | zero => rfl
  | succ n ih => simp [List.replicate_succ, skipWs, isWs, ih]

theorem skipWs_newline (i : Str) : skipWs ('\n' :: i) = skipWs i := by simp [skipWs, isWs]

theorem skipWs_quote (i : Str) : skipWs ('"' :: i) = '"' :: i := by simp [skipWs, isWs]
theorem skipWs_colon (i : Str) : skipWs (':' :: i) = ':' :: i := by simp [skipWs, isWs]
theorem skipWs_comma (i : Str) : skipWs (',' :: i) = ',' :: i := by simp [skipWs, isWs]
theorem skipWs_brace (i : Str) : skipWs ('{' :: i) = '{' :: i := by simp [skipWs, isWs]
theorem skipWs_close (i : Str) : skipWs ('}' :: i) = '}' :: i := by simp [skipWs, isWs]

theorem head_of_skipWs {k r : Str} {c : Char} (h : skipWs k = c :: r) (hc : isNumChar c = false) :
    ∀ d, k.head? = some d → isNumChar d = false := by
  intro d hd
  cases k with
  | nil => simp at hd
  | cons e k =>
    simp at hd
    subst hd
    simp only [skipWs] at h
    split at h
    · rename_i hw
      simp only [isWs, Bool.or_eq_true, beq_iff_eq] at hw
      rcases hw with ((rfl | rfl) | rfl) | rfl <;> decide
    · simp at h; rw [h.1]; exact hc

/-- What comes after an item: the end of the object or more members. -/
def Follows (strict : Bool) (rd : Str → F64) (k : Str) (ms : List (Str × Json)) (r : Str) : Prop :=
  (ms = [] ∧ skipWs k = '}' :: r) ∨ (∃ k', skipWs k = ',' :: k' ∧ Members strict rd k' ms r)

theorem Follows.head {strict rd k ms r} (h : Follows strict rd k ms r) :
    ∀ d, k.head? = some d → isNumChar d = false := by
  rcases h with ⟨_, h⟩ | ⟨k', h, _⟩
  · exact head_of_skipWs h (by decide)
  · exact head_of_skipWs h (by decide)

theorem members_cons {strict rd i i₁ i₂ i₃ i₄ k v ms r} (h₁ : skipWs i = '"' :: i₁) (h₂ : StrTail strict i₁ k i₂)
    (h₃ : skipWs i₂ = ':' :: i₃) (h₄ : Value strict rd (skipWs i₃) v i₄) (h₅ : Follows strict rd i₄ ms r) :
    Members strict rd i ((k, v) :: ms) r := by
  rcases h₅ with ⟨rfl, h⟩ | ⟨k', h, hm⟩
  · exact .last h₁ h₂ h₃ h₄ h
  · exact .more h₁ h₂ h₃ h₄ h hm

/-- A member with the separator and indentation in front of it. -/
theorem member_text {strict rd k v ms r} {val cont : Str} {st f : Bool} {n : Nat}
    (hk : strict = true → Plain k)
    (hv : Value strict rd (skipWs (val ++ cont)) v cont) (hf : Follows strict rd cont ms r) :
    let w := sep st f false ++ List.replicate n ' ' ++ (writeString k ++ ':' :: val) ++ cont
    if f then Members strict rd w ((k, v) :: ms) r
    else ∃ w', w = ',' :: w' ∧ Members strict rd w' ((k, v) :: ms) r := by
  have base : ∀ w, skipWs w = writeString k ++ ':' :: val ++ cont → Members strict rd w ((k, v) :: ms) r := by
    intro w hw
    refine members_cons (i₁ := k.flatMap escapeChar ++ '"' :: (':' :: (val ++ cont))) (by simp [hw, writeString])
      (strTail_escape k _ hk) (skipWs_colon _) hv hf
  have hs : skipWs (writeString k ++ ':' :: val ++ cont) = writeString k ++ ':' :: val ++ cont := by
    simp [writeString, skipWs_quote]
  cases f with
  | true =>
    simp
    apply base
    cases st
    · simp only [sep]
      simp [skipWs_spaces] at hs ⊢
      exact hs
    · simp only [sep]
      simp [skipWs_spaces, skipWs_newline] at hs ⊢
      exact hs
  | false =>
    simp
    refine ⟨'\n' :: (List.replicate n ' ' ++ (writeString k ++ ':' :: (val ++ cont))), by simp [sep], base _ ?_⟩
    rw [skipWs_newline, skipWs_spaces]
    simpa using hs

/-- What `write` makes of a list of members, whatever comes next. -/
theorem writeLoop_tree {fmt : F64 → Str} {rd : Str → F64} (hL : LawfulFmt fmt rd) {strict : Bool}
    {ds ms} (h : Tree ds ms) :
    ∀ (st f : Bool) (n : Nat), n + ds.length < 2 ^ 32 → FiniteNumbers ds →
    (strict = true → ∀ d ∈ ds, ∀ s ∈ strings d, Plain s) →
    ∃ w, (∀ rest, writeLoop fmt (ds ++ rest) st f n =
        pre w (writeLoop fmt rest (st || !ds.isEmpty) (f && ds.isEmpty) n)) ∧
      (ds = [] → w = []) ∧
      (ds ≠ [] → ∀ k r, skipWs k = '}' :: r →
        if f then Members strict rd (w ++ k) ms r
        else ∃ w', w ++ k = ',' :: w' ∧ Members strict rd w' ms r) := by
  -- the rest of the members
  have follows : ∀ {ds ms w k r}, Tree ds ms → (ds = [] → w = []) →
      (ds ≠ [] → ∀ k r, skipWs k = '}' :: r →
        if false = true then Members strict rd (w ++ k) ms r
        else ∃ w', w ++ k = ',' :: w' ∧ Members strict rd w' ms r) →
      skipWs k = '}' :: r → Follows strict rd (w ++ k) ms r := by
    intro ds ms w k r ht h₁ h₂ hk
    by_cases hd : ds = []
    · subst hd
      cases ht
      exact .inl ⟨rfl, by simpa [h₁ rfl] using hk⟩
    · obtain ⟨w', e, hm⟩ := (by simpa using h₂ hd k r hk : ∃ w', w ++ k = ',' :: w' ∧ Members strict rd w' ms r)
      exact .inr ⟨w', by rw [e, skipWs_comma], hm⟩
  -- a single value
  have value : ∀ {d : MetaData} {ds : List MetaData} {ms : List (Str × Json)} {name val : Str} {v : Json},
      ¬ IsNode d → writeItem fmt d = writeString name ++ ':' :: val →
      (strict = true → Plain name) →
      (∀ cont, (∀ c, cont.head? = some c → isNumChar c = false) → Value strict rd (skipWs (val ++ cont)) v cont) →
      Tree ds ms →
      (∀ (st f : Bool) (n : Nat), n + ds.length < 2 ^ 32 →
        ∃ w, (∀ rest, writeLoop fmt (ds ++ rest) st f n =
            pre w (writeLoop fmt rest (st || !ds.isEmpty) (f && ds.isEmpty) n)) ∧
          (ds = [] → w = []) ∧
          (ds ≠ [] → ∀ k r, skipWs k = '}' :: r →
            if f then Members strict rd (w ++ k) ms r
            else ∃ w', w ++ k = ',' :: w' ∧ Members strict rd w' ms r)) →
      ∀ (st f : Bool) (n : Nat), n + (d :: ds).length < 2 ^ 32 →
        ∃ w, (∀ rest, writeLoop fmt (d :: ds ++ rest) st f n =
            pre w (writeLoop fmt rest (st || !(d :: ds).isEmpty) (f && (d :: ds).isEmpty) n)) ∧
          (d :: ds = [] → w = []) ∧
          (d :: ds ≠ [] → ∀ k r, skipWs k = '}' :: r →
            if f then Members strict rd (w ++ k) ((name, v) :: ms) r
            else ∃ w', w ++ k = ',' :: w' ∧ Members strict rd w' ((name, v) :: ms) r) := by
    intro d ds ms name val v hd hw hp hv ht ih st f n hn
    obtain ⟨w, h₁, h₂, h₃⟩ := ih true false n (by simp at hn; omega)
    refine ⟨sep st f false ++ List.replicate n ' ' ++ writeItem fmt d ++ w, fun rest => ?_, by simp, ?_⟩
    · rw [List.cons_append, writeLoop_value hd, h₁, pre_pre]
      simp
    · intro _ k r hk
      have hf := follows ht h₂ h₃ hk
      have := member_text (st := st) (f := f) (n := n) hp (hv (w ++ k) hf.head) hf
      rw [hw]
      simpa using this
  induction h with
  | nil =>
    intro st f n _ _ _
    exact ⟨[], fun rest => by simp [pre_nil], fun _ => rfl, fun h => absurd rfl h⟩
  | @bool name b ds ms ht ih =>
    intro st f n hn hfin hpl
    refine value (val := if b then c!"true" else c!"false") (by simp [IsNode]) rfl
      (fun hs => hpl hs (.bool name b) (by simp) name (by simp [strings])) ?_ ht
      (fun st f n hn => ih st f n hn (fun m x hx => hfin m x (by simp [hx]))
        (fun hs d hd => hpl hs d (by simp [hd]))) st f n hn
    intro cont _
    cases b
    · have : skipWs (c!"false" ++ cont) = c!"false" ++ cont := by simp [skipWs, isWs]
      simp only [Bool.false_eq_true, if_false]
      rw [this]; exact .false
    · have : skipWs (c!"true" ++ cont) = c!"true" ++ cont := by simp [skipWs, isWs]
      simp only [if_true]
      rw [this]; exact .true
  | @f64 name x ds ms ht ih =>
    intro st f n hn hfin hpl
    refine value (val := fmt x) (by simp [IsNode]) rfl
      (fun hs => hpl hs (.f64 name x) (by simp) name (by simp [strings])) ?_ ht
      (fun st f n hn => ih st f n hn (fun m x hx => hfin m x (by simp [hx]))
        (fun hs d hd => hpl hs d (by simp [hd]))) st f n hn
    intro cont hc
    have hx := hfin name x (by simp)
    have hnum := hL.number x hx
    have : skipWs (fmt x ++ cont) = fmt x ++ cont := by
      obtain ⟨c, t, e, _⟩ := hnum.head
      have := (hnum.head_ne (r := cont) (c := c) (t := t ++ cont) (by simp [e])).2.2.2.2
      simp [e, skipWs, this]
    rw [this]
    have h := Value.num (strict := strict) (rd := rd) hnum hc
    rw [hL.back x hx] at h
    exact h
  | @string name s ds ms ht ih =>
    intro st f n hn hfin hpl
    refine value (val := writeString s) (by simp [IsNode]) rfl
      (fun hs => hpl hs (.string name s) (by simp) name (by simp [strings])) ?_ ht
      (fun st f n hn => ih st f n hn (fun m x hx => hfin m x (by simp [hx]))
        (fun hs d hd => hpl hs d (by simp [hd]))) st f n hn
    intro cont _
    have := strTail_escape s cont (fun hs => hpl hs (.string name s) (by simp) s (by simp [strings]))
    simp only [writeString, List.cons_append, List.append_assoc, skipWs_quote]
    exact .str (by simpa using this)
  | @node name body sub ds ms hb ht ih₁ ih₂ =>
    intro st f n hn hfin hpl
    simp at hn
    obtain ⟨w₁, a₁, a₂, a₃⟩ := ih₁ true true (n + 1) (by omega) (fun m x hx => hfin m x (by simp [hx]))
      (fun hs d hd => hpl hs d (by simp [hd]))
    obtain ⟨w₂, b₁, b₂, b₃⟩ := ih₂ true false n (by omega) (fun m x hx => hfin m x (by simp [hx]))
      (fun hs d hd => hpl hs d (by simp [hd]))
    refine ⟨sep st f false ++ List.replicate n ' ' ++ writeItem fmt (.startNode name) ++ w₁ ++
      ('\n' :: List.replicate n ' ' ++ ['}']) ++ w₂, fun rest => ?_, by simp, ?_⟩
    · rw [List.cons_append, List.cons_append, writeLoop_start _ _ _ (by omega), List.append_assoc body, a₁,
        List.cons_append, Bool.true_or, writeLoop_end, b₁, pre_pre, pre_pre, pre_pre]
      simp
    · intro _ k r hk
      have hf := follows ht b₂ b₃ hk
      have hv : Value strict rd (skipWs (('{' :: (w₁ ++ ('\n' :: List.replicate n ' ' ++ ['}']))) ++ (w₂ ++ k)))
          (.obj sub) (w₂ ++ k) := by
        rw [List.cons_append, skipWs_brace]
        have hc : skipWs ('\n' :: List.replicate n ' ' ++ ['}'] ++ (w₂ ++ k)) = '}' :: (w₂ ++ k) := by
          simp [skipWs_newline, skipWs_spaces, skipWs_close]
        by_cases hbn : body = []
        · subst hbn
          cases hb
          rw [a₂ rfl]
          exact .empty (by simpa using hc)
        · have := a₃ hbn _ _ hc
          simp only [if_true] at this
          exact .obj (by simpa using this)
      have := member_text (st := st) (f := f) (n := n)
        (fun hs => hpl hs (.startNode name) (by simp) name (by simp [strings])) hv hf
      simpa [writeItem] using this

theorem balance {ds ms} (h : Tree ds ms) :
    ds.countP (·.isStart) = ds.countP (·.isEnd) := by
  induction h with
  | nil => rfl
  | bool _ ih => simpa [MetaData.isStart, MetaData.isEnd] using ih
  | f64 _ ih => simpa [MetaData.isStart, MetaData.isEnd] using ih
  | string _ ih => simpa [MetaData.isStart, MetaData.isEnd] using ih
  | @node name body sub ds ms _ _ ih₁ ih₂ =>
    simp only [List.cons_append, List.countP_cons, List.countP_append, ih₁, ih₂]
    simp [MetaData.isStart, MetaData.isEnd]
    omega

theorem writeJson_tree {fmt : F64 → Str} {rd : Str → F64} (hL : LawfulFmt fmt rd) {strict : Bool}
    {data : List Tok} {ms} (h : Tree (data.map (·.data)) ms) (hlen : data.length < 2 ^ 32)
    (hfin : FiniteNumbers (data.map (·.data)))
    (hpl : strict = true → ∀ d ∈ data.map (·.data), ∀ s ∈ strings d, Plain s) :
    ∃ t, writeJson fmt data = .ok t ∧ IsJson strict rd ('{' :: t ++ ['}']) (.obj ms) := by
  obtain ⟨w, h₁, h₂, h₃⟩ := writeLoop_tree hL h false true 0 (by simpa using hlen) hfin hpl
  refine ⟨w ++ ['\n'], ?_, [], ?_, rfl⟩
  · have := h₁ []
    simp only [List.append_nil] at this
    simp only [writeJson, balance h, Nat.max_self, Nat.min_self, Nat.sub_self]
    rw [this]
    simp [writeLoop, pre]
  · rw [List.cons_append, skipWs_brace]
    have hc : skipWs ['\n', '}'] = ['}'] := by decide
    by_cases hd : data.map (·.data) = []
    · rw [hd] at h
      cases h
      rw [h₂ hd]
      exact .empty hc
    · have := h₃ hd _ _ hc
      simp only [if_true] at this
      exact .obj (by simpa using this)

/-! ### Panics -/

/-- How many more nodes are opened than closed. -/
def bal : List MetaData → Int
  | [] => 0
  | .startNode _ :: ds => 1 + bal ds
  | .endNode _ :: ds => -1 + bal ds
  | _ :: ds => bal ds

theorem bal_eq (data : List Tok) : bal (data.map (·.data)) = depth data := by
  induction data with
  | nil => rfl
  | cons t ts ih =>
    obtain ⟨r, d⟩ := t
    cases d <;> simp [bal, depth, ih]

theorem bal_count (ds : List MetaData) :
    bal ds = (ds.countP (·.isStart) : Int) - (ds.countP (·.isEnd) : Int) := by
  induction ds with
  | nil => rfl
  | cons d ds ih =>
    cases d <;> simp [bal, MetaData.isStart, MetaData.isEnd, ih] <;> omega

theorem writeLoop_total (fmt : F64 → Str) : ∀ (ds : List MetaData) (st f : Bool) (n : Nat),
    n + ds.length < 2 ^ 32 →
    (writeLoop fmt ds st f n = .panic ∧ ∃ a, a <+: ds ∧ (n : Int) + bal a < 0) ∨
    ((∃ t, writeLoop fmt ds st f n = .ok t) ∧ ∀ a, a <+: ds → 0 ≤ (n : Int) + bal a)
  | [], st, f, n, _ => by
    refine .inr ⟨⟨_, rfl⟩, ?_⟩
    intro a ha
    simp at ha
    simp [ha, bal]
  | d :: ds, st, f, n, hn => by
    have lift : ∀ (st' f' : Bool) (m : Nat) (w : Str), m + ds.length < 2 ^ 32 →
        writeLoop fmt (d :: ds) st f n = pre w (writeLoop fmt ds st' f' m) →
        (∀ a, (n : Int) + bal (d :: a) = m + bal a) →
        (writeLoop fmt (d :: ds) st f n = .panic ∧ ∃ a, a <+: d :: ds ∧ (n : Int) + bal a < 0) ∨
        ((∃ t, writeLoop fmt (d :: ds) st f n = .ok t) ∧ ∀ a, a <+: d :: ds → 0 ≤ (n : Int) + bal a) := by
      intro st' f' m w hm e hb
      rcases writeLoop_total fmt ds st' f' m hm with ⟨h, a, ha, hl⟩ | ⟨⟨t, h⟩, hl⟩
      · left
        refine ⟨by rw [e, h]; rfl, d :: a, by simpa using ha, ?_⟩
        rw [hb]; exact hl
      · right
        refine ⟨⟨w ++ t, by rw [e, h]; rfl⟩, ?_⟩
        intro a ha
        cases a with
        | nil => simp [bal]
        | cons x a =>
          simp at ha
          obtain ⟨rfl, ha⟩ := ha
          rw [hb]
          exact hl a ha
    simp only [List.length_cons] at hn
    by_cases hd : IsNode d
    · cases d with
      | startNode name =>
        exact lift true true (n + 1) _ (by omega) (writeLoop_start _ _ _ (by omega)) (fun a => by simp [bal]; omega)
      | endNode name =>
        cases n with
        | zero =>
          left
          refine ⟨by rw [writeLoop]; simp [MetaData.isEnd], [.endNode name], by simp, by simp [bal]⟩
        | succ n =>
          refine lift true false n (sep st f true ++ List.replicate n ' ' ++ ['}']) (by omega) ?_
            (fun a => by simp [bal]; omega)
          rw [writeLoop]
          simp only [MetaData.isStart, MetaData.isEnd, writeItem, sep]
          simp
          cases writeLoop fmt ds true false n <;> simp [pre]
      | bool => exact absurd hd (by simp [IsNode])
      | f64 => exact absurd hd (by simp [IsNode])
      | string => exact absurd hd (by simp [IsNode])
    · exact lift true false n _ (by omega) (writeLoop_value hd _ _ _ _)
        (fun a => by cases d <;> simp_all [bal, IsNode])

theorem writeJson_total (fmt : F64 → Str) (data : List Tok) (hlen : data.length < 2 ^ 31) :
    (writeJson fmt data = .panic ∧ ∃ a, a <+: data ∧ depth a + (depth data).natAbs < 0) ∨
    ((∃ t, writeJson fmt data = .ok t) ∧ ∀ a, a <+: data → 0 ≤ depth a + (depth data).natAbs) := by
  have hs : (data.map (·.data)).countP (·.isStart) ≤ data.length := by
    simpa using List.countP_le_length (p := (·.isStart)) (l := data.map (·.data))
  have he : (data.map (·.data)).countP (·.isEnd) ≤ data.length := by
    simpa using List.countP_le_length (p := (·.isEnd)) (l := data.map (·.data))
  have hb := bal_count (data.map (·.data))
  rw [bal_eq] at hb
  have e : writeJson fmt data = writeLoop fmt (data.map (·.data)) false true (depth data).natAbs := by
    simp only [writeJson]
    congr 1
    rw [Nat.mod_eq_of_lt (by omega), Nat.mod_eq_of_lt (by omega)]
    omega
  rw [e]
  rcases writeLoop_total fmt (data.map (·.data)) false true (depth data).natAbs
    (by simp only [List.length_map]; omega) with ⟨h, a, ha, hl⟩ | ⟨h, hl⟩
  · left
    refine ⟨h, ?_⟩
    obtain ⟨b, hb⟩ := ha
    obtain ⟨x, y, rfl, rfl, rfl⟩ := List.map_eq_append_iff.1 hb.symm
    refine ⟨x, List.prefix_append _ _, ?_⟩
    rw [bal_eq] at hl
    omega
  · right
    refine ⟨h, ?_⟩
    rintro a ⟨b, rfl⟩
    have := hl (a.map (·.data)) (by simp)
    rw [bal_eq] at this
    omega

/-- Outside of what a `u32` can be. -/
def Outside (i : Int) : Prop := i < 0 ∨ 2 ^ 32 ≤ i

theorem writeLoop_any (fmt : F64 → Str) : ∀ (ds : List MetaData) (st f : Bool) (n : Nat), n < 2 ^ 32 →
    (writeLoop fmt ds st f n = .panic ∧ ∃ a, a <+: ds ∧ Outside ((n : Int) + bal a)) ∨
    ((∃ t, writeLoop fmt ds st f n = .ok t) ∧ ∀ a, a <+: ds → ¬ Outside ((n : Int) + bal a))
  | [], st, f, n, hn => by
    refine .inr ⟨⟨_, rfl⟩, ?_⟩
    intro a ha
    simp at ha
    simp [ha, bal, Outside]
    omega
  | d :: ds, st, f, n, hn => by
    have lift : ∀ (st' f' : Bool) (m : Nat) (w : Str), m < 2 ^ 32 →
        writeLoop fmt (d :: ds) st f n = pre w (writeLoop fmt ds st' f' m) →
        (∀ a, (n : Int) + bal (d :: a) = m + bal a) →
        (writeLoop fmt (d :: ds) st f n = .panic ∧ ∃ a, a <+: d :: ds ∧ Outside ((n : Int) + bal a)) ∨
        ((∃ t, writeLoop fmt (d :: ds) st f n = .ok t) ∧ ∀ a, a <+: d :: ds → ¬ Outside ((n : Int) + bal a)) := by
      intro st' f' m w hm e hb
      rcases writeLoop_any fmt ds st' f' m hm with ⟨h, a, ha, hl⟩ | ⟨⟨t, h⟩, hl⟩
      · left
        refine ⟨by rw [e, h]; rfl, d :: a, by simpa using ha, ?_⟩
        rw [hb]; exact hl
      · right
        refine ⟨⟨w ++ t, by rw [e, h]; rfl⟩, ?_⟩
        intro a ha
        cases a with
        | nil => simp [bal, Outside]; omega
        | cons x a =>
          simp at ha
          obtain ⟨rfl, ha⟩ := ha
          rw [hb]
          exact hl a ha
    by_cases hd : IsNode d
    · cases d with
      | startNode name =>
        by_cases h1 : n + 1 < 2 ^ 32
        · exact lift true true (n + 1) _ h1 (writeLoop_start _ _ _ (by omega)) (fun a => by simp [bal]; omega)
        · left
          refine ⟨?_, [.startNode name], by simp, ?_⟩
          · rw [writeLoop]
            simp only [MetaData.isStart, MetaData.isEnd, h1]
            simp
            omega
          · simp [bal, Outside]; omega
      | endNode name =>
        cases n with
        | zero =>
          left
          refine ⟨by rw [writeLoop]; simp [MetaData.isEnd], [.endNode name], by simp, by simp [bal, Outside]⟩
        | succ n =>
          refine lift true false n (sep st f true ++ List.replicate n ' ' ++ ['}']) (by omega) ?_
            (fun a => by simp [bal]; omega)
          rw [writeLoop]
          simp only [MetaData.isStart, MetaData.isEnd, writeItem, sep]
          simp
          cases writeLoop fmt ds true false n <;> simp [pre]
      | bool => exact absurd hd (by simp [IsNode])
      | f64 => exact absurd hd (by simp [IsNode])
      | string => exact absurd hd (by simp [IsNode])
    · exact lift true false n _ hn (writeLoop_value hd _ _ _ _)
        (fun a => by cases d <;> simp_all [bal, IsNode])

end Verif.Spec.Json
