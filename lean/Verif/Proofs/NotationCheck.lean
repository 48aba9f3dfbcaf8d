import Verif.Proofs.Print
/-
A computable check that a text stands for a given description.  It is sound, for every lawful lexer,
but does not find all texts: strings have to be written as they are printed.
-/
namespace Verif
open Spec

/-- The rest after a prefix. -/
def strip : Str → Str → Option Str
  | [], s => some s
  | c :: p, d :: s => if c = d then strip p s else none
  | _ :: _, [] => none

theorem strip_eq : ∀ {p s r : Str}, strip p s = some r → s = p ++ r
  | [], _, _, h => by simpa [strip] using h
  | _ :: _, [], _, h => by simp [strip] at h
  | c :: p, d :: s, r, h => by
    simp only [strip] at h
    split at h
    · rename_i e; rw [e, strip_eq h]; rfl
    · cases h

/-- The rest after all whitespace. -/
def skipWs (s : Str) : Str := s.dropWhile isWs

theorem skipWs_eq (s : Str) : ∃ w, Space w ∧ s = w ++ skipWs s ∧
    ∀ c, s.head? = some c → isWs c = true → w.head? = some c := by
  refine ⟨s.takeWhile isWs, fun c hc => ?_, by simp [skipWs], ?_⟩
  · have := List.all_takeWhile (p := isWs) (l := s)
    exact List.all_eq_true.1 this c hc
  · intro c hc hw
    cases s with
    | nil => cases hc
    | cons d s => cases hc; simp [hw]

def startsWs (s : Str) : Bool :=
  match s with
  | c :: _ => isWs c
  | [] => false

theorem startsWs_iff {s : Str} (h : startsWs s = true) : ∃ c, s.head? = some c ∧ isWs c = true := by
  cases s with
  | nil => cases h
  | cons c s => exact ⟨c, rfl, h⟩

def nameOk (s : Str) : Bool := !s.isEmpty && s.all fun c => !c!"[]{}():.!?\"".contains c && !isWs c

theorem nameOk_iff {s : Str} (h : nameOk s = true) : IsName s := by
  simp only [nameOk, Bool.and_eq_true, List.all_eq_true] at h
  refine ⟨by rintro rfl; simp at h, fun c hc => ?_⟩
  have := h.2 c hc
  simp only [Bool.not_eq_true'] at this
  refine ⟨?_, this.2⟩
  intro hm
  have h' := this.1
  rw [List.contains_iff_mem.2 hm] at h'
  cases h'

def SetV.eat (empty : Bool) : SetV → Str → Option Str
  | .value t, s => if (quoted t).length ≠ 2 || empty then strip (quoted t) s else none
  | .ref n, s => if nameOk n then strip ('_' :: n) s else none

theorem setV_eat {L : Lexer} (hL : L.Lawful) {empty : Bool} {v : SetV} {s r : Str}
    (h : SetV.eat empty v s = some r) : ∃ a, v.Text L empty a ∧ s = a ++ r := by
  cases v with
  | value t =>
    simp only [SetV.eat] at h
    split at h
    · rename_i e
      refine ⟨quoted t, ⟨quoted_lit hL t, fun h2 => ?_⟩, strip_eq h⟩
      simpa [h2] using e
    · cases h
  | ref n =>
    simp only [SetV.eat] at h
    split at h
    · rename_i e; exact ⟨'_' :: n, ⟨nameOk_iff e, rfl⟩, strip_eq h⟩
    · cases h

def eatSwitch (c : Char) : Option Bool → Str → Option Str
  | none, s => some s
  | some true, s => strip [c] s
  | some false, _ => none

theorem eatSwitch_eq {c : Char} {o : Option Bool} {s r : Str} (h : eatSwitch c o s = some r) :
    ∃ a, Switch c o a ∧ s = a ++ r := by
  match o, h with
  | none, h => exact ⟨[], rfl, by simpa [eatSwitch] using h⟩
  | some true, h => exact ⟨[c], ⟨rfl, rfl⟩, strip_eq h⟩

def eatProp : Option SetV → Str → Option Str
  | none, s => some s
  | some v, s => (strip [':'] s).bind (SetV.eat false v)

theorem eatProp_eq {L : Lexer} (hL : L.Lawful) {p : Option SetV} {s r : Str} (h : eatProp p s = some r) :
    ∃ a, PropText L p a ∧ s = a ++ r := by
  cases p with
  | none => exact ⟨[], rfl, by simpa [eatProp] using h⟩
  | some v =>
    obtain ⟨s', h1, h2⟩ := Option.bind_eq_some_iff.1 h
    obtain ⟨a, h3, rfl⟩ := setV_eat hL h2
    exact ⟨':' :: a, ⟨a, h3, rfl⟩, by rw [strip_eq h1]; simp⟩

mutual
/-- The rest after a text that stands for the description. -/
def eatDesc : Desc → Str → Option Str
  | .whitespace o, s => strip ['.', 'w', sign o] s
  | .untilAnyOrWs any (some b) p, s =>
    (strip c!".." s).bind fun s => (SetV.eat true any s).bind fun s => (strip [sign b] s).bind (eatProp p)
  | .untilAnyOrWs _ none _, _ => none
  | .untilAny any (some b) p, s =>
    (strip c!"..." s).bind fun s => (SetV.eat true any s).bind fun s => (strip [sign b] s).bind (eatProp p)
  | .untilAny _ none _, _ => none
  | .tag neg t none none, s => (eatSwitch '!' neg s).bind (SetV.eat false t)
  | .tag _ _ (some _) none, _ => none
  | .tag neg t inv (some v), s =>
    (eatSwitch '!' neg s).bind fun s => (SetV.eat false t s).bind fun s => (strip [':'] s).bind fun s =>
      (eatSwitch '!' inv s).bind (SetV.eat false v)
  | .text (some b) p, s => (strip ['.', 't', sign b] s).bind (eatProp p)
  | .text none _, _ => none
  | .number u p, s => (strip c!".$" s).bind fun s => (eatSwitch '_' u s).bind (eatProp p)
  | .reference name p, s =>
    if nameOk name && name.head? != some '_' then (strip name s).bind (eatProp p) else none
  | .sequence args, s =>
    if args.isEmpty then none
    else (strip ['['] s).bind fun s => (eatDescs args s).bind (strip [']'])
  | .select args, s =>
    if args.isEmpty then none
    else (strip ['{'] s).bind fun s => (eatDescs args s).bind (strip ['}'])
  | .optional d, s => (strip ['?'] s).bind (eatDesc d)
  | .not d, s => (strip ['!'] s).bind fun s =>
    if s.head? = some '"' ∨ s.head? = some '_' then none else eatDesc d s
  | .separatedBy (some o) t b d, s =>
    (strip ['.', 's', sign o] s).bind fun s => (eatSwitch '.' t s).bind fun s => (strip ['('] s).bind fun s =>
      (eatDesc b (skipWs s)).bind fun s => if startsWs s then
        (eatDesc d (skipWs s)).bind fun s => strip [')'] (skipWs s) else none
  | .separatedBy none _ _ _, _ => none
  | .lines i d, s =>
    (strip c!".l" s).bind fun s => (eatSwitch '+' i s).bind fun s => (strip ['('] s).bind fun s =>
      (eatDesc d (skipWs s)).bind fun s => strip [')'] (skipWs s)
  | .repeat_ o d, s => (strip ['.', 'r', sign o, '('] s).bind fun s => (eatDesc d s).bind (strip [')'])
/-- The same for a list of descriptions. -/
def eatDescs : List Desc → Str → Option Str
  | [], s => some (skipWs s)
  | d :: ds, s => (eatDesc d (skipWs s)).bind fun s =>
    if ds.isEmpty || startsWs s then eatDescs ds s else none
end

mutual
theorem eatDesc_text {L : Lexer} (hL : L.Lawful) : ∀ (d : Desc) {s r : Str}, eatDesc d s = some r →
    ∃ a, d.Text L a ∧ s = a ++ r
  | .whitespace o, s, r, h => ⟨_, rfl, strip_eq h⟩
  | .untilAnyOrWs any (some b) p, s, r, h => by
    simp only [eatDesc, Option.bind_eq_some_iff] at h
    obtain ⟨s1, h1, s2, h2, s3, h3, h4⟩ := h
    obtain ⟨a, ha, rfl⟩ := setV_eat hL h2
    obtain ⟨q, hq, rfl⟩ := eatProp_eq hL h4
    have := strip_eq h3
    subst this
    refine ⟨_, ⟨a, b, q, ha, rfl, hq, rfl⟩, ?_⟩
    rw [strip_eq h1]; simp
  | .untilAnyOrWs _ none _, _, _, h => by simp [eatDesc] at h
  | .untilAny any (some b) p, s, r, h => by
    simp only [eatDesc, Option.bind_eq_some_iff] at h
    obtain ⟨s1, h1, s2, h2, s3, h3, h4⟩ := h
    obtain ⟨a, ha, rfl⟩ := setV_eat hL h2
    obtain ⟨q, hq, rfl⟩ := eatProp_eq hL h4
    have := strip_eq h3
    subst this
    refine ⟨_, ⟨a, b, q, ha, rfl, hq, rfl⟩, ?_⟩
    rw [strip_eq h1]; simp
  | .untilAny _ none _, _, _, h => by simp [eatDesc] at h
  | .tag neg t none none, s, r, h => by
    simp only [eatDesc, Option.bind_eq_some_iff] at h
    obtain ⟨s1, h1, h2⟩ := h
    obtain ⟨n, hn, rfl⟩ := eatSwitch_eq h1
    obtain ⟨a, ha, rfl⟩ := setV_eat hL h2
    exact ⟨_, ⟨n, a, hn, ha, rfl, rfl⟩, by simp⟩
  | .tag _ _ (some _) none, _, _, h => by simp [eatDesc] at h
  | .tag neg t inv (some v), s, r, h => by
    simp only [eatDesc, Option.bind_eq_some_iff] at h
    obtain ⟨s1, h1, s2, h2, s3, h3, s4, h4, h5⟩ := h
    obtain ⟨n, hn, rfl⟩ := eatSwitch_eq h1
    obtain ⟨a, ha, rfl⟩ := setV_eat hL h2
    obtain ⟨i, hi, rfl⟩ := eatSwitch_eq h4
    obtain ⟨b, hb, rfl⟩ := setV_eat hL h5
    exact ⟨_, ⟨n, a, i, b, hn, ha, hi, hb, rfl⟩, by rw [strip_eq h3]; simp⟩
  | .text (some b) p, s, r, h => by
    simp only [eatDesc, Option.bind_eq_some_iff] at h
    obtain ⟨s1, h1, h2⟩ := h
    obtain ⟨q, hq, rfl⟩ := eatProp_eq hL h2
    exact ⟨_, ⟨b, q, rfl, hq, rfl⟩, by rw [strip_eq h1]; simp⟩
  | .text none _, _, _, h => by simp [eatDesc] at h
  | .number u p, s, r, h => by
    simp only [eatDesc, Option.bind_eq_some_iff] at h
    obtain ⟨s1, h1, s2, h2, h3⟩ := h
    obtain ⟨n, hn, rfl⟩ := eatSwitch_eq h2
    obtain ⟨q, hq, rfl⟩ := eatProp_eq hL h3
    exact ⟨_, ⟨n, q, hn, hq, rfl⟩, by rw [strip_eq h1]; simp⟩
  | .reference name p, s, r, h => by
    simp only [eatDesc] at h
    split at h
    · rename_i e
      simp only [Bool.and_eq_true, bne_iff_ne] at e
      obtain ⟨s1, h1, h2⟩ := Option.bind_eq_some_iff.1 h
      obtain ⟨q, hq, rfl⟩ := eatProp_eq hL h2
      exact ⟨_, ⟨q, nameOk_iff e.1, e.2, hq, rfl⟩, by rw [strip_eq h1]; simp⟩
    · cases h
  | .sequence args, s, r, h => by
    simp only [eatDesc] at h
    split at h
    · cases h
    · rename_i e
      simp only [Option.bind_eq_some_iff] at h
      obtain ⟨s1, h1, s2, h2, h3⟩ := h
      obtain ⟨a, ha, rfl, -⟩ := eatDescs_text hL args h2
      refine ⟨_, ⟨by rintro rfl; exact e rfl, a, ha, rfl⟩, ?_⟩
      rw [strip_eq h1, strip_eq h3]; simp
  | .select args, s, r, h => by
    simp only [eatDesc] at h
    split at h
    · cases h
    · rename_i e
      simp only [Option.bind_eq_some_iff] at h
      obtain ⟨s1, h1, s2, h2, h3⟩ := h
      obtain ⟨a, ha, rfl, -⟩ := eatDescs_text hL args h2
      refine ⟨_, ⟨by rintro rfl; exact e rfl, a, ha, rfl⟩, ?_⟩
      rw [strip_eq h1, strip_eq h3]; simp
  | .optional d, s, r, h => by
    simp only [eatDesc, Option.bind_eq_some_iff] at h
    obtain ⟨s1, h1, h2⟩ := h
    obtain ⟨a, ha, rfl⟩ := eatDesc_text hL d h2
    exact ⟨_, ⟨a, ha, rfl⟩, by rw [strip_eq h1]; simp⟩
  | .not d, s, r, h => by
    simp only [eatDesc, Option.bind_eq_some_iff] at h
    obtain ⟨s1, h1, h2⟩ := h
    split at h2
    · cases h2
    · rename_i e
      obtain ⟨a, ha, rfl⟩ := eatDesc_text hL d h2
      refine ⟨_, ⟨a, ha, ?_, ?_, rfl⟩, by rw [strip_eq h1]; simp⟩
      · intro h; exact e (.inl (by cases a <;> simp_all))
      · intro h; exact e (.inr (by cases a <;> simp_all))
  | .separatedBy (some o) t b d, s, r, h => by
    simp only [eatDesc, Option.bind_eq_some_iff] at h
    obtain ⟨s1, h1, s2, h2, s3, h3, s4, h4, h5⟩ := h
    split at h5
    · rename_i e
      obtain ⟨s5, h5, h6⟩ := Option.bind_eq_some_iff.1 h5
      obtain ⟨n, hn, rfl⟩ := eatSwitch_eq h2
      obtain ⟨v, hv, ev, -⟩ := skipWs_eq s3
      obtain ⟨a, ha, ea⟩ := eatDesc_text hL b h4
      obtain ⟨w, hw, ew, hw'⟩ := skipWs_eq s4
      obtain ⟨c, hc, ec⟩ := eatDesc_text hL d h5
      obtain ⟨u, hu, eu, -⟩ := skipWs_eq s5
      obtain ⟨x, hx, hx'⟩ := startsWs_iff e
      have hne : w ≠ [] := by
        have := hw' x hx hx'
        rintro rfl
        cases this
      refine ⟨_, ⟨o, n, v, a, w, c, u, rfl, hn, hv, ha, hw, hne, hc, hu, rfl⟩, ?_⟩
      rw [strip_eq h1, strip_eq h3, ev, ea, ew, ec, eu, strip_eq h6]
      simp
    · cases h5
  | .separatedBy none _ _ _, _, _, h => by simp [eatDesc] at h
  | .lines i d, s, r, h => by
    simp only [eatDesc, Option.bind_eq_some_iff] at h
    obtain ⟨s1, h1, s2, h2, s3, h3, s4, h4, h5⟩ := h
    obtain ⟨n, hn, rfl⟩ := eatSwitch_eq h2
    obtain ⟨v, hv, ev, -⟩ := skipWs_eq s3
    obtain ⟨a, ha, ea⟩ := eatDesc_text hL d h4
    obtain ⟨u, hu, eu, -⟩ := skipWs_eq s4
    refine ⟨_, ⟨n, v, a, u, hn, hv, ha, hu, rfl⟩, ?_⟩
    rw [strip_eq h1, strip_eq h3, ev, ea, eu, strip_eq h5]
    simp
  | .repeat_ o d, s, r, h => by
    simp only [eatDesc, Option.bind_eq_some_iff] at h
    obtain ⟨s1, h1, s2, h2, h3⟩ := h
    obtain ⟨a, ha, rfl⟩ := eatDesc_text hL d h2
    exact ⟨_, ⟨a, ha, rfl⟩, by rw [strip_eq h1, strip_eq h3]; simp⟩
theorem eatDescs_text {L : Lexer} (hL : L.Lawful) : ∀ (ds : List Desc) {s r : Str}, eatDescs ds s = some r →
    ∃ a, Desc.TextL L ds a ∧ s = a ++ r ∧ ∀ c, s.head? = some c → isWs c = true → a.head? = some c
  | [], s, r, h => by
    simp only [eatDescs, Option.some.injEq] at h
    obtain ⟨w, hw, e, hw'⟩ := skipWs_eq s
    exact ⟨w, hw, by rw [← h]; exact e, hw'⟩
  | d :: ds, s, r, h => by
    simp only [eatDescs, Option.bind_eq_some_iff] at h
    obtain ⟨s1, h1, h2⟩ := h
    split at h2
    · rename_i e
      obtain ⟨w, hw, ew, hw'⟩ := skipWs_eq s
      obtain ⟨a, ha, ea⟩ := eatDesc_text hL d h1
      obtain ⟨u, hu, eu, hu'⟩ := eatDescs_text hL ds h2
      refine ⟨w ++ (a ++ u), ⟨w, a, u, hw, ha, hu, fun hne => ?_, rfl⟩, ?_, ?_⟩
      · simp only [Bool.or_eq_true, List.isEmpty_iff, hne, false_or] at e
        obtain ⟨c, hc, hc'⟩ := startsWs_iff e
        exact ⟨c, hu' c hc hc', hc'⟩
      · rw [ew, ea, eu]; simp
      · intro c hc hc'
        have := hw' c hc hc'
        cases w with
        | nil => cases this
        | cons => simpa using this
    · cases h2
end

/-- The rest after a text that stands for a string. -/
def eatString (name text : Str) (s : Str) : Option Str :=
  if nameOk name then (strip ('_' :: name ++ [':']) s).bind fun s => strip (quoted text) (skipWs s) else none

theorem eatString_text {L : Lexer} (hL : L.Lawful) {name text s r : Str} (h : eatString name text s = some r) :
    ∃ a, s = a ++ r ∧ ∀ rest, Entry.Text L (.string name text) a rest := by
  simp only [eatString] at h
  split at h
  · rename_i e
    obtain ⟨s1, h1, h2⟩ := Option.bind_eq_some_iff.1 h
    obtain ⟨w, hw, ew, -⟩ := skipWs_eq s1
    refine ⟨_, ?_, fun _ => ⟨w, quoted text, nameOk_iff e, hw, quoted_lit hL text, rfl⟩⟩
    rw [strip_eq h1, ew, strip_eq h2]; simp
  · cases h

/-- The rest after a text that stands for a node. -/
def eatNode (digits name : Str) (d : Desc) (s : Str) : Option Str :=
  if nameOk name && name.head? != some '_' then
    (strip digits s).bind fun s => if startsWs s then
      (strip name (skipWs s)).bind fun s => if startsWs s then
        (strip ['='] (skipWs s)).bind fun s => eatDesc d (skipWs s) else none
    else none
  else none

theorem eatNode_text {L : Lexer} (hL : L.Lawful) {digits name : Str} {k : F64} {d : Desc} {s r : Str}
    (hN : ∀ c rest, isWs c = true → IsNumber L k digits (c :: rest)) (h : eatNode digits name d s = some r) :
    ∃ a, s = a ++ r ∧ ∀ rest, Entry.Text L (.node k name d) a rest := by
  simp only [eatNode] at h
  split at h
  case isFalse => cases h
  rename_i e
  obtain ⟨s1, h1, h⟩ := Option.bind_eq_some_iff.1 h
  split at h
  case isFalse => cases h
  rename_i e1
  obtain ⟨s2, h2, h⟩ := Option.bind_eq_some_iff.1 h
  split at h
  case isFalse => cases h
  rename_i e2
  obtain ⟨s3, h3, h⟩ := Option.bind_eq_some_iff.1 h
  obtain ⟨a, ha, ea⟩ := eatDesc_text hL d h
  obtain ⟨v, hv, ev, hv'⟩ := skipWs_eq s1
  obtain ⟨w, hw, ew, hw'⟩ := skipWs_eq s2
  obtain ⟨x, hx, ex, -⟩ := skipWs_eq s3
  obtain ⟨c, hc, hc'⟩ := startsWs_iff e1
  obtain ⟨c2, hc2, hc2'⟩ := startsWs_iff e2
  have hv0 := hv' c hc hc'
  have hw0 := hw' c2 hc2 hc2'
  simp only [Bool.and_eq_true, bne_iff_ne] at e
  refine ⟨_, ?_, fun rest => ⟨digits, v, w, x, a, ?_, hv, ?_, nameOk_iff e.1, e.2, hw, ?_, hx, ha, rfl⟩⟩
  · rw [strip_eq h1, ev, strip_eq h2, ew, strip_eq h3, ex, ea]; simp
  · cases v with
    | nil => cases hv0
    | cons y v => cases hv0; exact hN _ _ hc'
  · rintro rfl; cases hv0
  · rintro rfl; cases hw0

end Verif
