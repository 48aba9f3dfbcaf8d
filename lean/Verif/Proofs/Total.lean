import Verif.Spec.WellFormed
import Verif.Proofs.Safe
import Verif.Proofs.RunProps
/-
Well-formed syntaxes always return.
-/
namespace Verif
open Spec

/-- The goal has a result. -/
def Has (E : Env) (g : Goal) (p : Pos) (i : Nat) : Prop := ∃ o j tr, Run E g p i o j tr

section
variable {E : Env} (hL : E.L.Lawful)
include hL

theorem run_some_le {g p i n ts j tr} (h : Run E g p i (some (n, ts)) j tr) : n ≤ p.src.length :=
  ((run_bounded hL h).1 _ _ rfl).1

omit hL in
theorem has_sel {p : Pos} : ∀ {rs : List Rule}, (∀ r ∈ rs, ∀ i, Has E (.rule r) p i) → ∀ i,
    Has E (.sel rs) p i
  | [], _, i => ⟨_, _, _, .sel_nil⟩
  | r :: rs, h, i => by
    obtain ⟨o, j, tr, h1⟩ := h r (by simp) i
    cases o with
    | some x => exact ⟨_, _, _, .sel_here h1⟩
    | none =>
      obtain ⟨o, k, tr', h2⟩ := has_sel (rs := rs) (fun r hr => h r (by simp [hr])) j
      exact ⟨_, _, _, .sel_next h1 h2⟩

omit hL in
/-- A sequence, when all its rules have results at the positions of at most this length. -/
theorem has_seq {K : Nat} : ∀ {rs : List Rule},
    (∀ r ∈ rs, ∀ p i, p.src.length ≤ K → Has E (.rule r) p i) → ∀ p i, p.src.length ≤ K →
    Has E (.seq rs) p i
  | [], _, p, i, _ => ⟨_, _, _, .seq_nil⟩
  | r :: rs, h, p, i, hp => by
    obtain ⟨o, j, tr, h1⟩ := h r (by simp) p i hp
    cases o with
    | none => exact ⟨_, _, _, .seq_fail h1⟩
    | some x =>
      obtain ⟨n, ts⟩ := x
      obtain ⟨o, k, tr', h2⟩ := has_seq (K := K) (rs := rs) (fun r hr => h r (by simp [hr])) (adv p n) j
        (by simp; omega)
      exact ⟨_, _, _, .seq_cons h1 h2⟩

theorem has_rep {r : Rule} (hr : ¬ CanBeEmpty E r) {K : Nat}
    (h : ∀ p i, p.src.length ≤ K → Has E (.rule r) p i) : ∀ m p i, p.src.length = m → m ≤ K →
    Has E (.rep r) p i := by
  intro m
  induction m using Nat.strongRecOn with
  | _ m ih =>
    intro p i hm hK
    obtain ⟨o, j, tr, h1⟩ := h p i (by omega)
    cases o with
    | none => exact ⟨_, _, _, .rep_stop h1⟩
    | some x =>
      obtain ⟨n, ts⟩ := x
      have hn := run_some_le hL h1
      have hpos : 0 < n := by
        apply Nat.pos_of_ne_zero
        rintro rfl
        exact hr ⟨_, _, _, _, _, h1⟩
      obtain ⟨o, k, tr', h2⟩ := ih (p.src.length - n) (by omega) (adv p n) j (by simp) (by omega)
      exact ⟨_, _, _, .rep_more h1 h2⟩

theorem has_sepTail {r b : Rule} {trail} (hrb : ¬ (CanBeEmpty E r ∧ CanBeEmpty E b)) {K : Nat}
    (h : ∀ p i, p.src.length ≤ K → Has E (.rule r) p i)
    (hb : ∀ p i, p.src.length ≤ K → Has E (.rule b) p i) : ∀ m p i, p.src.length = m → m ≤ K →
    Has E (.sepTail r b trail) p i := by
  intro m
  induction m using Nat.strongRecOn with
  | _ m ih =>
    intro p i hm hK
    obtain ⟨o, j, tr, h1⟩ := hb p i (by omega)
    cases o with
    | none => exact ⟨_, _, _, .sep_stop h1⟩
    | some x =>
      obtain ⟨n, ts⟩ := x
      have hn := run_some_le hL h1
      obtain ⟨o, k, tr', h2⟩ := h (adv p n) j (by simp; omega)
      cases o with
      | none =>
        cases trail with
        | true => exact ⟨_, _, _, .sep_trail h1 h2⟩
        | false => exact ⟨_, _, _, .sep_noTrail h1 h2⟩
      | some x =>
        obtain ⟨n', ts'⟩ := x
        have hn' := run_some_le hL h2
        simp at hn'
        have hpos : 0 < n + n' := by
          apply Nat.pos_of_ne_zero
          intro h0
          obtain ⟨rfl, rfl⟩ : n = 0 ∧ n' = 0 := by omega
          exact hrb ⟨⟨_, _, _, _, _, h2⟩, ⟨_, _, _, _, _, h1⟩⟩
        obtain ⟨o, l, tr'', h3⟩ := ih (p.src.length - (n + n')) (by omega) (adv p (n + n')) k
          (by simp) (by omega)
        exact ⟨_, _, _, .sep_more h1 h2 h3⟩

omit hL in
theorem has_line {r : Rule} {ind first} {K : Nat} (hshort : max 1 E.tab * K + 1 < 2 ^ 32 ∨ ind = false)
    (h : ∀ p i, p.src.length ≤ K → Has E (.rule r) p i) (p i) (hp : p.src.length ≤ K) :
    Has E (.line r ind first) p i := by
  have hbound : ind = true → ∀ k, width E.tab (p.src.take k) + 1 < 2 ^ 32 := by
    intro hi k
    have hshort := hshort.resolve_right (by simp [hi])
    have h1 := width_le E.tab (p.src.take k)
    have h2 : max 1 E.tab * (p.src.take k).length ≤ max 1 E.tab * K :=
      Nat.mul_le_mul_left _ (by simp; omega)
    omega
  cases ind with
  | false =>
    obtain ⟨o, j, tr, h1⟩ := h p i hp
    exact ⟨_, _, _, .line_plain h1⟩
  | true =>
    by_cases hc : ∃ k, Carries E.tab i p.src k
    · obtain ⟨k, hc⟩ := hc
      have hk := hc.2.2.1
      by_cases ha : first = true ∧ E.align = true
      · obtain ⟨rfl, ha⟩ := ha
        have hm := (eatAlign_spec E.tab (p.src.drop k)).1
        generalize (eatAlign E.tab (p.src.drop k)).1 = m at hm
        have hb := hbound rfl (k + m)
        rw [List.take_add, width_append] at hb
        obtain ⟨o, j, tr, h1⟩ := h (adv p (k + m)) (i + width E.tab ((p.src.drop k).take m) + 1)
          (by simp; omega)
        exact ⟨_, _, _, .line_align ha hc hm (by omega) h1⟩
      · by_cases hd : (p.src.drop k).head? = some ' '
        · exact ⟨_, _, _, .line_deep ha hc hd⟩
        · have hb := hbound rfl k
          obtain ⟨o, j, tr, h1⟩ := h (adv p k) (i + 1) (by simp; omega)
          exact ⟨_, _, _, .line_body ha hc hd (by omega) h1⟩
    · exact ⟨_, _, _, .line_shallow hc⟩

theorem has_lines {r : Rule} {ind id} {K : Nat} (hshort : max 1 E.tab * K + 1 < 2 ^ 32 ∨ ind = false)
    (h : ∀ p i, p.src.length ≤ K → Has E (.rule r) p i) :
    ∀ m first item p i, p.src.length ≤ K →
      p.src.length + (if first = true ∨ '\n' ∈ item then 1 else 0) = m →
      Has E (.lines r ind id first item) p i := by
  intro m
  induction m using Nat.strongRecOn with
  | _ m ih =>
    intro first item p i hK hm
    cases hn : E.L.lineNext first item p.src with
    | done k => exact ⟨_, _, _, .lines_done hn⟩
    | fail k => exact ⟨_, _, _, .lines_fail hn⟩
    | call k =>
      obtain ⟨h1, _, _, _, h5⟩ := hL.line_call hn
      obtain ⟨o, j, tr, hl⟩ := has_line (ind := ind) (first := first) hshort h (adv p k) i
        (by simp; omega)
      cases o with
      | none => exact ⟨_, _, _, .lines_stop hn hl⟩
      | some x =>
        obtain ⟨n, ts⟩ := x
        have hle := run_some_le hL hl
        simp at hle
        have hlt : (adv p (k + n)).src.length +
            (if false = true ∨ '\n' ∈ (p.src.drop k).take n then 1 else 0) < m := by
          simp only [adv_src, List.length_drop]
          have hnl : n = 0 → ¬ ('\n' ∈ (p.src.drop k).take n) := by rintro rfl; simp
          have hk : k = 0 → (first = true ∨ '\n' ∈ item) := by
            intro hk
            subst hk
            cases first with
            | true => exact .inl rfl
            | false => have := h5 rfl; simp at this; exact .inr this
          by_cases hn0 : n = 0
          · rw [if_neg (by simp [hnl hn0])]
            by_cases hk0 : k = 0
            · rw [if_pos (hk hk0)] at hm; omega
            · omega
          · by_cases hk0 : k = 0
            · rw [if_pos (hk hk0)] at hm
              split <;> omega
            · split <;> omega
        obtain ⟨o, l, tr', h2⟩ := ih _ hlt false ((p.src.drop k).take n) (adv p (k + n)) j
          (by simp; omega) rfl
        exact ⟨_, _, _, .lines_more hn hl h2⟩

/-- The rules in `S` have results everywhere. -/
theorem has_rule {S : Rule → Prop} (hS : Closed E.refs S) (hix : ∀ r, S r → IndexOk E.refs r)
    (hlp : ∀ r, S r → LoopOk E r) (hacc : ∀ r, S r → Acc (Calls E) r) :
    ∀ K, (max 1 E.tab * K + 1 < 2 ^ 32 ∨ ∀ r id, ¬ S (.lines r true id)) → ∀ r, S r → ∀ p i,
      p.src.length = K → Has E (.rule r) p i := by
  intro K
  induction K using Nat.strongRecOn with
  | _ K ihK =>
    intro hshort r hr
    have hshort' : ∀ k, k ≤ K → (max 1 E.tab * k + 1 < 2 ^ 32 ∨ ∀ r id, ¬ S (.lines r true id)) := by
      intro k hk
      refine hshort.imp_left fun hshort => ?_
      have : max 1 E.tab * k ≤ max 1 E.tab * K := Nat.mul_le_mul_left _ hk
      omega
    have ihK' : ∀ r, S r → ∀ p i, p.src.length < K → Has E (.rule r) p i :=
      fun r hr p i hp => ihK _ hp (hshort' _ (by omega)) r hr p i rfl
    have hrAcc := hacc r hr
    induction hrAcc with
    | intro r _ ihr =>
      have ihr : ∀ c, Calls E c r → S c → ∀ p i, p.src.length ≤ K → Has E (.rule c) p i := by
        intro c hc hSc p i hp
        by_cases hlt : p.src.length < K
        · exact ihK' c hSc p i hlt
        · exact ihr c hc hSc p i (by omega)
      intro p i hp
      cases r with
      | whitespace opt id =>
        have := whitespace_longest p
        by_cases h : p.whitespace.length = 0 ∧ opt = false
        · rw [h.1] at this
          obtain ⟨_, rfl⟩ := h
          exact ⟨_, _, _, .ws_fail this⟩
        · exact ⟨_, _, _, .ws_ok this (by grind)⟩
      | tag t nt inv prop id =>
        by_cases h : t <+: p.src
        · cases nt
          · exact ⟨_, _, _, .tag_ok h⟩
          · exact ⟨_, _, _, .notTag_fail h⟩
        · cases nt
          · exact ⟨_, _, _, .tag_fail h⟩
          · exact ⟨_, _, _, .notTag_ok h⟩
      | untilAny any opt prop id =>
        have := untilAny_longest p any
        by_cases h : (p.untilAny any).length = 0 ∧ opt = false
        · rw [h.1] at this
          obtain ⟨_, rfl⟩ := h
          exact ⟨_, _, _, .until_fail this⟩
        · exact ⟨_, _, _, .until_ok this (by grind)⟩
      | untilAnyOrWs any opt prop id =>
        have := untilAnyOrWs_longest p any
        by_cases h : (p.untilAnyOrWs any).length = 0 ∧ opt = false
        · rw [h.1] at this
          obtain ⟨_, rfl⟩ := h
          exact ⟨_, _, _, .untilWs_fail this⟩
        · exact ⟨_, _, _, .untilWs_ok this (by grind)⟩
      | text empty prop id =>
        cases hs : E.L.str p.src with
        | none => exact ⟨_, _, _, .text_none hs⟩
        | some n =>
          by_cases h2 : n = 2 ∧ empty = false
          · obtain ⟨rfl, rfl⟩ := h2
            exact ⟨_, _, _, .text_empty hs⟩
          · cases ht : E.L.parseStr p.src n with
            | ok t => exact ⟨_, _, _, .text_ok hs (by grind) ht⟩
            | error e => exact ⟨_, _, _, .text_bad hs (by grind) ht⟩
      | number prop us id =>
        cases hs : E.L.num us p.src with
        | none => exact ⟨_, _, _, .num_none hs⟩
        | some n =>
          cases ht : E.L.parseNum us p.src n with
          | ok t => exact ⟨_, _, _, .num_ok hs ht⟩
          | error e => exact ⟨_, _, _, .num_bad hs ht⟩
      | select args id =>
        cases args with
        | nil => exact ⟨_, _, _, .select_empty⟩
        | cons a as =>
          obtain ⟨o, j, tr, h⟩ := has_sel (E := E) (p := p) (rs := a :: as)
            (fun c hc i => ihr c (.select hc) (hS.child (.select hc) hr) p i (by omega)) i
          exact ⟨_, _, _, .select h⟩
      | fastSelect tb args tail id =>
        have hargs : ∀ c ∈ args, ∀ i, Has E (.rule c) p i :=
          fun c hc i => ihr c (.fast hc) (hS.child (.fast hc) hr) p i (by omega)
        obtain ⟨ht, hl⟩ := hix _ hr
        cases hsrc : p.src with
        | nil => exact ⟨_, _, _, .fast_end hsrc⟩
        | cons c cs =>
          obtain ⟨b, bs, hb⟩ := utf8_ne_nil c
          by_cases hm : tb b = 255
          · cases tail with
            | false => exact ⟨_, _, _, .fast_miss hsrc hb hm⟩
            | true =>
              have hne := hl rfl
              obtain ⟨o, j, tr, h⟩ := hargs (args.getLast hne) (List.getLast_mem hne) i
              exact ⟨_, _, _, .fastTail_miss hsrc hb hm (List.getLast?_eq_some_getLast hne) h⟩
          · have hlt := ht b hm
            have hg := List.getElem?_eq_getElem hlt
            obtain ⟨o, j, tr, h⟩ := hargs _ (List.getElem_mem hlt) i
            cases tail with
            | false => exact ⟨_, _, _, .fast_hit hsrc hb hm hg h⟩
            | true =>
              cases o with
              | some x => exact ⟨_, _, _, .fastTail_hit hsrc hb hm hg h⟩
              | none =>
                have hne := hl rfl
                obtain ⟨o, k, tr', h'⟩ := hargs (args.getLast hne) (List.getLast_mem hne) j
                exact ⟨_, _, _, .fastTail_next hsrc hb hm hg h (List.getLast?_eq_some_getLast hne) h'⟩
      | sequence args id =>
        suffices hs : ∀ suf pre, args = pre ++ suf → (∀ x ∈ pre, CanBeEmpty E x) → ∀ i,
            Has E (.seq suf) p i by
          obtain ⟨o, j, tr, h⟩ := hs args [] rfl (by simp) i
          exact ⟨_, _, _, .sequence h⟩
        intro suf
        induction suf with
        | nil => intro pre _ _ i; exact ⟨_, _, _, .seq_nil⟩
        | cons c post ihs =>
          intro pre he hpre i
          subst he
          obtain ⟨o, j, tr, h⟩ := ihr c (.sequence hpre) (hS.child (.sequence (by simp)) hr) p i
            (by omega)
          cases o with
          | none => exact ⟨_, _, _, .seq_fail h⟩
          | some x =>
            obtain ⟨n, ts⟩ := x
            have hle := run_some_le hL h
            by_cases hn : n = 0
            · subst hn
              obtain ⟨o, k, tr', h'⟩ := ihs (pre ++ [c]) (by simp) (by
                intro x hx
                rcases List.mem_append.1 hx with hx | hx
                · exact hpre x hx
                · simp at hx; subst hx; exact ⟨_, _, _, _, _, h⟩) j
              exact ⟨_, _, _, .seq_cons h (by simpa [adv] using h')⟩
            · obtain ⟨o, k, tr', h'⟩ := has_seq (E := E) (K := K - 1) (rs := post)
                (fun c' hc' p i hp' => ihK' c' (hS.child (.sequence (by simp [hc'])) hr) p i
                  (by omega)) (adv p n) j (by simp; omega)
              exact ⟨_, _, _, .seq_cons h h'⟩
      | separateBy r b opt trail id =>
        have hSr := hS.child (.item (b := b) (opt := opt) (trail := trail) (id := id)) hr
        have hSb := hS.child (.sep (r := r) (opt := opt) (trail := trail) (id := id)) hr
        have hloop := hlp _ hr
        obtain ⟨o, j, tr, h⟩ := ihr r .item hSr p i (by omega)
        cases o with
        | none =>
          cases opt with
          | true => exact ⟨_, _, _, .sep_none h⟩
          | false => exact ⟨_, _, _, .sep_fail h⟩
        | some x =>
          obtain ⟨n, ts⟩ := x
          have hle := run_some_le hL h
          by_cases hn : n = 0
          · subst hn
            obtain ⟨o, k, tr', h'⟩ := has_sepTail (trail := trail) hL hloop (K := K)
              (fun p i hp => ihr r .item hSr p i hp)
              (fun p i hp => ihr b (.sep ⟨_, _, _, _, _, h⟩) hSb p i hp) K (adv p 0) j
              (by simpa using hp) (by omega)
            exact ⟨_, _, _, .sep_first h h'⟩
          · obtain ⟨o, k, tr', h'⟩ := has_sepTail (trail := trail) hL hloop (K := K - 1)
              (fun p i hp => ihK' r hSr p i (by omega))
              (fun p i hp => ihK' b hSb p i (by omega)) _ (adv p n) j rfl (by simp; omega)
            exact ⟨_, _, _, .sep_first h h'⟩
      | repeat_ r opt id =>
        have hSr := hS.child (.repeat_ (opt := opt) (id := id)) hr
        have hloop := hlp _ hr
        cases opt with
        | true =>
          obtain ⟨o, j, tr, h⟩ := has_rep hL hloop (K := K) (fun p i hp => ihr r .repeat_ hSr p i hp)
            K p i hp (by omega)
          exact ⟨_, _, _, .repeat_opt h⟩
        | false =>
          obtain ⟨o, j, tr, h⟩ := ihr r .repeat_ hSr p i (by omega)
          cases o with
          | none => exact ⟨_, _, _, .repeat_fail h⟩
          | some x =>
            obtain ⟨n, ts⟩ := x
            obtain ⟨o, k, tr', h'⟩ := has_rep hL hloop (K := K)
              (fun p i hp => ihr r .repeat_ hSr p i hp) _ (adv p n) j rfl (by simp; omega)
            exact ⟨_, _, _, .repeat_ok h h'⟩
      | lines r ind id =>
        have hSr := hS.child (.lines (ind := ind) (id := id)) hr
        obtain ⟨o, j, tr, h⟩ := has_lines hL (r := r) (ind := ind) (id := id) (K := K)
          (hshort.imp_right fun h => by cases ind; rfl; exact absurd hr (h r id))
          (fun p i hp => ihr r .lines hSr p i hp) _ true [] p i (by omega) rfl
        exact ⟨_, _, _, .lines h⟩
      | node name prop index id =>
        cases index with
        | none => exact ⟨_, _, _, .node_unresolved⟩
        | some ix =>
          have hlt : ix < E.refs.length := hix _ hr
          have hg := List.getElem?_eq_getElem hlt
          obtain ⟨o, j, tr, h⟩ := ihr _ (.node hg) (hS.refs _ (List.getElem_mem hlt)) p i (by omega)
          cases o with
          | none => exact ⟨_, _, _, .node_fail hg h⟩
          | some x => exact ⟨_, _, _, .node_ok hg h⟩
      | optional r id =>
        obtain ⟨o, j, tr, h⟩ := ihr r .optional (hS.child .optional hr) p i (by omega)
        cases o with
        | none => exact ⟨_, _, _, .optional_none h⟩
        | some x => exact ⟨_, _, _, .optional_some h⟩
      | not r id =>
        obtain ⟨o, j, tr, h⟩ := ihr r .not (hS.child .not hr) p i (by omega)
        cases o with
        | none => exact ⟨_, _, _, .not_ok h⟩
        | some x => exact ⟨_, _, _, .not_fail h⟩

end

/-! ### Acyclic and finite means well founded -/

theorem acc_of_acyclic {α : Type} {R : α → α → Prop} : ∀ (n : Nat) (l : List α), l.length = n → ∀ r,
    (∀ x, Relation.TransGen R x r → x ∈ l) → (∀ x ∈ l, ¬ Relation.TransGen R x x) → Acc R r := by
  intro n
  induction n using Nat.strongRecOn with
  | _ n ih =>
    intro l hl r hr hac
    classical
    refine .intro r fun y hy => ?_
    have hyl := hr y (.single hy)
    refine ih (l.filter (· ≠ y)).length ?_ _ rfl y ?_ ?_
    · rw [← hl]
      exact List.length_filter_lt_length_iff_exists.2 ⟨y, hyl, by simp⟩
    · intro x hx
      rw [List.mem_filter]
      refine ⟨hr x (hx.trans (.single hy)), ?_⟩
      simp only [decide_not, Bool.not_eq_eq_eq_not, Bool.not_true, decide_eq_false_iff_not]
      rintro rfl
      exact hac _ hyl hx
    · intro x hx
      exact hac x (List.mem_filter.1 hx).1

mutual
/-- The rules that occur in a rule, listed. -/
def Rule.parts : Rule → List Rule
  | .select args id => .select args id :: Rule.partsL args
  | .fastSelect t args tl id => .fastSelect t args tl id :: Rule.partsL args
  | .sequence args id => .sequence args id :: Rule.partsL args
  | .separateBy r b o t id => .separateBy r b o t id :: (Rule.parts r ++ Rule.parts b)
  | .repeat_ r o id => .repeat_ r o id :: Rule.parts r
  | .lines r i id => .lines r i id :: Rule.parts r
  | .optional r id => .optional r id :: Rule.parts r
  | .not r id => .not r id :: Rule.parts r
  | .whitespace a b => [.whitespace a b]
  | .tag a b c d e => [.tag a b c d e]
  | .untilAny a b c d => [.untilAny a b c d]
  | .untilAnyOrWs a b c d => [.untilAnyOrWs a b c d]
  | .text a b c => [.text a b c]
  | .number a b c => [.number a b c]
  | .node a b c d => [.node a b c d]
def Rule.partsL : List Rule → List Rule
  | [] => []
  | r :: rs => Rule.parts r ++ Rule.partsL rs
end

theorem mem_partsL : ∀ {rs : List Rule} {r x}, r ∈ rs → x ∈ r.parts → x ∈ Rule.partsL rs
  | a :: as, r, x, hr, hx => by
    simp only [Rule.partsL, List.mem_append]
    rcases List.mem_cons.1 hr with rfl | hr
    · exact .inl hx
    · exact .inr (mem_partsL hr hx)

theorem mem_parts {x r : Rule} (h : Occurs x r) : x ∈ r.parts := by
  induction h with
  | refl => cases x <;> simp [Rule.parts]
  | step _ hc ih =>
    cases hc <;> simp only [Rule.parts, List.mem_cons, List.mem_append] <;>
      first
        | exact .inr (mem_partsL (by assumption) ih)
        | exact .inr ih
        | exact .inr (.inl ih)
        | exact .inr (.inr ih)

theorem calls_part {E : Env} {c r : Rule} (h : Calls E c r) (hr : Part E.refs r) : Part E.refs c := by
  obtain ⟨q, hq, hr⟩ := hr
  have hp := closed_occurs (refs := E.refs) (Q := Part E.refs) (fun q hq x hx => ⟨q, hq, hx⟩)
  have hch : ∀ {c}, Child c r → Part E.refs c := fun hc =>
    ⟨q, hq, Occurs.trans (.step .refl hc) hr⟩
  cases h with
  | select h => exact hch (.select h)
  | fast h => exact hch (.fast h)
  | sequence h => exact hch (.sequence (by simp))
  | item => exact hch .item
  | sep h => exact hch .sep
  | repeat_ => exact hch .repeat_
  | lines => exact hch .lines
  | optional => exact hch .optional
  | not => exact hch .not
  | node h => exact ⟨c, List.mem_of_getElem? h, .refl⟩

theorem wellFormed_acc {E : Env} (h : WellFormed E) {r} (hr : Part E.refs r) : Acc (Calls E) r := by
  have hpart : ∀ {x r}, Relation.TransGen (Calls E) x r → Part E.refs r → Part E.refs x := by
    intro x r hx
    induction hx with
    | single h => exact calls_part h
    | tail _ h ih => exact fun hr => ih (calls_part h hr)
  have hlist : ∀ {x}, Part E.refs x → x ∈ Rule.partsL E.refs := by
    rintro x ⟨q, hq, hx⟩
    exact mem_partsL hq (mem_parts hx)
  classical
  refine acc_of_acyclic _ ((Rule.partsL E.refs).filter fun x => decide (Part E.refs x)) rfl r ?_ ?_
  · intro x hx
    have := hpart hx hr
    rw [List.mem_filter]
    exact ⟨hlist this, by simpa using this⟩
  · intro x hx
    have := (List.mem_filter.1 hx).2
    exact h.acyclic x (by simpa using this)

/-- Every rule of a well-formed syntax has a result everywhere. -/
theorem wellFormed_has {E : Env} (hL : E.L.Lawful) (h : WellFormed E)
    (hix : ∀ q ∈ E.refs, RuleOk E.refs q) {r} (hr : Part E.refs r) (p : Pos)
    (hp : ShortFor E.tab p.src ∨ NoIndent E.refs) (i : Nat) : Has E (.rule r) p i := by
  refine has_rule (S := Part E.refs) hL ⟨fun q hq => ⟨q, hq, .refl⟩, ?_⟩ ?_ h.loops
    (fun r hr => wellFormed_acc h hr) _
    (hp.imp_right fun hp r id ⟨q, hq, hr⟩ => hp q hq r id hr) r hr p i rfl
  · rintro c r hc ⟨q, hq, hr⟩
    exact ⟨q, hq, Occurs.trans (.step .refl hc) hr⟩
  · rintro x ⟨q, hq, hx⟩
    exact hix q hq x hx

end Verif
