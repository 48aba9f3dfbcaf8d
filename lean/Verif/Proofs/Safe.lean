import Verif.Spec.Safe
import Verif.Proofs.Occurs
import Verif.Proofs.Basics
import Verif.Proofs.Erase
/-
No panics: induction on the cut off.
-/
namespace Verif
open Spec

theorem width_le (tab : Nat) : ∀ cs : List Char, width tab cs ≤ max 1 tab * cs.length
  | [] => by simp [width]
  | c :: cs => by
    have := width_le tab cs
    simp only [width, List.length_cons, Nat.mul_add, Nat.mul_one]
    split <;> omega

theorem width_append (tab : Nat) (a b : List Char) :
    width tab (a ++ b) = width tab a + width tab b := by
  induction a with
  | nil => simp [width]
  | cons c a ih => simp [width, ih]; omega

/-- No panic, and the width of tabs stays the same. -/
def Out.Fine (tab : Nat) : Out → Prop
  | .timeout => True
  | .panic => False
  | .ret _ st => st.ind.tabSpaces = tab

def LineOut.Fine (tab : Nat) : LineOut → Prop
  | .timeout => True
  | .panic => False
  | .ret _ x => x.st.ind.tabSpaces = tab

/-- The text is short, or there are no rules for indented lines. -/
def Short (tab : Nat) (P : Rule → Prop) (text : List Char) : Prop :=
  ShortFor tab text ∨ ∀ r id, ¬ P (.lines r true id)

/-- The parser is fine on the rules in `P`. -/
def Ev.Fine (tab : Nat) (P : Rule → Prop) (ev : Ev) : Prop :=
  ∀ r st s p, P r → st.ind.tabSpaces = tab → Short tab P p.src → (ev r st s p).Fine tab

theorem short_consume {tab : Nat} {P : Rule → Prop} {p : Pos} (h : Short tab P p.src) (n : Nat) :
    Short tab P (p.consume n).src := by
  refine h.imp_left fun h => ?_
  have : max 1 tab * (p.src.drop n).length ≤ max 1 tab * p.src.length :=
    Nat.mul_le_mul_left _ (by simp)
  simp only [ShortFor, Pos.consume] at *
  omega

section
variable {tab : Nat} {P : Rule → Prop} {ev : Ev} (hev : Ev.Fine tab P ev)
include hev

theorem evalSelect_fine (id s p) (hp : Short tab P p.src) : ∀ rs oe (st : St), (∀ r ∈ rs, P r) →
    st.ind.tabSpaces = tab → (evalSelect ev id s p rs oe st).Fine tab
  | [], none, st, _, h => h
  | [], some _, st, _, h => h
  | r :: rs, oe, st, hr, h => by
    have := hev r st s p (hr r (by simp)) h hp
    simp only [evalSelect]
    split
    · rename_i he; rw [he] at this; exact this
    · rename_i he; rw [he] at this
      exact evalSelect_fine id s p hp rs _ _ (fun r h => hr r (by simp [h])) this
    · trivial
    · rename_i he; rw [he] at this; exact this

theorem evalSequence_fine (start) : ∀ rs p s oe (st : St), (∀ r ∈ rs, P r) →
    st.ind.tabSpaces = tab → Short tab P p.src → (evalSequence ev start rs p s oe st).Fine tab
  | [], p, s, oe, st, _, h, _ => h
  | r :: rs, p, s, oe, st, hr, h, hp => by
    have := hev r st s p (hr r (by simp)) h hp
    simp only [evalSequence]
    split
    · rename_i he; rw [he] at this
      exact evalSequence_fine start rs _ _ _ _ (fun r h => hr r (by simp [h])) this
        (short_consume hp _)
    · rename_i he; rw [he] at this; exact this
    · trivial
    · rename_i he; rw [he] at this; exact this

theorem evalRepeat_fine {r} (hr : P r) (opt start) : ∀ n first p s oe (st : St),
    st.ind.tabSpaces = tab → Short tab P p.src →
    (evalRepeat ev r opt start n first p s oe st).Fine tab
  | 0, _, _, _, _, _, _, _ => trivial
  | n + 1, first, p, s, oe, st, h, hp => by
    have := hev r st s p hr h hp
    simp only [evalRepeat]
    split
    · rename_i he; rw [he] at this
      exact evalRepeat_fine hr opt start n _ _ _ _ _ this (short_consume hp _)
    · rename_i he; rw [he] at this; split <;> exact this
    · trivial
    · rename_i he; rw [he] at this; exact this

theorem evalSeparateBy_fine {r b} (hr : P r) (hb : P b) (opt trail start) :
    ∀ n first p s oe (st : St), st.ind.tabSpaces = tab → Short tab P p.src →
    (evalSeparateBy ev r b opt trail start n first p s oe st).Fine tab
  | 0, _, _, _, _, _, _, _ => trivial
  | n + 1, first, p, s, oe, st, h, hp => by
    have := hev r st s p hr h hp
    simp only [evalSeparateBy]
    split
    · rename_i he; rw [he] at this; split <;> exact this
    · rename_i range s1 err st1 he
      rw [he] at this
      have hp1 := short_consume hp range.length
      have := hev b st1 s1 (p.consume range.length) hb this hp1
      split
      · rename_i he2; rw [he2] at this; exact this
      · rename_i he2; rw [he2] at this
        exact evalSeparateBy_fine hr hb opt trail start n _ _ _ _ _ this (short_consume hp1 _)
      · trivial
      · rename_i he2; rw [he2] at this; exact this
    · trivial
    · rename_i he; rw [he] at this; exact this

theorem evalFastSelect_fine {tb args tail} (hargs : ∀ r ∈ args, P r)
    (hok : IndexOk [] (.fastSelect tb args tail id')) (id) (st : St) (s p)
    (h : st.ind.tabSpaces = tab) (hp : Short tab P p.src) :
    (evalFastSelect ev tb args tail id st s p).Fine tab := by
  unfold evalFastSelect
  obtain ⟨ht, hl⟩ := hok
  have hget : ∀ b : UInt8, tb b ≠ 255 → ∃ r, args[(tb b).toNat]? = some r ∧ P r := by
    intro b hb
    have hlt := ht b hb
    exact ⟨_, List.getElem?_eq_getElem hlt, hargs _ (List.getElem_mem hlt)⟩
  have hlast : tail = true → ∃ r, args.getLast? = some r ∧ P r := by
    intro h
    have := hl h
    refine ⟨args.getLast this, List.getLast?_eq_some_getLast this, hargs _ (List.getLast_mem this)⟩
  have htail : tail = true → ∀ oe (st : St), st.ind.tabSpaces = tab → Out.Fine tab
      (match args.getLast? with
        | none => .panic
        | some sub =>
          match ev sub st s p with
          | .ret (.ok range s' err) st' =>
            .ret (.ok (p.peek range.length) s' (errUpdate err oe)) st'
          | .ret (.err e) st' => .ret (.err (retErr e oe)) st'
          | .timeout => .timeout
          | .panic => .panic) := by
    intro ht oe st h
    obtain ⟨r, hr, hP⟩ := hlast ht
    rw [hr]
    have := hev r st s p hP h hp
    simp only
    split
    · rename_i he; rw [he] at this; exact this
    · rename_i he; rw [he] at this; exact this
    · trivial
    · rename_i he; rw [he] at this; exact this
  split
  · exact h
  · rename_i ch _ _
    simp only
    split
    · rename_i htl
      split
      · rename_i hne
        obtain ⟨r, hr, hP⟩ := hget _ hne
        rw [hr]
        have := hev r st s p hP h hp
        simp only
        split
        · rename_i he; rw [he] at this; exact this
        · rename_i he; rw [he] at this; exact htail htl _ _ this
        · trivial
        · rename_i he; rw [he] at this; exact this
      · exact htail htl _ _ h
    · split
      · rename_i hne
        obtain ⟨r, hr, hP⟩ := hget _ hne
        rw [hr]
        have := hev r st s p hP h hp
        simp only
        split
        · rename_i he; rw [he] at this; exact this
        · rename_i he; rw [he] at this; exact this
        · trivial
        · rename_i he; rw [he] at this; exact this
      · exact h

theorem evalNode_fine {refs : List Rule} (hrefs : ∀ q ∈ refs, P q) {prop index}
    (hi : ∀ i, index = some i → i < refs.length) (id) (st : St) (s p)
    (h : st.ind.tabSpaces = tab) (hp : Short tab P p.src) :
    (evalNode ev refs prop index id st s p).Fine tab := by
  unfold evalNode
  cases index with
  | none => exact h
  | some i =>
    have hlt := hi i rfl
    simp only
    rw [List.getElem?_eq_getElem hlt]
    simp only
    have := hev refs[i] (pushOpt prop MetaData.startNode p.start st s).1
      (pushOpt prop MetaData.startNode p.start st s).2 p (hrefs _ (List.getElem_mem hlt))
      (by rw [pushOpt_ind]; exact h) hp
    split
    · rename_i he; rw [he] at this; exact this
    · rename_i he; rw [he] at this
      simp only [Out.Fine] at *
      rw [pushOpt_ind]; exact this
    · trivial
    · rename_i he; rw [he] at this; exact this

theorem evalOptional_fine {r} (hr : P r) (st : St) (s p) (h : st.ind.tabSpaces = tab)
    (hp : Short tab P p.src) : (evalOptional ev r st s p).Fine tab := by
  have := hev r st s p hr h hp
  unfold evalOptional
  split
  · rename_i he; rw [he] at this; exact this
  · rename_i he; rw [he] at this; exact this
  · trivial
  · rename_i he; rw [he] at this; exact this

theorem evalNot_fine {r} (hr : P r) (id) (st : St) (s p) (h : st.ind.tabSpaces = tab)
    (hp : Short tab P p.src) : (evalNot ev r id st s p).Fine tab := by
  have := hev r st s p hr h hp
  unfold evalNot
  split
  · rename_i he; rw [he] at this; exact this
  · rename_i he; rw [he] at this; exact this
  · trivial
  · rename_i he; rw [he] at this; exact this

theorem lineClosure_fine {r} (hr : P r) (x : LineSt) (p) (h : x.st.ind.tabSpaces = tab)
    (hp : Short tab P p.src) : (lineClosure ev r x p).Fine tab := by
  have := hev r x.st x.s p hr h hp
  unfold lineClosure
  split
  · rename_i he; rw [he] at this; exact this
  · rename_i he; rw [he] at this; exact this
  · trivial
  · rename_i he; rw [he] at this; exact this

theorem lineItem_fine {r} (hr : P r) (x : LineSt) (p0 p) (h : x.st.ind.tabSpaces = tab)
    (hp : Short tab P p.src) (hi : x.st.ind.indent + 1 < 2 ^ 32) :
    (lineItem ev r x p0 p).Fine tab := by
  unfold lineItem
  simp only
  rw [if_neg (by omega)]
  have := hev r { x.st with ind := { x.st.ind with indent := x.st.ind.indent + 1 } } x.s p hr h hp
  split
  · rename_i he; rw [he] at this; exact this
  · rename_i he; rw [he] at this; exact this
  · trivial
  · rename_i he; rw [he] at this; exact this

theorem lineClosureIndent_fine {r} (hr : P r) (x : LineSt) (p) (h : x.st.ind.tabSpaces = tab)
    (hp : ShortFor tab p.src) : (lineClosureIndent ev r x p).Fine tab := by
  have hp' : Short tab P p.src := .inl hp
  have hbound : ∀ k, width tab (p.src.take k) + 1 < 2 ^ 32 := by
    intro k
    have h1 := width_le tab (p.src.take k)
    have h2 : max 1 tab * (p.src.take k).length ≤ max 1 tab * p.src.length :=
      Nat.mul_le_mul_left _ (by simp; omega)
    simp only [ShortFor] at hp
    omega
  unfold lineClosureIndent
  split
  · exact h
  · rename_i k hk
    rw [h] at hk
    have hc := (eatIndent_some _ _ _ _ hk).2.2.1
    simp only
    split
    · rw [h]
      have ha := (eatAlign_spec tab (p.consume k).src).2
      generalize hkw : eatAlign tab (p.consume k).src = kw at *
      obtain ⟨k', w⟩ := kw
      simp only at *
      have hb := hbound (k + k')
      rw [List.take_add, width_append] at hb
      simp only [Pos.consume] at ha
      rw [if_neg (by omega)]
      refine lineItem_fine hev hr _ _ _ rfl (short_consume (short_consume hp' _) _) ?_
      simp only
      omega
    · split
      · exact h
      · refine lineItem_fine hev hr _ _ _ h (short_consume hp' _) ?_
        have := hbound k
        omega

omit hev in
theorem evalLines_fine {L : Lexer} {closure : LineSt → Pos → LineOut}
    (hc : ∀ x p, x.st.ind.tabSpaces = tab → Short tab P p.src → (closure x p).Fine tab) (id start) :
    ∀ n first item p x, x.st.ind.tabSpaces = tab → Short tab P p.src →
      (evalLines L closure id start n first item p x).Fine tab
  | 0, _, _, _, _, _, _ => trivial
  | n + 1, first, item, p, x, h, hp => by
    simp only [evalLines]
    split
    · exact h
    · exact h
    · rename_i k _
      have hp1 := short_consume hp k
      have := hc x _ h hp1
      split
      · rename_i he; rw [he] at this; exact this
      · rename_i he; rw [he] at this
        exact evalLines_fine hc id start n _ _ _ _ this (short_consume hp1 _)
      · trivial
      · rename_i he; rw [he] at this; exact this

end

theorem emitOpt_fine {tab prop mk r st s} (h : st.ind.tabSpaces = tab) :
    (emitOpt prop mk r st s).Fine tab := by
  cases prop <;> exact h

/-- No run of the parser on rules with indices in range panics. -/
theorem eval_fine {L : Lexer} {refs : List Rule} {tab : Nat} {P : Rule → Prop} (hP : Closed refs P)
    (hok : ∀ r, P r → IndexOk refs r) : ∀ n, Ev.Fine tab P (eval L refs n)
  | 0 => fun _ _ _ _ _ _ _ => trivial
  | n + 1 => by
    have ih := eval_fine (L := L) (tab := tab) hP hok n
    intro r st s p hr h hp
    have hi := hok r hr
    rw [eval]
    cases r with
    | whitespace opt id =>
      simp only [step, evalWhitespace]
      split <;> exact h
    | tag =>
      simp only [step, evalTag]
      split <;> split <;> first | exact h | exact emitOpt_fine h
    | untilAny =>
      simp only [step, evalUntilAny]
      split <;> first | exact h | exact emitOpt_fine h
    | untilAnyOrWs =>
      simp only [step, evalUntilAnyOrWs]
      split <;> first | exact h | exact emitOpt_fine h
    | text =>
      simp only [step, evalText]
      split
      · split
        · exact h
        · split <;> first | exact h | exact emitOpt_fine h
      · exact h
    | number =>
      simp only [step, evalNumber]
      split
      · split <;> first | exact h | exact emitOpt_fine h
      · exact h
    | select args id =>
      exact evalSelect_fine ih id s p hp args none st (fun c hc => hP.child (.select hc) hr) h
    | fastSelect tb args tail id =>
      exact evalFastSelect_fine (id' := id) ih (fun c hc => hP.child (.fast hc) hr) hi id st s p h hp
    | sequence args id =>
      exact evalSequence_fine ih p args p s none st (fun c hc => hP.child (.sequence hc) hr) h hp
    | separateBy r b opt trail id =>
      exact evalSeparateBy_fine ih (hP.child .item hr) (hP.child .sep hr) _ _ _ _ _ _ _ _ _ h hp
    | repeat_ r opt id => exact evalRepeat_fine ih (hP.child .repeat_ hr) _ _ _ _ _ _ _ _ h hp
    | lines r ind id =>
      have hc := hP.child .lines hr
      simp only [step]
      refine evalLines_fine ?_ _ _ _ _ _ _ _ h hp
      intro x p hx hp
      cases ind
      · exact lineClosure_fine ih hc x p hx hp
      · rcases hp with hp | hp
        · exact lineClosureIndent_fine ih hc x p hx hp
        · exact absurd hr (hp r id)
    | node name prop index id =>
      refine evalNode_fine ih hP.refs ?_ id st s p h hp
      intro i hix
      subst hix
      exact hi
    | optional r id => exact evalOptional_fine ih (hP.child .optional hr) st s p h hp
    | not r id => exact evalNot_fine ih (hP.child .not hr) id st s p h hp

end Verif
