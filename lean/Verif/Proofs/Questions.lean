import Verif.Proofs.CallDepth
import Verif.Proofs.CallCount
import Verif.Proofs.Erase
import Verif.Proofs.Flat
import Verif.Proofs.Leftover
import Verif.Spec.Questions
/-
Where the calls are, and with which indentation.
-/
namespace Verif
open Spec

/-- `I` is kept when a rule in `P` is read or fails. -/
structure Holds (I : Pos → Indent → Prop) (P : Rule → Prop) (ev : Ev) : Prop where
  ok : ∀ {r st s p range s' e st'}, P r → ev r st s p = .ret (.ok range s' e) st' → I p st.ind → I (p.consume range.length) st'.ind
  err : ∀ {r st s p e st'}, P r → ev r st s p = .ret (.err e) st' → I p st.ind → I p st'.ind

section
variable {I : Pos → Indent → Prop} {P : Rule → Prop} {ev : Ev} (h : Holds I P ev)
include h

theorem selectCalls_holds {s p} : ∀ {rs : List Rule} {st c}, (∀ r ∈ rs, P r) → I p st.ind → c ∈ selectCalls ev s p rs st →
    I c.p c.st.ind
  | [], _, _, _, _, hc => by simp [selectCalls] at hc
  | r :: rs, st, c, hr, hi, hc => by
    simp only [selectCalls, List.mem_cons] at hc
    rcases hc with rfl | hc
    · exact hi
    · split at hc
      · rename_i ho
        exact selectCalls_holds (fun r h => hr r (by simp [h])) (h.err (hr r (by simp)) ho hi) hc
      · simp at hc

theorem fastCalls_holds {tb args tail st s p c} (hr : ∀ r ∈ args, P r) (hi : I p st.ind)
    (hc : c ∈ fastSelectCalls ev tb args tail st s p) : I c.p c.st.ind := by
  have hlast : ∀ st : St, I p st.ind → c ∈ (if tail = true then (match args.getLast? with
      | none => []
      | some sub => [(⟨sub, st, s, p⟩ : Call)]) else []) → I c.p c.st.ind := by
    intro st hi hc
    split at hc
    · split at hc
      · simp at hc
      · rw [List.mem_singleton] at hc
        subst hc
        exact hi
    · simp at hc
  unfold fastSelectCalls at hc
  split at hc
  · simp at hc
  · dsimp only at hc
    split at hc
    · split at hc
      · simp at hc
      · rename_i sub hsub
        rcases List.mem_cons.1 hc with rfl | hc
        · exact hi
        · split at hc
          · rename_i ho
            exact hlast _ (h.err (hr _ (List.mem_of_getElem? hsub)) ho hi) hc
          · simp at hc
    · exact hlast _ hi hc

theorem sequenceCalls_holds : ∀ {rs : List Rule} {p s st c}, (∀ r ∈ rs, P r) → I p st.ind → c ∈ sequenceCalls ev rs p s st →
    I c.p c.st.ind
  | [], _, _, _, _, _, _, hc => by simp [sequenceCalls] at hc
  | r :: rs, p, s, st, c, hr, hi, hc => by
    simp only [sequenceCalls, List.mem_cons] at hc
    rcases hc with rfl | hc
    · exact hi
    · split at hc
      · rename_i ho
        exact sequenceCalls_holds (fun r h => hr r (by simp [h])) (h.ok (hr r (by simp)) ho hi) hc
      · simp at hc

theorem repeatCalls_holds {r : Rule} (hr : P r) : ∀ {fuel : Nat} {p s st c}, I p st.ind → c ∈ repeatCalls ev r fuel p s st →
    I c.p c.st.ind
  | 0, _, _, _, _, _, hc => by simp [repeatCalls] at hc
  | fuel + 1, p, s, st, c, hi, hc => by
    simp only [repeatCalls, List.mem_cons] at hc
    rcases hc with rfl | hc
    · exact hi
    · split at hc
      · rename_i ho
        exact repeatCalls_holds hr (h.ok hr ho hi) hc
      · simp at hc

theorem separateByCalls_holds {r b : Rule} (hr : P r) (hb : P b) : ∀ {fuel : Nat} {p s st c}, I p st.ind →
    c ∈ separateByCalls ev r b fuel p s st → I c.p c.st.ind
  | 0, _, _, _, _, _, hc => by simp [separateByCalls] at hc
  | fuel + 1, p, s, st, c, hi, hc => by
    simp only [separateByCalls, List.mem_cons] at hc
    rcases hc with rfl | hc
    · exact hi
    · split at hc
      · rename_i ho
        have hi' := h.ok hr ho hi
        simp only [List.mem_cons] at hc
        rcases hc with rfl | hc
        · exact hi'
        · split at hc
          · rename_i ho2
            exact separateByCalls_holds hr hb (h.ok hb ho2 hi') hc
          · simp at hc
      · simp at hc

omit h in
theorem linesCalls_holds {L : Lexer} {cl : LineSt → Pos → LineOut} {cc : LineSt → Pos → List Call}
    (hk : ∀ {first item p i k}, L.lineNext first item p.src = .call k → I p i → I (p.consume k) i)
    (hcl : ∀ {x p range x'}, cl x p = .ret (some range) x' → I p x.st.ind → I (p.consume range.length) x'.st.ind)
    (hcc : ∀ {x p c}, c ∈ cc x p → I p x.st.ind → I c.p c.st.ind) : ∀ {fuel : Nat} {first item p x c}, I p x.st.ind →
    c ∈ linesCalls L cl cc fuel first item p x → I c.p c.st.ind
  | 0, _, _, _, _, _, _, hc => by simp [linesCalls] at hc
  | fuel + 1, first, item, p, x, c, hi, hc => by
    simp only [linesCalls] at hc
    split at hc
    · simp at hc
    · simp at hc
    · rename_i k hn
      have hi' := hk hn hi
      rcases List.mem_append.1 hc with hc | hc
      · exact hcc hc hi'
      · split at hc
        · rename_i ho
          exact linesCalls_holds hk hcl hcc (hcl ho hi') hc
        · simp at hc

theorem lineClosure_holds {r : Rule} (hr : P r) {x p range x'} (ho : lineClosure ev r x p = .ret (some range) x')
    (hi : I p x.st.ind) : I (p.consume range.length) x'.st.ind := by
  unfold lineClosure at ho
  split at ho
  · simp at ho
  · rename_i h1
    simp only [LineOut.ret.injEq, Option.some.injEq] at ho
    obtain ⟨rfl, rfl⟩ := ho
    exact h.ok hr h1 hi
  · simp at ho
  · simp at ho

omit h in
theorem nodeCalls_holds {refs : List Rule} {prop index st s p c} (hi : I p st.ind) (hc : c ∈ nodeCalls refs prop index st s p) :
    I c.p c.st.ind := by
  unfold nodeCalls at hc
  split at hc
  · simp at hc
  · dsimp only at hc
    split at hc
    · simp at hc
    · rw [List.mem_singleton] at hc
      subst hc
      cases prop <;> exact hi

end

/-! ### Where and how -/

section
variable {L : Lexer} {refs : List Rule}

/-- What any call comes to, whatever the vector. -/
theorem eval_any (n : Nat) (r : Rule) (st : St) (s : Nat) (p : Pos) :
    Out.Sim (eval L refs n r st s p) (eval L refs n r ⟨[], st.ind⟩ 0 p) := by
  obtain ⟨t, i⟩ := st
  exact eval_sim L refs n r t s [] 0 i p

theorem eval_good (n : Nat) (r : Rule) (ind : Indent) (p : Pos) :
    Good (envOf L refs ind) (.rule r) p ind.indent [] 0 none p.off (eval L refs n r ⟨[], ind⟩ 0 p) :=
  eval_sound (envOf L refs ind) n r ind.indent [] 0 p (Nat.le_refl _)

/-- A rule that is read lies ahead. -/
theorem eval_reads (hL : L.Lawful) {n : Nat} {r : Rule} {st : St} {s : Nat} {p : Pos} {range s' e st'}
    (h : eval L refs n r st s p = .ret (.ok range s' e) st') : range.offset = p.off ∧ range.length ≤ p.src.length := by
  have h1 := eval_any (L := L) (refs := refs) n r st s p
  have h2 := eval_good (L := L) (refs := refs) n r st.ind p
  rw [h] at h1
  generalize eval L refs n r ⟨[], st.ind⟩ 0 p = o at h1 h2
  cases h1 with
  | ok =>
    obtain ⟨m, ts, j, tr, hr, rfl, -⟩ := h2
    have := run_some_le hL hr
    exact ⟨rfl, by simp only; omega⟩

/-- Without indented lines the indentation stays as it is. -/
theorem eval_flat (hn : NoIndent refs) {n : Nat} {r : Rule} (hr : Flat r) {st : St} {s : Nat} {p : Pos} {res st'}
    (h : eval L refs n r st s p = .ret res st') : st'.ind = st.ind := by
  have h1 := eval_any (L := L) (refs := refs) n r st s p
  have h2 := eval_good (L := L) (refs := refs) n r st.ind p
  rw [h] at h1
  generalize eval L refs n r ⟨[], st.ind⟩ 0 p = o at h1 h2
  cases h1 with
  | ok =>
    obtain ⟨m, ts, j, tr, hr', -, -, -, hi, -⟩ := h2
    rw [run_flat (E := envOf L refs st.ind) hn hr hr'] at hi
    exact hi
  | err =>
    obtain ⟨j, tr, hr', -, -, hi, -⟩ := h2
    rw [run_flat (E := envOf L refs st.ind) hn hr hr'] at hi
    exact hi

/-- `p` is a place of the text. -/
def On (text : Str) (p : Pos) : Prop := p.off ≤ text.length ∧ p.src = text.drop p.off

theorem On.consume {text : Str} {p : Pos} (h : On text p) {k : Nat} (hk : k ≤ p.src.length) : On text (p.consume k) := by
  obtain ⟨h1, h2⟩ := h
  have : p.src.length = text.length - p.off := by rw [h2, List.length_drop]
  refine ⟨?_, ?_⟩
  · simp only [Pos.consume]; omega
  · simp only [Pos.consume]; rw [h2, List.drop_drop]

theorem holds_on (hL : L.Lawful) (text : Str) (n : Nat) : Holds (fun p _ => On text p) (fun _ => True) (eval L refs n) where
  ok _ ho hi := hi.consume (eval_reads hL ho).2
  err _ _ hi := hi

theorem holds_flat (hn : NoIndent refs) (ind : Indent) (n : Nat) : Holds (fun _ i => i = ind) Flat (eval L refs n) where
  ok hr ho hi := (eval_flat hn hr ho).trans hi
  err hr ho hi := (eval_flat hn hr ho).trans hi

theorem lineItemCalls_on {r : Rule} {x : LineSt} {p : Pos} {c : Call} {text : Str} (hp : On text p) (h : c ∈ lineItemCalls r x p) :
    On text c.p := by
  unfold lineItemCalls at h
  dsimp only at h
  split at h
  · simp at h
  · rw [List.mem_singleton] at h
    subst h
    exact hp

theorem lineIndentCalls_on {r : Rule} {x : LineSt} {p : Pos} {c : Call} {text : Str} (hp : On text p)
    (h : c ∈ lineClosureIndentCalls r x p) : On text c.p := by
  unfold lineClosureIndentCalls at h
  split at h
  · simp at h
  · rename_i k hk
    have hp' := hp.consume (eatIndent_le _ _ _ _ hk)
    dsimp only at h
    split at h
    · split at h
      · simp at h
      · exact lineItemCalls_on (hp'.consume (eatAlign_le _ _)) h
    · split at h
      · simp at h
      · exact lineItemCalls_on hp' h

theorem lineItem_on (hL : L.Lawful) {n : Nat} {r : Rule} {x x' : LineSt} {p q : Pos} {range : Range} {text : Str} (hp : On text p)
    (hq : On text q) (hpq : p.off ≤ q.off) (h : lineItem (eval L refs n) r x p q = .ret (some range) x') :
    On text (p.consume range.length) := by
  unfold lineItem at h
  dsimp only at h
  split at h
  · simp at h
  · split at h
    · simp at h
    · rename_i ho
      obtain ⟨h1, h2⟩ := eval_reads hL ho
      simp only [LineOut.ret.injEq, Option.some.injEq] at h
      rw [← h.1]
      refine hp.consume ?_
      simp only [hp.2, hq.2, List.length_drop] at h2 ⊢
      have := hq.1
      omega
    · simp at h
    · simp at h

theorem lineIndent_on (hL : L.Lawful) {n : Nat} {r : Rule} {x x' : LineSt} {p : Pos} {range : Range} {text : Str} (hp : On text p)
    (h : lineClosureIndent (eval L refs n) r x p = .ret (some range) x') : On text (p.consume range.length) := by
  unfold lineClosureIndent at h
  split at h
  · simp at h
  · rename_i k hk
    have hp' := hp.consume (eatIndent_le _ _ _ _ hk)
    dsimp only at h
    split at h
    · split at h
      · simp at h
      · exact lineItem_on hL hp (hp'.consume (eatAlign_le _ _)) (by simp only [Pos.consume]; omega) h
    · split at h
      · simp at h
      · exact lineItem_on hL hp hp' (by simp only [Pos.consume]; omega) h

/-- The calls that a call makes are at places of the text. -/
theorem subcalls_on (hL : L.Lawful) {text : Str} {n m : Nat} {c c' : Call} (hc : On text c.p)
    (h : c' ∈ subcalls L refs (eval L refs n) m c) : On text c'.p := by
  have hh := holds_on (refs := refs) hL text n
  obtain ⟨r, st, s, p⟩ := c
  simp only [subcalls] at h
  cases r with
  | whitespace => simp at h
  | tag => simp at h
  | untilAny => simp at h
  | untilAnyOrWs => simp at h
  | text => simp at h
  | number => simp at h
  | select args id => exact selectCalls_holds hh (fun _ _ => trivial) hc h
  | fastSelect => exact fastCalls_holds hh (fun _ _ => trivial) hc h
  | sequence args id => exact sequenceCalls_holds hh (fun _ _ => trivial) hc h
  | separateBy => exact separateByCalls_holds hh trivial trivial hc h
  | repeat_ => exact repeatCalls_holds hh trivial hc h
  | lines r ind id =>
    refine linesCalls_holds (I := fun p _ => On text p) (fun hk hp => hp.consume (hL.line_call hk).1) ?_ ?_ hc h
    · intro x p range x' ho hp
      cases ind with
      | false => exact lineClosure_holds hh trivial ho hp
      | true => exact lineIndent_on hL hp ho
    · intro x p c hc hp
      cases ind with
      | false =>
        simp only [Bool.false_eq_true, if_false, lineClosureCalls, List.mem_singleton] at hc
        subst hc
        exact hp
      | true => exact lineIndentCalls_on hp hc
  | node name prop ix id => exact nodeCalls_holds (I := fun p _ => On text p) hc h
  | optional =>
    rw [List.mem_singleton] at h
    subst h
    exact hc
  | not =>
    rw [List.mem_singleton] at h
    subst h
    exact hc

/-- Without indented lines they have the indentation of the call. -/
theorem subcalls_flat (hn : NoIndent refs) {n m : Nat} {c c' : Call} (hr : Flat c.rule)
    (h : c' ∈ subcalls L refs (eval L refs n) m c) : c'.st.ind = c.st.ind := by
  have hh := holds_flat (L := L) hn c.st.ind n
  obtain ⟨r, st, s, p⟩ := c
  have hf : ∀ {x}, Child x r → Flat x := fun hx => flat_child hr hx
  simp only [subcalls] at h
  cases r with
  | whitespace => simp at h
  | tag => simp at h
  | untilAny => simp at h
  | untilAnyOrWs => simp at h
  | text => simp at h
  | number => simp at h
  | select args id => exact selectCalls_holds hh (fun _ hx => hf (.select hx)) rfl h
  | fastSelect => exact fastCalls_holds hh (fun _ hx => hf (.fast hx)) rfl h
  | sequence args id => exact sequenceCalls_holds hh (fun _ hx => hf (.sequence hx)) rfl h
  | separateBy => exact separateByCalls_holds hh (hf .item) (hf .sep) rfl h
  | repeat_ => exact repeatCalls_holds hh (hf .repeat_) rfl h
  | lines r ind id =>
    cases flat_lines hr
    refine linesCalls_holds (I := fun _ i => i = st.ind) (x := ⟨s, none, true, st⟩) (fun _ hp => hp) ?_ ?_ rfl h
    · intro x p range x' ho hp
      exact lineClosure_holds hh (hf .lines) ho hp
    · intro x p c hc hp
      simp only [Bool.false_eq_true, if_false, lineClosureCalls, List.mem_singleton] at hc
      subst hc
      exact hp
  | node name prop ix id => exact nodeCalls_holds (I := fun _ i => i = st.ind) rfl h
  | optional =>
    rw [List.mem_singleton] at h
    subst h
    rfl
  | not =>
    rw [List.mem_singleton] at h
    subst h
    rfl

end

end Verif
