import Verif.Model.Optimize
import Verif.Proofs.RunProps
import Verif.Proofs.Api
import Verif.Proofs.Occurs
import Verif.Spec.Optimize
/-
The look-up table and the optimizer as a relation between rules.
-/
namespace Verif
open Spec

/-! ### The table -/

/-- What `uniqueLoop` has established about the first `upTo` arguments. -/
structure TableSpec (refs : List Rule) (n : Nat) (args : List Rule) (t : Table) (u : Nat) : Prop where
  len : u ≤ args.length
  small : u ≤ 255
  entry : ∀ j, j < u → ∃ r b, args[j]? = some r ∧ uniqueByte refs n r = .ok (some b) ∧
    t b = UInt8.ofNat j
  only : ∀ b, t b ≠ 255 → (t b).toNat < u ∧
    ∃ r, args[(t b).toNat]? = some r ∧ uniqueByte refs n r = .ok (some b)

/-- Why the table covers no more arguments. -/
def TableStop (refs : List Rule) (n : Nat) (args : List Rule) (t : Table) (u : Nat) : Prop :=
  u = args.length ∨ u = 255 ∨ ∃ r, args[u]? = some r ∧
    (uniqueByte refs n r = .ok none ∨ ∃ b, uniqueByte refs n r = .ok (some b) ∧ t b ≠ 255)

theorem uniqueLoop_spec {refs : List Rule} {n : Nat} {args : List Rule} :
    ∀ (rs : List Rule) (i : Nat) (t : Table), args.drop i = rs → TableSpec refs n args t i →
      ∀ t' u, uniqueLoop refs n i rs t i = .ok (t', u) →
        TableSpec refs n args t' u ∧ TableStop refs n args t' u
  | [], i, t, hd, hs, t', u, h => by
    simp only [uniqueLoop, Comp.ok.injEq, Prod.mk.injEq] at h
    obtain ⟨rfl, rfl⟩ := h
    refine ⟨hs, .inl ?_⟩
    have := List.drop_eq_nil_iff.1 hd
    have := hs.len
    omega
  | r :: rs, i, t, hd, hs, t', u, h => by
    have hi : args[i]? = some r := by
      rw [← List.head?_drop, hd]; rfl
    have hlt : i < args.length := (List.getElem?_eq_some_iff.1 hi).1
    unfold uniqueLoop at h
    split at h
    · simp only [Comp.ok.injEq, Prod.mk.injEq] at h
      obtain ⟨rfl, rfl⟩ := h
      have := hs.small
      exact ⟨hs, .inr (.inl (by omega))⟩
    · rename_i hi255
      split at h
      · rename_i b hb
        split at h
        · rename_i ht
          refine uniqueLoop_spec rs (i + 1) _ ?_ ?_ t' u h
          · rw [← List.drop_drop, hd]; rfl
          · have hnum : (UInt8.ofNat i).toNat = i := by
              rw [UInt8.toNat_ofNat']; omega
            have hne : UInt8.ofNat i ≠ 255 := by
              intro he
              have := congrArg UInt8.toNat he
              rw [hnum] at this
              simp at this
              omega
            refine ⟨by omega, by omega, ?_, ?_⟩
            · intro j hj
              by_cases hji : j = i
              · subst hji
                exact ⟨r, b, hi, hb, by simp [Table.set]⟩
              · obtain ⟨r', b', h1, h2, h3⟩ := hs.entry j (by omega)
                refine ⟨r', b', h1, h2, ?_⟩
                have : b' ≠ b := by
                  rintro rfl
                  rw [ht] at h3
                  have := congrArg UInt8.toNat h3
                  rw [UInt8.toNat_ofNat'] at this
                  simp at this
                  omega
                simp [Table.set, this, h3]
            · intro x hx
              by_cases hxb : x = b
              · subst hxb
                simp only [Table.set, if_pos, hnum]
                exact ⟨by omega, r, hi, hb⟩
              · have hset : (t.set b (UInt8.ofNat i)) x = t x := by simp [Table.set, hxb]
                rw [hset] at hx ⊢
                obtain ⟨h1, h2⟩ := hs.only x hx
                exact ⟨by omega, h2⟩
        · rename_i ht
          simp only [Comp.ok.injEq, Prod.mk.injEq] at h
          obtain ⟨rfl, rfl⟩ := h
          exact ⟨hs, .inr (.inr ⟨r, hi, .inr ⟨b, hb, ht⟩⟩)⟩
      · rename_i hb
        simp only [Comp.ok.injEq, Prod.mk.injEq] at h
        obtain ⟨rfl, rfl⟩ := h
        exact ⟨hs, .inr (.inr ⟨r, hi, .inl hb⟩)⟩
      · simp at h
      · simp at h

theorem uniqueTable_spec {refs n args t u} (h : uniqueTable refs n args = .ok (t, u)) :
    TableSpec refs n args t u ∧ TableStop refs n args t u :=
  uniqueLoop_spec args 0 _ rfl ⟨by omega, by omega, by omega, by simp⟩ t u h

/-! ### The optimizer as a relation -/

mutual
/-- `Sim Q r r'`: `r'` is `r` with some selects replaced by table look-ups.  The alternatives left
for the tail satisfy `Q`. -/
inductive Sim (refs : List Rule) (n : Nat) (Q : Rule → Prop) : Rule → Rule → Prop
  | whitespace {a b} : Sim refs n Q (.whitespace a b) (.whitespace a b)
  | tag {a b c d e} : Sim refs n Q (.tag a b c d e) (.tag a b c d e)
  | untilAny {a b c d} : Sim refs n Q (.untilAny a b c d) (.untilAny a b c d)
  | untilAnyOrWs {a b c d} : Sim refs n Q (.untilAnyOrWs a b c d) (.untilAnyOrWs a b c d)
  | text {a b c} : Sim refs n Q (.text a b c) (.text a b c)
  | number {a b c} : Sim refs n Q (.number a b c) (.number a b c)
  | node {a b c d} : Sim refs n Q (.node a b c d) (.node a b c d)
  | fastSelect {t rs rs' tl id} (h : SimL refs n Q rs rs') :
      Sim refs n Q (.fastSelect t rs tl id) (.fastSelect t rs' tl id)
  | select {rs rs' id} (h : SimL refs n Q rs rs') : Sim refs n Q (.select rs id) (.select rs' id)
  | fast {rs rs' id t} (ht : uniqueTable refs n rs = .ok (t, rs.length)) (hne : rs ≠ [])
      (h : SimL refs n Q rs rs') : Sim refs n Q (.select rs id) (.fastSelect t rs' false id)
  | tail {rs rs' id t u} (ht : uniqueTable refs n rs = .ok (t, u)) (h0 : 0 < u) (hu : u < rs.length)
      (hQ : ∀ b ∈ rs.drop u, Q b) (h : SimL refs n Q rs rs') :
      Sim refs n Q (.select rs id)
        (.fastSelect t (rs'.take u ++ [.select (rs'.drop u) id]) true id)
  | guarded {gs rs rs' id t u} (hg : gs = guardFrom u rs) (ht : uniqueTable refs n gs = .ok (t, u))
      (h0 : 0 < u) (hu : u < rs.length) (h : SimL refs n Q rs rs') :
      Sim refs n Q (.select gs id)
        (.fastSelect t (rs'.take u ++ [.select (rs'.drop u) id]) true id)
  | sequence {rs rs' id} (h : SimL refs n Q rs rs') :
      Sim refs n Q (.sequence rs id) (.sequence rs' id)
  | separateBy {r r' b b' o t id} (h : Sim refs n Q r r') (h' : Sim refs n Q b b') :
      Sim refs n Q (.separateBy r b o t id) (.separateBy r' b' o t id)
  | repeat_ {r r' o id} (h : Sim refs n Q r r') : Sim refs n Q (.repeat_ r o id) (.repeat_ r' o id)
  | lines {r r' i id} (h : Sim refs n Q r r') : Sim refs n Q (.lines r i id) (.lines r' i id)
  | optional {r r' id} (h : Sim refs n Q r r') : Sim refs n Q (.optional r id) (.optional r' id)
  | not {r r' id} (h : Sim refs n Q r r') : Sim refs n Q (.not r id) (.not r' id)
/-- The same for lists. -/
inductive SimL (refs : List Rule) (n : Nat) (Q : Rule → Prop) : List Rule → List Rule → Prop
  | nil : SimL refs n Q [] []
  | cons {r r' rs rs'} (h : Sim refs n Q r r') (h' : SimL refs n Q rs rs') :
      SimL refs n Q (r :: rs) (r' :: rs')
end

section
variable {refs : List Rule} {n : Nat} {Q : Rule → Prop}

mutual
theorem Sim.refl : (r : Rule) → Sim refs n Q r r
  | .whitespace _ _ => .whitespace
  | .tag _ _ _ _ _ => .tag
  | .untilAny _ _ _ _ => .untilAny
  | .untilAnyOrWs _ _ _ _ => .untilAnyOrWs
  | .text _ _ _ => .text
  | .number _ _ _ => .number
  | .node _ _ _ _ => .node
  | .fastSelect _ args _ _ => .fastSelect (SimL.refl args)
  | .select args _ => .select (SimL.refl args)
  | .sequence args _ => .sequence (SimL.refl args)
  | .separateBy r b _ _ _ => .separateBy (Sim.refl r) (Sim.refl b)
  | .repeat_ r _ _ => .repeat_ (Sim.refl r)
  | .lines r _ _ => .lines (Sim.refl r)
  | .optional r _ => .optional (Sim.refl r)
  | .not r _ => .not (Sim.refl r)
theorem SimL.refl : (rs : List Rule) → SimL refs n Q rs rs
  | [] => .nil
  | r :: rs => .cons (Sim.refl r) (SimL.refl rs)
end

theorem SimL.length {rs rs' : List Rule} (h : SimL refs n Q rs rs') : rs.length = rs'.length :=
  match h with
  | .nil => rfl
  | .cons _ h' => by simp [h'.length]

theorem SimL.get {rs rs' : List Rule} (h : SimL refs n Q rs rs') : ∀ (k : Nat) (r),
    rs[k]? = some r → ∃ r', rs'[k]? = some r' ∧ Sim refs n Q r r' :=
  match h with
  | .nil => by simp
  | .cons h h' => by
    intro k r hk
    cases k with
    | zero => simp at hk; subst hk; exact ⟨_, rfl, h⟩
    | succ k => simpa using h'.get _ _ (by simpa using hk)

theorem SimL.get' {rs rs' : List Rule} (h : SimL refs n Q rs rs') : ∀ (k : Nat) (r'),
    rs'[k]? = some r' → ∃ r, rs[k]? = some r ∧ Sim refs n Q r r' :=
  match h with
  | .nil => by simp
  | .cons h h' => by
    intro k r hk
    cases k with
    | zero => simp at hk; subst hk; exact ⟨_, rfl, h⟩
    | succ k => simpa using h'.get' _ _ (by simpa using hk)

theorem SimL.last {rs rs' : List Rule} (h : SimL refs n Q rs rs') {r} (hk : rs.getLast? = some r) :
    ∃ r', rs'.getLast? = some r' ∧ Sim refs n Q r r' := by
  rw [List.getLast?_eq_getElem?] at hk ⊢
  rw [← h.length]
  exact h.get _ _ hk

theorem SimL.last' {rs rs' : List Rule} (h : SimL refs n Q rs rs') {r'}
    (hk : rs'.getLast? = some r') : ∃ r, rs.getLast? = some r ∧ Sim refs n Q r r' := by
  rw [List.getLast?_eq_getElem?] at hk ⊢
  rw [h.length]
  exact h.get' _ _ hk

theorem SimL.take {rs rs' : List Rule} (h : SimL refs n Q rs rs') : ∀ k,
    SimL refs n Q (rs.take k) (rs'.take k) :=
  match h with
  | .nil => by intro k; simp; exact .nil
  | .cons h h' => by
    intro k
    cases k with
    | zero => exact .nil
    | succ k => exact .cons h (h'.take k)

theorem SimL.drop {rs rs' : List Rule} (h : SimL refs n Q rs rs') : ∀ k,
    SimL refs n Q (rs.drop k) (rs'.drop k) :=
  match h with
  | .nil => by intro k; simp; exact .nil
  | .cons h h' => by
    intro k
    cases k with
    | zero => exact .cons h h'
    | succ k => exact h'.drop k

theorem SimL.append {rs rs' ss ss' : List Rule} (h : SimL refs n Q rs rs')
    (hs : SimL refs n Q ss ss') : SimL refs n Q (rs ++ ss) (rs' ++ ss') :=
  match h with
  | .nil => hs
  | .cons h h' => .cons h (h'.append hs)

theorem SimL.mapGuard {rs rs' : List Rule} (h : SimL refs n Q rs rs') :
    SimL refs n Q (rs.map notAtEnd) (rs'.map notAtEnd) :=
  match h with
  | .nil => .nil
  | .cons h h' => .cons (.sequence (.cons (Sim.refl _) (.cons h .nil))) h'.mapGuard

theorem SimL.guardFrom {rs rs' : List Rule} (h : SimL refs n Q rs rs') (u : Nat) :
    SimL refs n Q (guardFrom u rs) (guardFrom u rs') :=
  (h.take u).append (h.drop u).mapGuard

end

theorem guardFrom_length (u : Nat) (rs : List Rule) : (guardFrom u rs).length = rs.length := by
  simp [guardFrom]; omega

theorem guardFrom_take {u : Nat} {rs : List Rule} (h : u ≤ rs.length) :
    (guardFrom u rs).take u = rs.take u := by
  unfold guardFrom
  exact List.take_left' (by simp; omega)

theorem guardFrom_drop {u : Nat} {rs : List Rule} (h : u ≤ rs.length) :
    (guardFrom u rs).drop u = (rs.drop u).map notAtEnd := by
  unfold guardFrom
  exact List.drop_left' (by simp; omega)

/-! ### The optimizer yields related rules -/

theorem Comp.bind_ok {α β : Type} {x : Comp α} {f : α → Comp β} {b : β} :
    (x >>= f) = .ok b ↔ ∃ a, x = .ok a ∧ f a = .ok b := by
  cases x with
  | ok a => simp [Bind.bind, Comp.bind]
  | panic => simp [Bind.bind, Comp.bind]
  | timeout => simp [Bind.bind, Comp.bind]

theorem Comp.pure_ok {α : Type} {a b : α} : (pure a : Comp α) = .ok b ↔ a = b := by
  show Comp.ok a = .ok b ↔ _
  simp

theorem Comp.all_cons_ok {α : Type} {x : Comp α} {xs : List (Comp α)} {l} :
    Comp.all (x :: xs) = .ok l ↔ ∃ a as, x = .ok a ∧ Comp.all xs = .ok as ∧ l = a :: as := by
  cases x with
  | ok a =>
    simp only [Comp.all]
    cases h : Comp.all xs <;> simp [eq_comm]
  | panic => simp [Comp.all]
  | timeout => simp [Comp.all]

theorem Comp.all_append_ok {α : Type} : ∀ {xs ys : List (Comp α)} {as bs},
    Comp.all xs = .ok as → Comp.all ys = .ok bs → Comp.all (xs ++ ys) = .ok (as ++ bs)
  | [], ys, as, bs, h, h' => by simp [Comp.all] at h; subst h; simpa using h'
  | x :: xs, ys, as, bs, h, h' => by
    obtain ⟨a, as', rfl, h1, rfl⟩ := Comp.all_cons_ok.1 h
    rw [List.cons_append, Comp.all_cons_ok]
    exact ⟨a, as' ++ bs, rfl, Comp.all_append_ok h1 h', rfl⟩

theorem Comp.all_length {α : Type} : ∀ {xs : List (Comp α)} {as}, Comp.all xs = .ok as →
    as.length = xs.length
  | [], as, h => by simp [Comp.all] at h; subst h; rfl
  | x :: xs, as, h => by
    obtain ⟨a, as', rfl, h1, rfl⟩ := Comp.all_cons_ok.1 h
    simp [Comp.all_length h1]

theorem optimizeRules_eq (refs : List Rule) (n : Nat) : ∀ rs : List Rule,
    optimizeRules refs n rs = rs.map (optimizeRule refs n)
  | [] => by simp [optimizeRules]
  | r :: rs => by simp [optimizeRules, optimizeRules_eq refs n rs]

/-- The results of optimizing a select. -/
theorem optimizeSelect_ok {refs : List Rule} {n : Nat} {args : List Rule} {opts id r'}
    (hlen : opts.length = args.length)
    (h : optimizeSelect refs n args opts id = .ok r') :
    ∃ t u args', uniqueTable refs n args = .ok (t, u) ∧ Comp.all opts = .ok args' ∧
      ((u < 2 ∧ r' = .select args' id) ∨
       (2 ≤ u ∧ u = args.length ∧ r' = .fastSelect t args' false id) ∨
       (2 ≤ u ∧ u < args.length ∧
        r' = .fastSelect t (args'.take u ++ [.select (args'.drop u) id]) true id)) := by
  unfold optimizeSelect at h
  split at h
  · simp at h
  · simp at h
  · rename_i t u ht
    refine ⟨t, u, ?_⟩
    split at h
    · rename_i hu
      have hplain : (do let args' ← Comp.all opts; return Rule.select args' id) = Comp.ok r' := by
        split at h
        · obtain ⟨rest, _, h2⟩ := Comp.bind_ok.1 h
          exact h2
        · exact h
      obtain ⟨args', h1, h2⟩ := Comp.bind_ok.1 hplain
      exact ⟨args', ht, h1, .inl ⟨hu, (Comp.pure_ok.1 h2).symm⟩⟩
    · rename_i hu
      obtain ⟨args1, h1, h2⟩ := Comp.bind_ok.1 h
      have hs := (uniqueTable_spec ht).1.len
      split at h2
      · rename_i hlt
        obtain ⟨rest, h3, h4⟩ := Comp.bind_ok.1 h2
        have hall := Comp.all_append_ok h1 h3
        rw [List.take_append_drop] at hall
        have hl : args1.length = u := by
          rw [Comp.all_length h1, List.length_take]; omega
        refine ⟨_, ht, hall, .inr (.inr ⟨by omega, hlt, ?_⟩)⟩
        rw [List.take_left' hl, List.drop_left' hl]
        exact (Comp.pure_ok.1 h4).symm
      · rename_i hlt
        have he : u = args.length := by omega
        rw [he, ← hlen, List.take_length] at h1
        exact ⟨args1, ht, h1, .inr (.inl ⟨by omega, he, (Comp.pure_ok.1 h2).symm⟩)⟩

mutual
theorem opt_sim {refs : List Rule} {n : Nat} {Q : Rule → Prop} : (r : Rule) → {r' : Rule} →
    (∀ args id t u, Occurs (.select args id) r → uniqueTable refs n args = .ok (t, u) → 2 ≤ u →
      ∀ b ∈ args.drop u, Q b) →
    optimizeRule refs n r = .ok r' → Sim refs n Q r r'
  | .whitespace _ _, _, _, h => by simp [optimizeRule] at h; subst h; exact .whitespace
  | .tag _ _ _ _ _, _, _, h => by simp [optimizeRule] at h; subst h; exact .tag
  | .untilAny _ _ _ _, _, _, h => by simp [optimizeRule] at h; subst h; exact .untilAny
  | .untilAnyOrWs _ _ _ _, _, _, h => by simp [optimizeRule] at h; subst h; exact .untilAnyOrWs
  | .text _ _ _, _, _, h => by simp [optimizeRule] at h; subst h; exact .text
  | .number _ _ _, _, _, h => by simp [optimizeRule] at h; subst h; exact .number
  | .node _ _ _ _, _, _, h => by simp [optimizeRule] at h; subst h; exact .node
  | .fastSelect _ _ _ _, _, _, h => by simp [optimizeRule] at h; subst h; exact Sim.refl _
  | .sequence args id, _, hq, h => by
    simp only [optimizeRule] at h
    obtain ⟨args', h1, h2⟩ := Comp.bind_ok.1 h
    cases Comp.pure_ok.1 h2
    exact .sequence (opt_simL args (fun x hx => hq' hq (.sequence hx)) h1)
  | .separateBy r b _ _ _, _, hq, h => by
    simp only [optimizeRule] at h
    obtain ⟨r', h1, h2⟩ := Comp.bind_ok.1 h
    obtain ⟨b', h3, h4⟩ := Comp.bind_ok.1 h2
    cases Comp.pure_ok.1 h4
    exact .separateBy (opt_sim r (hq' hq .item) h1) (opt_sim b (hq' hq .sep) h3)
  | .repeat_ r _ _, _, hq, h => by
    simp only [optimizeRule] at h
    obtain ⟨r', h1, h2⟩ := Comp.bind_ok.1 h
    cases Comp.pure_ok.1 h2
    exact .repeat_ (opt_sim r (hq' hq .repeat_) h1)
  | .lines r _ _, _, hq, h => by
    simp only [optimizeRule] at h
    obtain ⟨r', h1, h2⟩ := Comp.bind_ok.1 h
    cases Comp.pure_ok.1 h2
    exact .lines (opt_sim r (hq' hq .lines) h1)
  | .optional r _, _, hq, h => by
    simp only [optimizeRule] at h
    obtain ⟨r', h1, h2⟩ := Comp.bind_ok.1 h
    cases Comp.pure_ok.1 h2
    exact .optional (opt_sim r (hq' hq .optional) h1)
  | .not r _, _, hq, h => by
    simp only [optimizeRule] at h
    obtain ⟨r', h1, h2⟩ := Comp.bind_ok.1 h
    cases Comp.pure_ok.1 h2
    exact .not (opt_sim r (hq' hq .not) h1)
  | .select args id, r', hq, h => by
    simp only [optimizeRule] at h
    obtain ⟨t, u, args', ht, h1, h2⟩ := optimizeSelect_ok (by simp [optimizeRules_eq]) h
    have hsim := opt_simL args (fun x hx => hq' hq (.select hx)) h1
    have hq0 := hq args id t u .refl ht
    rcases h2 with ⟨_, rfl⟩ | ⟨hu, rfl, rfl⟩ | ⟨hu, hlt, rfl⟩
    · exact .select hsim
    · exact .fast ht (by rintro rfl; simp at hu) hsim
    · exact .tail ht (by omega) hlt (hq0 hu) hsim
theorem opt_simL {refs : List Rule} {n : Nat} {Q : Rule → Prop} : (rs : List Rule) →
    {rs' : List Rule} →
    (∀ x ∈ rs, ∀ args id t u, Occurs (.select args id) x → uniqueTable refs n args = .ok (t, u) →
      2 ≤ u → ∀ b ∈ args.drop u, Q b) →
    Comp.all (optimizeRules refs n rs) = .ok rs' → SimL refs n Q rs rs'
  | [], _, _, h => by simp [optimizeRules, Comp.all] at h; subst h; exact .nil
  | r :: rs, _, hq, h => by
    simp only [optimizeRules] at h
    obtain ⟨a, as, h1, h2, rfl⟩ := Comp.all_cons_ok.1 h
    exact .cons (opt_sim r (hq r (by simp)) h1) (opt_simL rs (fun x hx => hq x (by simp [hx])) h2)
theorem hq' {refs : List Rule} {n : Nat} {Q : Rule → Prop} {c r : Rule}
    (hq : ∀ args id t u, Occurs (.select args id) r → uniqueTable refs n args = .ok (t, u) → 2 ≤ u →
      ∀ b ∈ args.drop u, Q b) (hc : Child c r) :
    ∀ args id t u, Occurs (.select args id) c → uniqueTable refs n args = .ok (t, u) → 2 ≤ u →
      ∀ b ∈ args.drop u, Q b :=
  fun args id t u ho => hq args id t u (.step ho hc)
end

end Verif
