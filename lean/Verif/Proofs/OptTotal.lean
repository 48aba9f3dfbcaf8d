import Verif.Proofs.OptRun
import Verif.Proofs.WfCheck
import Verif.Spec.Optimize
/-
The optimizer returns, and its result does not depend on the cut off.
-/
namespace Verif
open Spec

variable {refs : List Rule}

theorem uniqueByte_mono : ∀ {n m : Nat} {r o}, n ≤ m → uniqueByte refs n r = .ok o →
    uniqueByte refs m r = .ok o := by
  intro n
  induction n with
  | zero => intro m r o _ h; simp [uniqueByte] at h
  | succ n ih =>
    intro m r o hnm h
    obtain ⟨m, rfl⟩ : ∃ m', m = m' + 1 := ⟨m - 1, by omega⟩
    have hnm : n ≤ m := by omega
    unfold uniqueByte at h ⊢
    split at h <;> simp_all
    all_goals first
      | done
      | exact ih hnm h
      | (split at h
         · simp at h
         · exact ih hnm h)
      | (split at h <;> simp_all)

theorem uniqueLoop_mono {n m : Nat} (hnm : n ≤ m) : ∀ {rs : List Rule} {i t u x},
    uniqueLoop refs n i rs t u = .ok x → uniqueLoop refs m i rs t u = .ok x
  | [], i, t, u, x, h => by simpa [uniqueLoop] using h
  | r :: rs, i, t, u, x, h => by
    unfold uniqueLoop at h ⊢
    split
    · rename_i hi; rw [if_pos hi] at h; exact h
    · rename_i hi
      rw [if_neg hi] at h
      cases hb : uniqueByte refs n r with
      | ok ob =>
        rw [hb] at h
        rw [uniqueByte_mono hnm hb]
        cases ob with
        | none => exact h
        | some b =>
          simp only at h ⊢
          split
          · rename_i ht; rw [if_pos ht] at h; exact uniqueLoop_mono hnm h
          · rename_i ht; rw [if_neg ht] at h; exact h
      | panic => rw [hb] at h; simp at h
      | timeout => rw [hb] at h; simp at h

theorem uniqueTable_mono {n m : Nat} (hnm : n ≤ m) {args x}
    (h : uniqueTable refs n args = .ok x) : uniqueTable refs m args = .ok x :=
  uniqueLoop_mono hnm h

theorem uniqueTable_det {n m : Nat} {args x y} (h : uniqueTable refs n args = .ok x)
    (h' : uniqueTable refs m args = .ok y) : x = y := by
  have h1 := uniqueTable_mono (Nat.le_max_left n m) h
  have h2 := uniqueTable_mono (Nat.le_max_right n m) h'
  rw [h1] at h2
  exact Comp.ok.inj h2

theorem Comp.all_mono {α β : Type} {f g : α → Comp β} : ∀ {l : List α} {x},
    (∀ a ∈ l, ∀ b, f a = .ok b → g a = .ok b) → Comp.all (l.map f) = .ok x →
    Comp.all (l.map g) = .ok x
  | [], x, _, h => h
  | a :: l, x, hfg, h => by
    obtain ⟨b, bs, h1, h2, rfl⟩ := Comp.all_cons_ok.1 h
    exact Comp.all_cons_ok.2 ⟨b, bs, hfg a (by simp) b h1,
      Comp.all_mono (fun a ha => hfg a (by simp [ha])) h2, rfl⟩

theorem Comp.all_take {α : Type} : ∀ {xs : List (Comp α)} {as}, Comp.all xs = .ok as → ∀ k,
    Comp.all (xs.take k) = .ok (as.take k)
  | [], as, h, k => by simp [Comp.all] at h; subst h; simp [Comp.all]
  | x :: xs, as, h, k => by
    obtain ⟨a, as', rfl, h1, rfl⟩ := Comp.all_cons_ok.1 h
    cases k with
    | zero => simp [Comp.all]
    | succ k => exact Comp.all_cons_ok.2 ⟨a, _, rfl, Comp.all_take h1 k, rfl⟩

theorem Comp.all_drop {α : Type} : ∀ {xs : List (Comp α)} {as}, Comp.all xs = .ok as → ∀ k,
    Comp.all (xs.drop k) = .ok (as.drop k)
  | [], as, h, k => by simp [Comp.all] at h; subst h; simp [Comp.all]
  | x :: xs, as, h, k => by
    obtain ⟨a, as', rfl, h1, rfl⟩ := Comp.all_cons_ok.1 h
    cases k with
    | zero => exact h
    | succ k => exact Comp.all_drop h1 k

/-- When the table and the arguments are there, so is the result. -/
theorem optimizeSelect_of {n : Nat} {args opts id t u args'}
    (ht : uniqueTable refs n args = .ok (t, u)) (h : Comp.all opts = .ok args') :
    ∃ r', optimizeSelect refs n args opts id = .ok r' := by
  unfold optimizeSelect
  rw [ht]
  simp only
  have hd := Comp.all_drop h
  have hk := Comp.all_take h
  split
  · split
    · exact ⟨_, Comp.bind_ok.2 ⟨_, hd 1, Comp.bind_ok.2 ⟨_, h, rfl⟩⟩⟩
    · exact ⟨_, Comp.bind_ok.2 ⟨_, h, rfl⟩⟩
  · split
    · rename_i hlt
      refine ⟨.fastSelect t (args'.take u ++ [.select (args'.drop u) id]) true id, ?_⟩
      refine Comp.bind_ok.2 ⟨_, hk u, ?_⟩
      exact Comp.bind_ok.2 ⟨_, hd u, rfl⟩
    · rename_i hlt
      refine ⟨.fastSelect t (args'.take u) false id, ?_⟩
      refine Comp.bind_ok.2 ⟨_, hk u, ?_⟩
      rfl

theorem optimizeSelect_mono {n m : Nat} (hnm : n ≤ m) {args id r'}
    (hargs : ∀ a ∈ args, ∀ b, optimizeRule refs n a = .ok b → optimizeRule refs m a = .ok b)
    (h : optimizeSelect refs n args (optimizeRules refs n args) id = .ok r') :
    optimizeSelect refs m args (optimizeRules refs m args) id = .ok r' := by
  rw [optimizeRules_eq] at h ⊢
  obtain ⟨t, u, args', ht, h1, h2⟩ := optimizeSelect_ok (by simp) h
  have ht' := uniqueTable_mono hnm ht
  have h1' := Comp.all_mono hargs h1
  obtain ⟨r'', h3⟩ := optimizeSelect_of (id := id) ht' h1'
  rw [h3]
  obtain ⟨t', u', args'', ht'', h4, h5⟩ := optimizeSelect_ok (by simp) h3
  rw [ht'] at ht''
  rw [h1'] at h4
  cases ht''
  cases h4
  rcases h2 with ⟨a1, rfl⟩ | ⟨a1, a2, rfl⟩ | ⟨a1, a2, rfl⟩ <;>
    rcases h5 with ⟨b1, rfl⟩ | ⟨b1, b2, rfl⟩ | ⟨b1, b2, rfl⟩ <;> first | rfl | omega

mutual
theorem optimizeRule_mono {n m : Nat} (hnm : n ≤ m) : (r : Rule) → ∀ r', optimizeRule refs n r = .ok r' →
    optimizeRule refs m r = .ok r'
  | .whitespace _ _, _, h => by simpa [optimizeRule] using h
  | .tag _ _ _ _ _, _, h => by simpa [optimizeRule] using h
  | .untilAny _ _ _ _, _, h => by simpa [optimizeRule] using h
  | .untilAnyOrWs _ _ _ _, _, h => by simpa [optimizeRule] using h
  | .text _ _ _, _, h => by simpa [optimizeRule] using h
  | .number _ _ _, _, h => by simpa [optimizeRule] using h
  | .node _ _ _ _, _, h => by simpa [optimizeRule] using h
  | .fastSelect _ _ _ _, _, h => by simpa [optimizeRule] using h
  | .sequence args id, _, h => by
    simp only [optimizeRule, optimizeRules_eq] at h ⊢
    obtain ⟨args', h1, h2⟩ := Comp.bind_ok.1 h
    exact Comp.bind_ok.2 ⟨args', Comp.all_mono (optimizeRules_mono hnm args) h1, h2⟩
  | .separateBy r b _ _ _, _, h => by
    simp only [optimizeRule] at h ⊢
    obtain ⟨r', h1, h2⟩ := Comp.bind_ok.1 h
    obtain ⟨b', h3, h4⟩ := Comp.bind_ok.1 h2
    exact Comp.bind_ok.2 ⟨r', optimizeRule_mono hnm r _ h1,
      Comp.bind_ok.2 ⟨b', optimizeRule_mono hnm b _ h3, h4⟩⟩
  | .repeat_ r _ _, _, h => by
    simp only [optimizeRule] at h ⊢
    obtain ⟨r', h1, h2⟩ := Comp.bind_ok.1 h
    exact Comp.bind_ok.2 ⟨r', optimizeRule_mono hnm r _ h1, h2⟩
  | .lines r _ _, _, h => by
    simp only [optimizeRule] at h ⊢
    obtain ⟨r', h1, h2⟩ := Comp.bind_ok.1 h
    exact Comp.bind_ok.2 ⟨r', optimizeRule_mono hnm r _ h1, h2⟩
  | .optional r _, _, h => by
    simp only [optimizeRule] at h ⊢
    obtain ⟨r', h1, h2⟩ := Comp.bind_ok.1 h
    exact Comp.bind_ok.2 ⟨r', optimizeRule_mono hnm r _ h1, h2⟩
  | .not r _, _, h => by
    simp only [optimizeRule] at h ⊢
    obtain ⟨r', h1, h2⟩ := Comp.bind_ok.1 h
    exact Comp.bind_ok.2 ⟨r', optimizeRule_mono hnm r _ h1, h2⟩
  | .select args id, _, h => by
    simp only [optimizeRule] at h ⊢
    exact optimizeSelect_mono hnm (optimizeRules_mono hnm args) h
theorem optimizeRules_mono {n m : Nat} (hnm : n ≤ m) : (rs : List Rule) → ∀ a ∈ rs, ∀ b,
    optimizeRule refs n a = .ok b → optimizeRule refs m a = .ok b
  | [], a, ha => absurd ha (by simp)
  | r :: rs, a, ha => by
    intro b h
    rcases List.mem_cons.1 ha with har | har
    · rw [har] at h ⊢; exact optimizeRule_mono hnm r b h
    · exact optimizeRules_mono hnm rs a har b h
end

/-! ### Returning -/

theorem uniqueByte_returns {S : Rule → Prop} (hS : Closed refs S)
    (hix : ∀ r, S r → IndexOk refs r) {r} (hacc : Acc (ByteCall refs) r) : S r →
    ∃ n o, uniqueByte refs n r = .ok o := by
  induction hacc with
  | intro r _ ih =>
    intro hr
    have step : ∀ {c}, ByteCall refs c r → S c → ∃ n o, uniqueByte refs n c = .ok o :=
      fun hc hSc => ih _ hc hSc
    cases r with
    | not r id =>
      cases r with
      | not r id' =>
        obtain ⟨n, o, h⟩ := step (c := r) .notNot
          (hS.child .not (hS.child .not hr))
        exact ⟨n + 1, o, by unfold uniqueByte; exact h⟩
      | _ => exact ⟨1, none, by simp [uniqueByte]⟩
    | select args id =>
      match args with
      | [] => exact ⟨1, none, by simp [uniqueByte]⟩
      | [a] =>
        obtain ⟨n, o, h⟩ := step (c := a) .select (hS.child (.select (by simp)) hr)
        exact ⟨n + 1, o, by unfold uniqueByte; exact h⟩
      | _ :: _ :: _ => exact ⟨1, none, by simp [uniqueByte]⟩
    | sequence args id =>
      match args with
      | [] => exact ⟨1, none, by simp [uniqueByte]⟩
      | a :: as =>
        obtain ⟨n, o, h⟩ := step (c := a) .sequence
          (hS.child (.sequence (by simp)) hr)
        exact ⟨n + 1, o, by unfold uniqueByte; exact h⟩
    | separateBy r b opt trail id =>
      cases opt with
      | true => exact ⟨1, none, by simp [uniqueByte]⟩
      | false =>
        obtain ⟨n, o, h⟩ := step (c := r) .item (hS.child .item hr)
        exact ⟨n + 1, o, by unfold uniqueByte; simpa using h⟩
    | repeat_ r opt id =>
      cases opt with
      | true => exact ⟨1, none, by simp [uniqueByte]⟩
      | false =>
        obtain ⟨n, o, h⟩ := step (c := r) .repeat_ (hS.child .repeat_ hr)
        exact ⟨n + 1, o, by unfold uniqueByte; simpa using h⟩
    | node name prop index id =>
      cases index with
      | none => exact ⟨1, none, by simp [uniqueByte]⟩
      | some ix =>
        have hlt : ix < refs.length := hix _ hr
        have hg := List.getElem?_eq_getElem hlt
        obtain ⟨n, o, h⟩ := step (c := refs[ix]) (.node hg)
          (hS.refs _ (List.getElem_mem hlt))
        exact ⟨n + 1, o, by unfold uniqueByte; simpa [hg] using h⟩
    | tag t nt inv prop id =>
      cases nt with
      | true => exact ⟨1, none, by simp [uniqueByte]⟩
      | false => cases t with
        | nil => exact ⟨1, none, by simp [uniqueByte]⟩
        | cons c cs => exact ⟨1, _, by simp [uniqueByte]; rfl⟩
    | text a b c => exact ⟨1, _, by simp [uniqueByte]; rfl⟩
    | _ => exact ⟨1, none, by simp [uniqueByte]⟩

theorem uniqueByte_det {r : Rule} {o o'} (h : ∃ n, uniqueByte refs n r = .ok o)
    (h' : ∃ n, uniqueByte refs n r = .ok o') : o = o' := by
  obtain ⟨n, h⟩ := h
  obtain ⟨m, h'⟩ := h'
  have h1 := uniqueByte_mono (Nat.le_max_left n m) h
  have h2 := uniqueByte_mono (Nat.le_max_right n m) h'
  rw [h1] at h2
  exact Comp.ok.inj h2

/-- The alternatives before the current one, with a table that has no entries for their bytes. -/
def Pre (refs : List Rule) (i : Nat) (t : Table) (pre : List Rule) : Prop :=
  i + pre.length < 255 ∧ (∀ a ∈ pre, ∃ b, UniqueByte refs a (some b) ∧ t b = 255) ∧
    pre.Pairwise fun a a' => ∀ b, UniqueByte refs a (some b) → ¬ UniqueByte refs a' (some b)

theorem pre_cons {i : Nat} {t : Table} {r : Rule} {b : UInt8} {pre : List Rule} (hb : UniqueByte refs r (some b))
    (ht : t b = 255) (hi : i < 255) :
    Pre refs i t (r :: pre) ↔ Pre refs (i + 1) (t.set b (UInt8.ofNat i)) pre := by
  have hne : UInt8.ofNat i ≠ 255 := by
    intro h
    have := congrArg UInt8.toNat h
    simp at this
    omega
  have hset : ∀ b', t.set b (UInt8.ofNat i) b' = 255 ↔ b' ≠ b ∧ t b' = 255 := by
    intro b'
    simp only [Table.set]
    split
    · rename_i h; simp [h, hne]
    · rename_i h; simp [h]
  simp only [Pre, List.length_cons, List.mem_cons, forall_eq_or_imp, List.pairwise_cons, hset]
  constructor
  · rintro ⟨h1, ⟨-, h2⟩, h3, h4⟩
    refine ⟨by omega, fun a ha => ?_, h4⟩
    obtain ⟨b', h5, h6⟩ := h2 a ha
    exact ⟨b', h5, fun e => h3 a ha b hb (e ▸ h5), h6⟩
  · rintro ⟨h1, h2, h4⟩
    refine ⟨by omega, ⟨⟨b, hb, ht⟩, fun a ha => ?_⟩, fun a ha b0 h5 h6 => ?_, h4⟩
    · obtain ⟨b', h5, -, h6⟩ := h2 a ha
      exact ⟨b', h5, h6⟩
    · obtain ⟨b', h7, h8, -⟩ := h2 a ha
      cases uniqueByte_det h5 hb
      cases uniqueByte_det h6 h7
      exact h8 rfl

theorem uniqueLoop_returns : ∀ (rs : List Rule) (i : Nat) (t : Table) (u : Nat),
    (∀ pre r post, rs = pre ++ r :: post → Pre refs i t pre → ∃ n o, uniqueByte refs n r = .ok o) →
    ∃ n x, uniqueLoop refs n i rs t u = .ok x
  | [], _, _, _, _ => ⟨0, _, by simp [uniqueLoop]; rfl⟩
  | r :: rs, i, t, u, h => by
    by_cases hi : 255 ≤ i
    · exact ⟨0, _, by unfold uniqueLoop; rw [if_pos hi]⟩
    obtain ⟨n, o, hn⟩ := h [] r rs rfl ⟨by simp; omega, by simp, .nil⟩
    cases o with
    | none => exact ⟨n, _, by unfold uniqueLoop; rw [if_neg hi, hn]⟩
    | some b =>
      by_cases ht : t b = 255
      · obtain ⟨m, x, hm⟩ := uniqueLoop_returns rs (i + 1) (t.set b (UInt8.ofNat i)) (i + 1)
          fun pre r' post e hp => h (r :: pre) r' post (by rw [e]; rfl) ((pre_cons ⟨n, hn⟩ ht (by omega)).2 hp)
        refine ⟨max n m, x, ?_⟩
        unfold uniqueLoop
        rw [if_neg hi, uniqueByte_mono (Nat.le_max_left n m) hn]
        simp only [ht, if_true]
        exact uniqueLoop_mono (Nat.le_max_right n m) hm
      · exact ⟨n, (t, u), by unfold uniqueLoop; rw [if_neg hi, hn]; simp only [ht, if_false]⟩

theorem uniqueLoop_looks {n : Nat} : ∀ {pre : List Rule} {r : Rule} {post : List Rule} {i : Nat} {t : Table} {u : Nat} {x},
    Pre refs i t pre → uniqueLoop refs n i (pre ++ r :: post) t u = .ok x → ∃ o, uniqueByte refs n r = .ok o
  | [], r, post, i, t, u, x, hp, h => by
    have := hp.1
    simp only [List.length_nil] at this
    simp only [List.nil_append, uniqueLoop] at h
    rw [if_neg (by omega)] at h
    cases hb : uniqueByte refs n r with
    | ok o => exact ⟨o, rfl⟩
    | panic => rw [hb] at h; simp at h
    | timeout => rw [hb] at h; simp at h
  | a :: pre, r, post, i, t, u, x, hp, h => by
    have h1 := hp.1
    simp only [List.length_cons] at h1
    obtain ⟨b, hb, ht⟩ := hp.2.1 a (by simp)
    simp only [List.cons_append, uniqueLoop] at h
    rw [if_neg (by omega)] at h
    cases hb' : uniqueByte refs n a with
    | ok o =>
      cases uniqueByte_det hb ⟨n, hb'⟩
      rw [hb'] at h
      simp only [ht, if_true] at h
      exact uniqueLoop_looks ((pre_cons hb ht (by omega)).1 hp) h
    | panic => rw [hb'] at h; simp at h
    | timeout => rw [hb'] at h; simp at h

theorem pre_iff {pre : List Rule} : Pre refs 0 (fun _ => 255) pre ↔ ComesAfter refs pre := by
  simp [Pre, ComesAfter]

/-- The table is built if `unique_byte` returns on the alternatives it comes to. -/
theorem uniqueTable_returns {args : List Rule}
    (h : ∀ pre r post, args = pre ++ r :: post → ComesAfter refs pre → ∃ n o, uniqueByte refs n r = .ok o) :
    ∃ n x, uniqueTable refs n args = .ok x :=
  uniqueLoop_returns args 0 _ 0 fun pre r post e hp => h pre r post e (pre_iff.1 hp)

theorem uniqueTable_looks {n : Nat} {pre : List Rule} {r : Rule} {post : List Rule} {x}
    (hp : ComesAfter refs pre) (h : uniqueTable refs n (pre ++ r :: post) = .ok x) :
    ∃ o, uniqueByte refs n r = .ok o :=
  uniqueLoop_looks (pre_iff.2 hp) h

theorem all_map_returns {f : Nat → Rule → Comp Rule}
    (hmono : ∀ {n m : Nat} {r b : Rule}, n ≤ m → f n r = .ok b → f m r = .ok b) : ∀ (rs : List Rule),
    (∀ r ∈ rs, ∃ n b, f n r = .ok b) → ∃ n bs, Comp.all (rs.map (f n)) = .ok bs
  | [], _ => ⟨0, [], rfl⟩
  | r :: rs, h => by
    obtain ⟨n, b, hn⟩ := h r (by simp)
    obtain ⟨m, bs, hm⟩ := all_map_returns @hmono rs fun a ha => h a (by simp [ha])
    exact ⟨max n m, b :: bs, Comp.all_cons_ok.2 ⟨b, bs, hmono (Nat.le_max_left n m) hn,
      Comp.all_mono (fun _ _ _ => hmono (Nat.le_max_right n m)) hm, rfl⟩⟩

mutual
theorem optimizeRule_returns {S : Rule → Prop} (hch : ∀ {c r}, Child c r → NotTable r → S r → S c)
    (hu : ∀ args id, S (.select args id) → ∃ n x, uniqueTable refs n args = .ok x) : (r : Rule) → S r →
    ∃ n r', optimizeRule refs n r = .ok r'
  | .whitespace _ _, _ => ⟨0, _, by simp [optimizeRule]; rfl⟩
  | .tag _ _ _ _ _, _ => ⟨0, _, by simp [optimizeRule]; rfl⟩
  | .untilAny _ _ _ _, _ => ⟨0, _, by simp [optimizeRule]; rfl⟩
  | .untilAnyOrWs _ _ _ _, _ => ⟨0, _, by simp [optimizeRule]; rfl⟩
  | .text _ _ _, _ => ⟨0, _, by simp [optimizeRule]; rfl⟩
  | .number _ _ _, _ => ⟨0, _, by simp [optimizeRule]; rfl⟩
  | .node _ _ _ _, _ => ⟨0, _, by simp [optimizeRule]; rfl⟩
  | .fastSelect _ _ _ _, _ => ⟨0, _, by simp [optimizeRule]; rfl⟩
  | .sequence args id, hr => by
    obtain ⟨n, bs, h⟩ := all_map_returns (f := optimizeRule refs) (fun hnm h => optimizeRule_mono hnm _ _ h)
      args (optimizeRules_returns hch hu args fun a ha => hch (.sequence ha) (by simp [NotTable]) hr)
    refine ⟨n, .sequence bs id, ?_⟩
    simp only [optimizeRule, optimizeRules_eq]
    exact Comp.bind_ok.2 ⟨bs, h, rfl⟩
  | .separateBy r b o t id, hr => by
    obtain ⟨n, r', h⟩ := optimizeRule_returns hch hu r (hch .item (by simp [NotTable]) hr)
    obtain ⟨m, b', h'⟩ := optimizeRule_returns hch hu b (hch .sep (by simp [NotTable]) hr)
    refine ⟨max n m, .separateBy r' b' o t id, ?_⟩
    simp only [optimizeRule]
    exact Comp.bind_ok.2 ⟨r', optimizeRule_mono (Nat.le_max_left n m) _ _ h,
      Comp.bind_ok.2 ⟨b', optimizeRule_mono (Nat.le_max_right n m) _ _ h', rfl⟩⟩
  | .repeat_ r _ _, hr => by
    obtain ⟨n, r', h⟩ := optimizeRule_returns hch hu r (hch .repeat_ (by simp [NotTable]) hr)
    exact ⟨n, _, by simp only [optimizeRule]; exact Comp.bind_ok.2 ⟨r', h, rfl⟩⟩
  | .lines r _ _, hr => by
    obtain ⟨n, r', h⟩ := optimizeRule_returns hch hu r (hch .lines (by simp [NotTable]) hr)
    exact ⟨n, _, by simp only [optimizeRule]; exact Comp.bind_ok.2 ⟨r', h, rfl⟩⟩
  | .optional r _, hr => by
    obtain ⟨n, r', h⟩ := optimizeRule_returns hch hu r (hch .optional (by simp [NotTable]) hr)
    exact ⟨n, _, by simp only [optimizeRule]; exact Comp.bind_ok.2 ⟨r', h, rfl⟩⟩
  | .not r _, hr => by
    obtain ⟨n, r', h⟩ := optimizeRule_returns hch hu r (hch .not (by simp [NotTable]) hr)
    exact ⟨n, _, by simp only [optimizeRule]; exact Comp.bind_ok.2 ⟨r', h, rfl⟩⟩
  | .select args id, hr => by
    obtain ⟨n, bs, h⟩ := all_map_returns (f := optimizeRule refs) (fun hnm h => optimizeRule_mono hnm _ _ h)
      args (optimizeRules_returns hch hu args fun a ha => hch (.select ha) (by simp [NotTable]) hr)
    obtain ⟨m, ⟨t, u⟩, ht⟩ := hu args id hr
    obtain ⟨r', h'⟩ := optimizeSelect_of (id := id) (opts := args.map (optimizeRule refs (max n m)))
      (uniqueTable_mono (Nat.le_max_right n m) ht)
      (Comp.all_mono (fun a _ b hb => optimizeRule_mono (Nat.le_max_left n m) a b hb) h)
    exact ⟨max n m, r', by simp only [optimizeRule, optimizeRules_eq]; exact h'⟩
theorem optimizeRules_returns {S : Rule → Prop} (hch : ∀ {c r}, Child c r → NotTable r → S r → S c)
    (hu : ∀ args id, S (.select args id) → ∃ n x, uniqueTable refs n args = .ok x) : (rs : List Rule) → (∀ r ∈ rs, S r) →
    ∀ r ∈ rs, ∃ n r', optimizeRule refs n r = .ok r'
  | [], _, r, hr => absurd hr (by simp)
  | a :: as, h, r, hr => by
    rcases List.mem_cons.1 hr with har | har
    · rw [har]; exact optimizeRule_returns hch hu a (h a (by simp))
    · exact optimizeRules_returns hch hu as (fun r hr => h r (by simp [hr])) r har
end

theorem Comp.all_mem {α : Type} : ∀ {xs : List (Comp α)} {as}, Comp.all xs = .ok as →
    ∀ x ∈ xs, ∃ a, x = .ok a
  | [], _, _, x, hx => by simp at hx
  | x :: xs, as, h, y, hy => by
    obtain ⟨a, as', rfl, h1, rfl⟩ := Comp.all_cons_ok.1 h
    rcases List.mem_cons.1 hy with rfl | hy
    · exact ⟨a, rfl⟩
    · exact Comp.all_mem h1 y hy

theorem ruleOk_iff {refs : List Rule} {r : Rule} :
    RuleOk refs r ↔ IndexOk refs r ∧ ∀ c, Child c r → RuleOk refs c := by
  constructor
  · intro h
    exact ⟨h r .refl, fun c hc x hx => h x (.step hx hc)⟩
  · rintro ⟨h1, h2⟩ x hx
    cases hx with
    | refl => exact h1
    | step hx hc => exact h2 _ hc x hx

mutual
/-- Optimizing keeps the indices in range. -/
theorem sim_ruleOk {refs refs' : List Rule} {n : Nat} {Q : Rule → Prop}
    (hlen : refs.length = refs'.length) {r r' : Rule} (h : Sim refs n Q r r') (hr : RuleOk refs r) :
    RuleOk refs' r' := by
  have hr' := ruleOk_iff.1 hr
  match h with
  | .whitespace | .tag | .untilAny | .untilAnyOrWs | .text | .number =>
    exact ruleOk_iff.2 ⟨trivial, fun c hc => nomatch hc⟩
  | .node (c := ix) =>
    refine ruleOk_iff.2 ⟨?_, fun c hc => nomatch hc⟩
    cases ix with
    | none => trivial
    | some i => have := hr'.1; simp only [IndexOk] at this ⊢; omega
  | .fastSelect h =>
    refine ruleOk_iff.2 ⟨?_, ?_⟩
    · have h1 := hr'.1
      simp only [IndexOk] at h1 ⊢
      have h2 := h.length
      refine ⟨fun b hb => by have := h1.1 b hb; omega, fun ht hn => h1.2 ht ?_⟩
      rw [hn] at h2
      exact List.length_eq_zero_iff.1 h2
    · rintro c (_ | hc)
      rename_i hc
      exact simL_ruleOk hlen h (fun q hq => hr'.2 q (.fast hq)) c hc
  | .select h =>
    refine ruleOk_iff.2 ⟨trivial, ?_⟩
    rintro c (hc | _)
    exact simL_ruleOk hlen h (fun q hq => hr'.2 q (.select hq)) c hc
  | .fast ht hne h =>
    refine ruleOk_iff.2 ⟨⟨fun b hb => ?_, by simp⟩, ?_⟩
    · have := ((uniqueTable_spec ht).1.only b hb).1
      have := h.length
      omega
    · rintro c (_ | hc)
      rename_i hc
      exact simL_ruleOk hlen h (fun q hq => hr'.2 q (.select hq)) c hc
  | .tail ht h0 hu hQ h =>
    have hall := simL_ruleOk hlen h (fun q hq => hr'.2 q (.select hq))
    refine ruleOk_iff.2 ⟨⟨fun b hb => ?_, by simp⟩, ?_⟩
    · have := ((uniqueTable_spec ht).1.only b hb).1
      have := h.length
      simp
      omega
    · rintro c (_ | hc)
      rename_i hc
      rcases List.mem_append.1 hc with hc | hc
      · exact hall c (List.mem_of_mem_take hc)
      · simp at hc
        subst hc
        refine ruleOk_iff.2 ⟨trivial, ?_⟩
        rintro c (hc | _)
        exact hall c (List.mem_of_mem_drop hc)
  | .guarded hg ht h0 hu h =>
    rename_i gs rs rs' id t u
    have hrs : ∀ q ∈ rs, RuleOk refs q := by
      intro q hq
      rw [← List.take_append_drop u rs] at hq
      rcases List.mem_append.1 hq with hq | hq
      · exact hr'.2 q (.select (by rw [hg]; exact List.mem_append_left _ hq))
      · have h1 := hr'.2 (notAtEnd q) (.select (by
          rw [hg]; exact List.mem_append_right _ (List.mem_map_of_mem hq)))
        exact (ruleOk_iff.1 h1).2 q (.sequence (by simp))
    have hall := simL_ruleOk hlen h hrs
    have hgl := guardFrom_length u rs
    rw [← hg] at hgl
    refine ruleOk_iff.2 ⟨⟨fun b hb => ?_, by simp⟩, ?_⟩
    · have := ((uniqueTable_spec ht).1.only b hb).1
      have := h.length
      simp
      omega
    · rintro c (_ | hc)
      rename_i hc
      rcases List.mem_append.1 hc with hc | hc
      · exact hall c (List.mem_of_mem_take hc)
      · simp at hc
        subst hc
        refine ruleOk_iff.2 ⟨trivial, ?_⟩
        rintro c (hc | _)
        exact hall c (List.mem_of_mem_drop hc)
  | .sequence h =>
    refine ruleOk_iff.2 ⟨trivial, ?_⟩
    intro c hc
    cases hc with
    | sequence hc => exact simL_ruleOk hlen h (fun q hq => hr'.2 q (.sequence hq)) c hc
  | .separateBy h h' =>
    refine ruleOk_iff.2 ⟨trivial, ?_⟩
    intro c hc
    cases hc with
    | item => exact sim_ruleOk hlen h (hr'.2 _ .item)
    | sep => exact sim_ruleOk hlen h' (hr'.2 _ .sep)
  | .repeat_ h =>
    refine ruleOk_iff.2 ⟨trivial, ?_⟩
    intro c hc
    cases hc with
    | repeat_ => exact sim_ruleOk hlen h (hr'.2 _ .repeat_)
  | .lines h =>
    refine ruleOk_iff.2 ⟨trivial, ?_⟩
    intro c hc
    cases hc with
    | lines => exact sim_ruleOk hlen h (hr'.2 _ .lines)
  | .optional h =>
    refine ruleOk_iff.2 ⟨trivial, ?_⟩
    intro c hc
    cases hc with
    | optional => exact sim_ruleOk hlen h (hr'.2 _ .optional)
  | .not h =>
    refine ruleOk_iff.2 ⟨trivial, ?_⟩
    intro c hc
    cases hc with
    | not => exact sim_ruleOk hlen h (hr'.2 _ .not)
theorem simL_ruleOk {refs refs' : List Rule} {n : Nat} {Q : Rule → Prop}
    (hlen : refs.length = refs'.length) {rs rs' : List Rule} (h : SimL refs n Q rs rs')
    (hr : ∀ r ∈ rs, RuleOk refs r) : ∀ r' ∈ rs', RuleOk refs' r' := by
  match h with
  | .nil => intro r' h; simp at h
  | .cons h h' =>
    intro r' hr'
    rcases List.mem_cons.1 hr' with hr' | hr'
    · rw [hr']; exact sim_ruleOk hlen h (hr _ (by simp))
    · exact simL_ruleOk hlen h' (fun q hq => hr q (by simp [hq])) r' hr'
end

theorem byteCall_part {refs : List Rule} {c r : Rule} (h : ByteCall refs c r) (hr : Part refs r) :
    Part refs c := by
  obtain ⟨q, hq, hr⟩ := hr
  have hch : ∀ {c r : Rule}, Child c r → Occurs r q → Occurs c q := fun hc ho =>
    Occurs.trans (.step .refl hc) ho
  cases h with
  | notNot => exact ⟨q, hq, hch .not (hch .not hr)⟩
  | select => exact ⟨q, hq, hch (.select (by simp)) hr⟩
  | item => exact ⟨q, hq, hch .item hr⟩
  | sequence => exact ⟨q, hq, hch (.sequence (by simp)) hr⟩
  | repeat_ => exact ⟨q, hq, hch .repeat_ hr⟩
  | node h => exact ⟨c, List.mem_of_getElem? h, .refl⟩

theorem byteCall_acc {refs : List Rule}
    (h : ∀ x, Part refs x → ¬ Relation.TransGen (ByteCall refs) x x) {r} (hr : Part refs r) :
    Acc (ByteCall refs) r := by
  have hpart : ∀ {x r}, Relation.TransGen (ByteCall refs) x r → Part refs r → Part refs x := by
    intro x r hx
    induction hx with
    | single h => exact byteCall_part h
    | tail _ h ih => exact fun hr => ih (byteCall_part h hr)
  have hlist : ∀ {x}, Part refs x → x ∈ Rule.partsL refs := by
    rintro x ⟨q, hq, hx⟩
    exact mem_partsL hq (mem_parts hx)
  classical
  refine acc_of_acyclic _ ((Rule.partsL refs).filter fun x => decide (Part refs x)) rfl r ?_ ?_
  · intro x hx
    have := hpart hx hr
    rw [List.mem_filter]
    exact ⟨hlist this, by simpa using this⟩
  · intro x hx
    have := (List.mem_filter.1 hx).2
    exact h x (by simpa using this)

/-- A call of `unique_byte` stands for one or two steps of the parser. -/
theorem byteCall_calls {E : Env} {c r : Rule} (h : ByteCall E.refs c r) :
    Relation.TransGen (Calls E) c r := by
  cases h with
  | notNot => exact .tail (.single .not) .not
  | select => exact .single (.select (by simp))
  | item => exact .single .item
  | sequence => exact .single (.sequence (pre := []) (by simp))
  | repeat_ => exact .single .repeat_
  | node h => exact .single (.node h)

end Verif
