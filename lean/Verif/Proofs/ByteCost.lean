import Verif.Spec.ByteCost
import Verif.Proofs.OptCost
import Verif.Props.Outcome
/-
The optimizer with its calls of `unique_byte` counted does what it does without, and the number of calls.
-/
namespace Verif
open Spec Props

variable {refs : List Rule} {n : Nat}

/-! ### Counting changes nothing else -/

theorem Comp.oneMore_erase {α : Type} (x : Comp (α × Nat)) : x.oneMore.erase = x.erase := by
  cases x <;> rfl

theorem uniqueByteCounted_erase : ∀ (n : Nat) (r : Rule), (uniqueByteCounted refs n r).erase = uniqueByte refs n r
  | 0, r => by simp [uniqueByteCounted, uniqueByte, Comp.erase, Bind.bind, Comp.bind]
  | n + 1, r => by
    have ih := uniqueByteCounted_erase n
    cases r with
    | not r id =>
      cases r with
      | not r id' => rw [uniqueByteCounted, uniqueByte, Comp.oneMore_erase, ih]
      | _ => simp only [uniqueByteCounted, uniqueByte] <;> rfl
    | select args id =>
      match args with
      | [a] => rw [uniqueByteCounted, uniqueByte, Comp.oneMore_erase, ih]
      | [] => simp only [uniqueByteCounted, uniqueByte]; rfl
      | _ :: _ :: _ => simp only [uniqueByteCounted, uniqueByte]; rfl
    | sequence args id =>
      match args with
      | a :: as => rw [uniqueByteCounted, uniqueByte, Comp.oneMore_erase, ih]
      | [] => simp only [uniqueByteCounted, uniqueByte]; rfl
    | separateBy r b opt trail id =>
      cases opt with
      | true => simp only [uniqueByteCounted, uniqueByte, if_true]; rfl
      | false => simp only [uniqueByteCounted, uniqueByte, Bool.false_eq_true, if_false, Comp.oneMore_erase, ih]
    | repeat_ r opt id =>
      cases opt with
      | true => simp only [uniqueByteCounted, uniqueByte, if_true]; rfl
      | false => simp only [uniqueByteCounted, uniqueByte, Bool.false_eq_true, if_false, Comp.oneMore_erase, ih]
    | node name prop index id =>
      cases index with
      | none => simp only [uniqueByteCounted, uniqueByte]; rfl
      | some ix =>
        simp only [uniqueByteCounted, uniqueByte]
        cases refs[ix]? with
        | none => rfl
        | some q => exact (Comp.oneMore_erase _).trans (ih q)
    | tag t nt inv prop id =>
      cases nt with
      | true => simp only [uniqueByteCounted, uniqueByte, if_true]; rfl
      | false =>
        cases t with
        | nil => simp only [uniqueByteCounted, uniqueByte, Bool.false_eq_true, if_false]; rfl
        | cons c cs => simp only [uniqueByteCounted, uniqueByte, Bool.false_eq_true, if_false]; rfl
    | _ => simp only [uniqueByteCounted, uniqueByte]; rfl

theorem uniqueLoopCounted_erase : ∀ (rs : List Rule) (i : Nat) (data : Table) (upTo : Nat),
    (uniqueLoopCounted refs n i rs data upTo).erase = uniqueLoop refs n i rs data upTo
  | [], i, data, upTo => by simp only [uniqueLoopCounted, uniqueLoop]; rfl
  | r :: rs, i, data, upTo => by
    simp only [uniqueLoopCounted, uniqueLoop]
    split
    · rfl
    · have h := uniqueByteCounted_erase (refs := refs) n r
      cases hb : uniqueByteCounted refs n r with
      | panic => rw [hb] at h; rw [← h]; rfl
      | timeout => rw [hb] at h; rw [← h]; rfl
      | ok x =>
        obtain ⟨o, k⟩ := x
        rw [hb] at h
        replace h : uniqueByte refs n r = .ok o := h.symm
        rw [h]
        cases o with
        | none => rfl
        | some b =>
          simp only
          split
          · rw [← uniqueLoopCounted_erase rs]
            cases uniqueLoopCounted refs n (i + 1) rs (data.set b (UInt8.ofNat i)) (i + 1) <;> rfl
          · rfl

theorem uniqueTableCounted_erase (args : List Rule) :
    (uniqueTableCounted refs n args).erase = uniqueTable refs n args := uniqueLoopCounted_erase args 0 _ 0

theorem optimizeSelectBytes_erase (args : List Rule) (opts : List (Comp (Rule × Nat))) (id : DebugId) :
    (optimizeSelectBytes refs n args opts id).erase = optimizeSelect refs n args (opts.map Comp.erase) id := by
  unfold optimizeSelectBytes optimizeSelect
  rw [← uniqueTableCounted_erase]
  cases uniqueTableCounted refs n args with
  | panic => rfl
  | timeout => rfl
  | ok x =>
    obtain ⟨⟨table, upTo⟩, k0⟩ := x
    have hplain : (do let (args', k) ← Comp.allCounted opts; return (Rule.select args' id, k) : Comp (Rule × Nat)).erase =
        (do let args' ← Comp.all (opts.map Comp.erase); return .select args' id) := by
      rw [← Comp.allCounted_erase]
      exact Comp.erase_bind _ _ _ fun _ => rfl
    show Comp.erase (if _ then _ else _) = if _ then _ else _
    split
    · split
      · dsimp only
        rw [← hplain, ← List.map_drop, ← Comp.allCounted_erase]
        refine Comp.erase_bind _ _ _ fun a => ?_
        cases Comp.allCounted opts <;> rfl
      · rw [← hplain]
        cases Comp.allCounted opts <;> rfl
    · rw [← List.map_take, ← List.map_drop, ← Comp.allCounted_erase, ← Comp.allCounted_erase]
      refine Comp.erase_bind _ _ _ fun a => ?_
      obtain ⟨a, k⟩ := a
      simp only
      split
      · exact Comp.erase_bind _ _ _ fun _ => rfl
      · rfl

mutual
theorem optimizeRuleBytes_erase : ∀ r : Rule, (optimizeRuleBytes refs n r).erase = optimizeRule refs n r
  | .whitespace _ _ | .tag _ _ _ _ _ | .untilAny _ _ _ _ | .untilAnyOrWs _ _ _ _ | .text _ _ _ | .number _ _ _
  | .node _ _ _ _ | .fastSelect _ _ _ _ => by simp only [optimizeRuleBytes, optimizeRule]; rfl
  | .sequence args id => by
    simp only [optimizeRuleBytes, optimizeRule]
    rw [← optimizeRulesBytes_erase args, ← Comp.allCounted_erase]
    exact Comp.erase_bind _ _ _ fun _ => rfl
  | .separateBy r b o t id => by
    simp only [optimizeRuleBytes, optimizeRule]
    rw [← optimizeRuleBytes_erase r, ← optimizeRuleBytes_erase b]
    exact Comp.erase_bind _ _ _ fun _ => Comp.erase_bind _ _ _ fun _ => rfl
  | .repeat_ r o id => by
    simp only [optimizeRuleBytes, optimizeRule]
    rw [← optimizeRuleBytes_erase r]
    exact Comp.erase_bind _ _ _ fun _ => rfl
  | .lines r i id => by
    simp only [optimizeRuleBytes, optimizeRule]
    rw [← optimizeRuleBytes_erase r]
    exact Comp.erase_bind _ _ _ fun _ => rfl
  | .optional r id => by
    simp only [optimizeRuleBytes, optimizeRule]
    rw [← optimizeRuleBytes_erase r]
    exact Comp.erase_bind _ _ _ fun _ => rfl
  | .not r id => by
    simp only [optimizeRuleBytes, optimizeRule]
    rw [← optimizeRuleBytes_erase r]
    exact Comp.erase_bind _ _ _ fun _ => rfl
  | .select args id => by
    simp only [optimizeRuleBytes, optimizeRule]
    rw [← optimizeRulesBytes_erase args, ← optimizeSelectBytes_erase]
theorem optimizeRulesBytes_erase : ∀ rs : List Rule,
    (optimizeRulesBytes refs n rs).map Comp.erase = optimizeRules refs n rs
  | [] => by simp [optimizeRulesBytes, optimizeRules]
  | r :: rs => by
    simp only [optimizeRulesBytes, optimizeRules, List.map_cons, optimizeRuleBytes_erase r, optimizeRulesBytes_erase rs]
end

theorem optimizeRulesBytes_eq : ∀ rs : List Rule,
    optimizeRulesBytes refs n rs = rs.map (optimizeRuleBytes refs n)
  | [] => by simp [optimizeRulesBytes]
  | r :: rs => by simp [optimizeRulesBytes, optimizeRulesBytes_eq rs]

theorem optimizeBytes_erase (syn : Syntax) : (syn.optimizeBytes n).erase = syn.optimize n := by
  unfold Syntax.optimizeBytes Syntax.optimize
  rw [← optimizeRules_eq, ← optimizeRulesBytes_erase, ← Comp.allCounted_erase, optimizeRulesBytes_eq]
  exact Comp.erase_bind _ _ _ fun _ => rfl

/-! ### One call of `unique_byte` -/

/-- One call: it is another call, or it returns, or it panics. -/
theorem uniqueByteCounted_cases (refs : List Rule) (r : Rule) :
    (∃ c, ByteCall refs c r ∧ ∀ n, uniqueByteCounted refs (n + 1) r = (uniqueByteCounted refs n c).oneMore) ∨
    ((∀ c, ¬ ByteCall refs c r) ∧ ¬ Dangling refs r ∧ ∃ o, ∀ n, uniqueByteCounted refs (n + 1) r = .ok (o, 1)) ∨
    Dangling refs r ∧ ∀ n, uniqueByteCounted refs (n + 1) r = .panic := by
  cases r with
  | not r id =>
    cases r with
    | not r id' => exact .inl ⟨r, .notNot, fun n => by rw [uniqueByteCounted]⟩
    | _ => exact .inr (.inl ⟨by rintro c ⟨⟩, by rintro ⟨_, _, _, _, ⟨⟩, _⟩, none, fun n => by simp [uniqueByteCounted]⟩)
  | select args id =>
    match args with
    | [a] => exact .inl ⟨a, .select, fun n => by rw [uniqueByteCounted]⟩
    | [] => exact .inr (.inl ⟨by rintro c ⟨⟩, by rintro ⟨_, _, _, _, ⟨⟩, _⟩, none, fun n => by simp [uniqueByteCounted]⟩)
    | _ :: _ :: _ =>
      exact .inr (.inl ⟨by rintro c ⟨⟩, by rintro ⟨_, _, _, _, ⟨⟩, _⟩, none, fun n => by simp [uniqueByteCounted]⟩)
  | sequence args id =>
    match args with
    | a :: as => exact .inl ⟨a, .sequence, fun n => by rw [uniqueByteCounted]⟩
    | [] => exact .inr (.inl ⟨by rintro c ⟨⟩, by rintro ⟨_, _, _, _, ⟨⟩, _⟩, none, fun n => by simp [uniqueByteCounted]⟩)
  | separateBy r b opt trail id =>
    cases opt with
    | true => exact .inr (.inl ⟨by rintro c ⟨⟩, by rintro ⟨_, _, _, _, ⟨⟩, _⟩, none, fun n => by simp [uniqueByteCounted]⟩)
    | false => exact .inl ⟨r, .item, fun n => by simp [uniqueByteCounted]⟩
  | repeat_ r opt id =>
    cases opt with
    | true => exact .inr (.inl ⟨by rintro c ⟨⟩, by rintro ⟨_, _, _, _, ⟨⟩, _⟩, none, fun n => by simp [uniqueByteCounted]⟩)
    | false => exact .inl ⟨r, .repeat_, fun n => by simp [uniqueByteCounted]⟩
  | node name prop index id =>
    cases index with
    | none =>
      exact .inr (.inl ⟨by rintro c ⟨⟩, by rintro ⟨_, _, _, _, ⟨⟩, _⟩, none, fun n => by simp [uniqueByteCounted]⟩)
    | some ix =>
      cases h : refs[ix]? with
      | none => exact .inr (.inr ⟨⟨_, _, ix, _, rfl, by simpa using h⟩, fun n => by simp [uniqueByteCounted, h]⟩)
      | some q => exact .inl ⟨q, .node h, fun n => by simp [uniqueByteCounted, h]⟩
  | tag t nt inv prop id =>
    cases nt with
    | true => exact .inr (.inl ⟨by rintro c ⟨⟩, by rintro ⟨_, _, _, _, ⟨⟩, _⟩, none, fun n => by simp [uniqueByteCounted]⟩)
    | false => cases t with
      | nil =>
        exact .inr (.inl ⟨by rintro c ⟨⟩, by rintro ⟨_, _, _, _, ⟨⟩, _⟩, none, fun n => by simp [uniqueByteCounted]⟩)
      | cons c cs =>
        exact .inr (.inl ⟨by rintro c ⟨⟩, by rintro ⟨_, _, _, _, ⟨⟩, _⟩, _, fun n => by simp [uniqueByteCounted]; rfl⟩)
  | text a b c =>
    exact .inr (.inl ⟨by rintro c ⟨⟩, by rintro ⟨_, _, _, _, ⟨⟩, _⟩, _, fun n => by simp [uniqueByteCounted]; rfl⟩)
  | _ => exact .inr (.inl ⟨by rintro c ⟨⟩, by rintro ⟨_, _, _, _, ⟨⟩, _⟩, none, fun n => by simp [uniqueByteCounted]⟩)

theorem uniqueByteCounted_chain : ∀ {n : Nat} {r : Rule} {o m}, uniqueByteCounted refs n r = .ok (o, m) →
    ByteChain refs r m
  | 0, r, o, m, h => by simp [uniqueByteCounted] at h
  | n + 1, r, o, m, h => by
    rcases uniqueByteCounted_cases refs r with ⟨c, hc, e⟩ | ⟨h1, h2, o', e⟩ | ⟨-, e⟩
    · rw [e] at h
      obtain ⟨⟨o', k⟩, h1, h2⟩ := Comp.bind_ok.1 h
      cases h2
      exact .step hc (uniqueByteCounted_chain h1)
    · rw [e] at h
      cases h
      exact .last h1 h2
    · rw [e] at h
      cases h

theorem chain_counted {r : Rule} {m : Nat} (h : ByteChain refs r m) :
    ∃ o, uniqueByteCounted refs m r = .ok (o, m) := by
  induction h with
  | @last r h hd =>
    rcases uniqueByteCounted_cases refs r with ⟨c, hc, e⟩ | ⟨h1, h2, o', e⟩ | ⟨h1, e⟩
    · exact absurd hc (h c)
    · exact ⟨o', e 0⟩
    · exact absurd h1 hd
  | @step c r m h hc ih =>
    obtain ⟨o, ih⟩ := ih
    rcases uniqueByteCounted_cases refs r with ⟨c', hc', e⟩ | ⟨h1, h2, o', e⟩ | ⟨h1, e⟩
    · cases byteCall_det h hc'
      exact ⟨o, by rw [e, ih]; rfl⟩
    · exact absurd h (h1 c)
    · exact absurd h1 (dangling_no_call h)

theorem chain_det {r : Rule} {m m' : Nat} (h : ByteChain refs r m) (h' : ByteChain refs r m') : m = m' := by
  induction h generalizing m' with
  | last h hd =>
    cases h' with
    | last => rfl
    | step h1 => exact absurd h1 (h _)
  | step h hc ih =>
    cases h' with
    | last h1 => exact absurd h (h1 _)
    | step h1 h2 =>
      cases byteCall_det h h1
      rw [ih h2]

theorem chain_length {r : Rule} {m : Nat} (h : ByteChain refs r m) : chainLength refs r = m := by
  have he : ∃ m, ByteChain refs r m := ⟨m, h⟩
  rw [chainLength, dif_pos he]
  exact chain_det he.choose_spec h

/-! ### How long a chain can be -/

mutual
/-- The rules in a rule, itself included, without those in tables. -/
def outerParts : Rule → List Rule
  | .select args id => .select args id :: outerPartsL args
  | .sequence args id => .sequence args id :: outerPartsL args
  | .separateBy r b o t id => .separateBy r b o t id :: (outerParts r ++ outerParts b)
  | .repeat_ r o id => .repeat_ r o id :: outerParts r
  | .lines r i id => .lines r i id :: outerParts r
  | .optional r id => .optional r id :: outerParts r
  | .not r id => .not r id :: outerParts r
  | r => [r]
/-- In all of them. -/
def outerPartsL : List Rule → List Rule
  | [] => []
  | r :: rs => outerParts r ++ outerPartsL rs
end

mutual
theorem outerParts_length : ∀ r : Rule, (outerParts r).length = outerSize r
  | .whitespace _ _ | .tag _ _ _ _ _ | .untilAny _ _ _ _ | .untilAnyOrWs _ _ _ _ | .text _ _ _ | .number _ _ _
  | .node _ _ _ _ | .fastSelect _ _ _ _ => by simp [outerParts, outerSize]
  | .sequence args id | .select args id => by
    simp only [outerParts, outerSize, List.length_cons, outerPartsL_length args]
    omega
  | .separateBy r b _ _ _ => by
    simp only [outerParts, outerSize, List.length_cons, List.length_append, outerParts_length r, outerParts_length b]
    omega
  | .repeat_ r _ _ | .lines r _ _ | .optional r _ | .not r _ => by
    simp only [outerParts, outerSize, List.length_cons, outerParts_length r]
    omega
theorem outerPartsL_length : ∀ rs : List Rule, (outerPartsL rs).length = outerSizes rs
  | [] => by simp [outerPartsL, outerSizes]
  | r :: rs => by
    simp only [outerPartsL, outerSizes, List.length_append, outerParts_length r, outerPartsL_length rs]
end

theorem mem_outerPartsL {x q : Rule} : ∀ {rs : List Rule}, q ∈ rs → x ∈ outerParts q → x ∈ outerPartsL rs
  | r :: rs, h, hx => by
    rw [outerPartsL, List.mem_append]
    rcases List.mem_cons.1 h with rfl | h
    · exact .inl hx
    · exact .inr (mem_outerPartsL h hx)

theorem self_outerParts : ∀ r : Rule, r ∈ outerParts r
  | .whitespace _ _ | .tag _ _ _ _ _ | .untilAny _ _ _ _ | .untilAnyOrWs _ _ _ _ | .text _ _ _ | .number _ _ _
  | .node _ _ _ _ | .fastSelect _ _ _ _ | .sequence _ _ | .select _ _ | .separateBy _ _ _ _ _ | .repeat_ _ _ _
  | .lines _ _ _ | .optional _ _ | .not _ _ => by simp [outerParts]

theorem mem_outerParts {x r : Rule} (h : OccursOutside x r) : x ∈ outerParts r := by
  induction h with
  | refl => exact self_outerParts _
  | step h h' h'' ih =>
    cases h' with
    | fast => exact absurd rfl (h'' _ _ _ _)
    | select hm | sequence hm =>
      rw [outerParts]
      exact .tail _ (mem_outerPartsL hm ih)
    | item => rw [outerParts]; exact .tail _ (List.mem_append.2 (.inl ih))
    | sep => rw [outerParts]; exact .tail _ (List.mem_append.2 (.inr ih))
    | repeat_ | lines | optional | not => rw [outerParts]; exact .tail _ ih

/-- A rule of the syntax or a part of one, but not of a table. -/
def OuterPart (refs : List Rule) (r : Rule) : Prop := ∃ q ∈ refs, OccursOutside r q

theorem OuterPart.child {c r : Rule} (h : OuterPart refs r) (hc : Child c r) (ht : NotTable r) : OuterPart refs c := by
  obtain ⟨q, hq, ho⟩ := h
  exact ⟨q, hq, outside_trans (.step .refl hc ht) ho⟩

theorem OuterPart.call {c r : Rule} (h : OuterPart refs r) (hc : ByteCall refs c r) : OuterPart refs c := by
  cases hc with
  | notNot => exact (h.child .not (by simp [NotTable])).child .not (by simp [NotTable])
  | select => exact h.child (.select (by simp)) (by simp [NotTable])
  | item => exact h.child .item (by simp [NotTable])
  | sequence => exact h.child (.sequence (by simp)) (by simp [NotTable])
  | repeat_ => exact h.child .repeat_ (by simp [NotTable])
  | node hi => exact ⟨c, List.mem_of_getElem? hi, .refl⟩

theorem nodup_length {α : Type} : ∀ {l l' : List α}, l.Nodup → (∀ x ∈ l, x ∈ l') → l.length ≤ l'.length
  | [], _, _, _ => by simp
  | a :: l, l', hn, hs => by
    classical
    obtain ⟨h1, h2⟩ := List.nodup_cons.1 hn
    have ha := hs a (by simp)
    have ih := nodup_length (l' := l'.erase a) h2 fun x hx => by
      refine (List.mem_erase_of_ne ?_).2 (hs x (by simp [hx]))
      rintro rfl
      exact h1 hx
    rw [List.length_erase_of_mem ha] at ih
    have := List.length_pos_of_mem ha
    simp only [List.length_cons]
    omega

theorem chain_list {r : Rule} {m : Nat} (h : ByteChain refs r m) (hr : OuterPart refs r) :
    ∃ l : List Rule, l.length = m ∧ l.Nodup ∧ ∀ x ∈ l, OuterPart refs x ∧ ∃ k ≤ m, ByteChain refs x k := by
  induction h with
  | @last r h hd => exact ⟨[r], rfl, by simp, by simpa using ⟨hr, 1, by omega, .last h hd⟩⟩
  | @step c r m h hc ih =>
    obtain ⟨l, h1, h2, h3⟩ := ih (hr.call h)
    refine ⟨r :: l, by simp [h1], List.nodup_cons.2 ⟨fun hm => ?_, h2⟩, ?_⟩
    · obtain ⟨-, k, hk, hx⟩ := h3 r hm
      have := chain_det hx (.step h hc)
      omega
    · intro x hx
      rcases List.mem_cons.1 hx with rfl | hx
      · exact ⟨hr, m + 1, by omega, .step h hc⟩
      · obtain ⟨h4, k, hk, h5⟩ := h3 x hx
        exact ⟨h4, k, by omega, h5⟩

/-- No rule comes twice. -/
theorem chain_size {r : Rule} {m : Nat} (h : ByteChain refs r m) (hr : OuterPart refs r) : m ≤ outerSizes refs := by
  obtain ⟨l, rfl, h2, h3⟩ := chain_list h hr
  rw [← outerPartsL_length]
  refine nodup_length h2 fun x hx => ?_
  obtain ⟨⟨q, hq, ho⟩, -⟩ := h3 x hx
  exact mem_outerPartsL hq (mem_outerParts ho)

theorem chainLength_le {r : Rule} (hr : OuterPart refs r) : chainLength refs r ≤ outerSizes refs := by
  unfold chainLength
  split
  · rename_i h
    exact chain_size h.choose_spec hr
  · exact Nat.zero_le _

/-! ### The table of a select -/

theorem uniqueLoopCounted_count : ∀ {rs pre : List Rule} {i : Nat} {data : Table} {upTo : Nat} {x k},
    uniqueLoopCounted refs n i rs data upTo = .ok (x, k) → i = pre.length → i ≤ 255 →
    (∀ a ∈ pre, ∃ b, UniqueByte refs a (some b)) →
    (pre.Pairwise fun a a' => ∀ b, UniqueByte refs a (some b) → ¬ UniqueByte refs a' (some b)) →
    (∀ b, data b ≠ 255 ↔ ∃ a ∈ pre, UniqueByte refs a (some b)) →
    k = ((reached refs pre rs).map (chainLength refs)).sum
  | [], pre, i, data, upTo, x, k, h, hi, hl, h1, h2, h3 => by
    simp only [uniqueLoopCounted] at h
    cases h
    simp [reached]
  | r :: rs, pre, i, data, upTo, x, k, h, hi, hl, h1, h2, h3 => by
    simp only [uniqueLoopCounted] at h
    split at h
    · cases h
      rw [reached, if_neg (by rintro ⟨h, -⟩; omega)]
      rfl
    · rename_i hi'
      rw [reached, if_pos ⟨by omega, h1, h2⟩]
      have hend : ∀ {o : Option UInt8} {k}, UniqueByte refs r o → ByteChain refs r k →
          (∀ b, o = some b → ∃ a ∈ pre, UniqueByte refs a (some b)) →
          k = ((r :: reached refs (pre ++ [r]) rs).map (chainLength refs)).sum := by
        intro o k ho hk hb
        have : reached refs (pre ++ [r]) rs = [] := by
          cases rs with
          | nil => rfl
          | cons a rs =>
            rw [reached, if_neg]
            rintro ⟨-, h4, h5⟩
            obtain ⟨b, h6⟩ := h4 r (by simp)
            cases uniqueByte_det ho h6
            obtain ⟨a', h7, h8⟩ := hb b rfl
            exact (List.pairwise_append.1 h5).2.2 a' h7 r (by simp) b h8 h6
        rw [this]
        simp [chain_length hk]
      split at h
      · rename_i b k' hb
        have hu : UniqueByte refs r (some b) := ⟨n, by rw [← uniqueByteCounted_erase, hb]; rfl⟩
        split at h
        · rename_i hd
          obtain ⟨⟨x', k''⟩, h4, h5⟩ := Comp.bind_ok.1 h
          cases h5
          have hnew : ∀ a ∈ pre, ∀ b', UniqueByte refs a (some b') → b' ≠ b := by
            rintro a ha b' hb' rfl
            exact (h3 _).2 ⟨a, ha, hb'⟩ hd
          have ih := uniqueLoopCounted_count (pre := pre ++ [r]) h4 (by simp [hi]) (by omega)
            (by
              intro a ha
              rcases List.mem_append.1 ha with ha | ha
              · exact h1 a ha
              · cases List.mem_singleton.1 ha
                exact ⟨b, hu⟩)
            (by
              refine List.pairwise_append.2 ⟨h2, by simp, ?_⟩
              intro a ha a' ha' b' hb' hb''
              cases List.mem_singleton.1 ha'
              cases uniqueByte_det hu hb''
              exact hnew a ha _ hb' rfl)
            (by
              intro b'
              unfold Table.set
              split
              · rename_i e
                subst e
                refine ⟨fun _ => ⟨r, by simp, hu⟩, fun _ hc => ?_⟩
                have := congrArg UInt8.toNat hc
                simp only [UInt8.toNat_ofNat'] at this
                have e255 : (255 : UInt8).toNat = 255 := rfl
                rw [e255] at this
                omega
              · rename_i e
                rw [h3]
                constructor
                · rintro ⟨a, ha, hb'⟩
                  exact ⟨a, by simp [ha], hb'⟩
                · rintro ⟨a, ha, hb'⟩
                  rcases List.mem_append.1 ha with ha | ha
                  · exact ⟨a, ha, hb'⟩
                  · cases List.mem_singleton.1 ha
                    cases uniqueByte_det hu hb'
                    exact absurd rfl e)
          simp only [List.map_cons, List.sum_cons]
          rw [chain_length (uniqueByteCounted_chain hb), ih]
        · rename_i hd
          cases h
          refine hend hu (uniqueByteCounted_chain hb) ?_
          rintro b' ⟨⟩
          exact (h3 _).1 hd
      · rename_i k' hb
        cases h
        exact hend ⟨n, by rw [← uniqueByteCounted_erase, hb]; rfl⟩ (uniqueByteCounted_chain hb) (by simp)
      · cases h
      · cases h

theorem uniqueTableCounted_count {args : List Rule} {x k} (h : uniqueTableCounted refs n args = .ok (x, k)) :
    k = tableCalls refs args :=
  uniqueLoopCounted_count (pre := []) h rfl (by omega) (by simp) (by simp) (by simp)

theorem reached_sublist : ∀ (rs pre : List Rule), (reached refs pre rs).Sublist rs
  | [], pre => by simp [reached]
  | r :: rs, pre => by
    rw [reached]
    split
    · exact (reached_sublist rs _).cons_cons _
    · exact List.nil_sublist _

theorem tableCalls_le {args : List Rule} (h : ∀ a ∈ args, OuterPart refs a) :
    tableCalls refs args ≤ args.length * outerSizes refs := by
  have key : ∀ l : List Rule, (∀ a ∈ l, OuterPart refs a) →
      (l.map (chainLength refs)).sum ≤ l.length * outerSizes refs := by
    intro l
    induction l with
    | nil => simp
    | cons a l ih =>
      intro h
      have h1 := chainLength_le (h a (by simp))
      have h2 := ih fun x hx => h x (by simp [hx])
      simp only [List.map_cons, List.sum_cons, List.length_cons, Nat.succ_mul]
      omega
  have hs := reached_sublist (refs := refs) args []
  refine Nat.le_trans (key _ fun a ha => h a (hs.subset ha)) (Nat.mul_le_mul_right _ hs.length_le)

/-! ### The number -/

mutual
theorem optimizeRuleBytes_count : ∀ {r r' : Rule} {k : Nat},
    optimizeRuleBytes refs n r = .ok (r', k) → k = byteWork refs r
  | .whitespace _ _, _, _, h | .tag _ _ _ _ _, _, _, h | .untilAny _ _ _ _, _, _, h | .untilAnyOrWs _ _ _ _, _, _, h
  | .text _ _ _, _, _, h | .number _ _ _, _, _, h | .node _ _ _ _, _, _, h | .fastSelect _ _ _ _, _, _, h => by
    simp only [optimizeRuleBytes] at h
    cases h
    simp [byteWork]
  | .sequence args id, _, _, h => by
    simp only [optimizeRuleBytes] at h
    obtain ⟨⟨as, k⟩, h1, h2⟩ := Comp.bind_ok.1 h
    cases h2
    rw [optimizeRulesBytes_count h1, byteWork]
  | .separateBy r b o t id, _, _, h => by
    simp only [optimizeRuleBytes] at h
    obtain ⟨⟨r', k⟩, h1, h2⟩ := Comp.bind_ok.1 h
    obtain ⟨⟨b', k'⟩, h3, h4⟩ := Comp.bind_ok.1 h2
    cases h4
    rw [optimizeRuleBytes_count h1, optimizeRuleBytes_count h3, byteWork]
  | .repeat_ r o id, _, _, h | .lines r o id, _, _, h | .optional r id, _, _, h | .not r id, _, _, h => by
    simp only [optimizeRuleBytes] at h
    obtain ⟨⟨r', k⟩, h1, h2⟩ := Comp.bind_ok.1 h
    cases h2
    rw [optimizeRuleBytes_count h1, byteWork]
  | .select args id, _, _, h1 => by
    simp only [optimizeRuleBytes] at h1
    rw [byteWork]
    unfold optimizeSelectBytes at h1
    split at h1
    · cases h1
    · cases h1
    · rename_i t u k0 ht
      have htw := triedTwice_iff (refs := refs) (args := args) ⟨n, by rw [← uniqueTableCounted_erase, ht]; rfl⟩
      rw [← uniqueTableCounted_count ht]
      split at h1
      · rename_i hu
        split at h1
        · rename_i hl
          rw [if_pos (htw.2 ⟨hu, hl⟩)]
          obtain ⟨⟨as, j⟩, h2, h3⟩ := Comp.bind_ok.1 h1
          obtain ⟨⟨r'', i⟩, h4, h5⟩ := Comp.bind_ok.1 h3
          obtain ⟨⟨bs, i⟩, h6, h7⟩ := Comp.bind_ok.1 h4
          cases h7
          cases h5
          rw [optimizeRulesBytes_count h6]
          match args, h2 with
          | [], h2 => cases h2; simp [byteWorksRest]
          | a :: args, h2 =>
            simp only [optimizeRulesBytes, List.drop_succ_cons, List.drop_zero] at h2
            rw [byteWorksRest, optimizeRulesBytes_count h2, Nat.add_comm (byteWorks refs args)]
        · rename_i hl
          rw [if_neg (fun hc => hl (htw.1 hc).2)]
          obtain ⟨⟨r'', i⟩, h4, h5⟩ := Comp.bind_ok.1 h1
          obtain ⟨⟨bs, i⟩, h6, h7⟩ := Comp.bind_ok.1 h4
          cases h7
          cases h5
          rw [optimizeRulesBytes_count h6, Nat.add_zero]
      · rename_i hu
        rw [if_neg (fun hc => hu (htw.1 hc).1), Nat.add_zero]
        obtain ⟨⟨as, i⟩, h2, h3⟩ := Comp.bind_ok.1 h1
        simp only at h3
        split at h3
        · obtain ⟨⟨bs, j⟩, h4, h5⟩ := Comp.bind_ok.1 h3
          cases h5
          have := Comp.allCounted_append h2 h4
          rw [List.take_append_drop] at this
          rw [optimizeRulesBytes_count this]
        · rename_i hl
          cases h3
          rw [List.take_of_length_le (by rw [optimizeRulesBytes_eq, List.length_map]; omega)] at h2
          rw [optimizeRulesBytes_count h2]
theorem optimizeRulesBytes_count : ∀ {rs rs' : List Rule} {k : Nat},
    Comp.allCounted (optimizeRulesBytes refs n rs) = .ok (rs', k) → k = byteWorks refs rs
  | [], _, _, h => by
    simp only [optimizeRulesBytes] at h
    cases h
    simp [byteWorks]
  | r :: rs, _, _, h => by
    simp only [optimizeRulesBytes] at h
    obtain ⟨a, as, i, j, h1, h2, rfl, rfl⟩ := Comp.allCounted_cons.1 h
    rw [optimizeRuleBytes_count h1, optimizeRulesBytes_count h2, byteWorks]
end

/-! ### The bound -/

mutual
theorem byteWork_le : ∀ r : Rule, OuterPart refs r →
    byteWork refs r + outerSizes refs ≤ optWork refs r * outerSizes refs
  | .whitespace _ _, _ | .tag _ _ _ _ _, _ | .untilAny _ _ _ _, _ | .untilAnyOrWs _ _ _ _, _ | .text _ _ _, _
  | .number _ _ _, _ | .node _ _ _ _, _ | .fastSelect _ _ _ _, _ => by simp [byteWork, optWork]
  | .sequence args id, h => by
    have := byteWorks_le args fun a ha => h.child (.sequence ha) (by simp [NotTable])
    simp only [byteWork, optWork, Nat.add_mul, Nat.one_mul]
    omega
  | .separateBy r b _ _ _, h => by
    have := byteWork_le r (h.child .item (by simp [NotTable]))
    have := byteWork_le b (h.child .sep (by simp [NotTable]))
    simp only [byteWork, optWork, Nat.add_mul, Nat.one_mul]
    omega
  | .repeat_ r _ _, h => by
    have := byteWork_le r (h.child .repeat_ (by simp [NotTable]))
    simp only [byteWork, optWork, Nat.add_mul, Nat.one_mul]
    omega
  | .lines r _ _, h => by
    have := byteWork_le r (h.child .lines (by simp [NotTable]))
    simp only [byteWork, optWork, Nat.add_mul, Nat.one_mul]
    omega
  | .optional r _, h => by
    have := byteWork_le r (h.child .optional (by simp [NotTable]))
    simp only [byteWork, optWork, Nat.add_mul, Nat.one_mul]
    omega
  | .not r _, h => by
    have := byteWork_le r (h.child .not (by simp [NotTable]))
    simp only [byteWork, optWork, Nat.add_mul, Nat.one_mul]
    omega
  | .select args id, h => by
    have ha : ∀ a ∈ args, OuterPart refs a := fun a ha => h.child (.select ha) (by simp [NotTable])
    have h1 := byteWorks_le args ha
    have h2 := tableCalls_le ha
    have h3 := byteWorksRest_le args ha
    simp only [byteWork, optWork, Nat.add_mul, Nat.one_mul]
    split
    · omega
    · simp only [Nat.zero_mul]
      omega
theorem byteWorks_le : ∀ rs : List Rule, (∀ r ∈ rs, OuterPart refs r) →
    byteWorks refs rs + rs.length * outerSizes refs ≤ optWorks refs rs * outerSizes refs
  | [], _ => by simp [byteWorks, optWorks]
  | r :: rs, h => by
    have := byteWork_le r (h r (by simp))
    have := byteWorks_le rs fun q hq => h q (by simp [hq])
    simp only [byteWorks, optWorks, Nat.add_mul, List.length_cons, Nat.one_mul]
    omega
theorem byteWorksRest_le : ∀ rs : List Rule, (∀ r ∈ rs, OuterPart refs r) →
    byteWorksRest refs rs ≤ optWorksRest refs rs * outerSizes refs
  | [], _ => by simp [byteWorksRest]
  | r :: rs, h => by
    have := byteWorks_le rs fun q hq => h q (by simp [hq])
    simp only [byteWorksRest, optWorksRest]
    omega
end

end Verif
