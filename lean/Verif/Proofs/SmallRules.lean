import Verif.Proofs.SmallFile
import Verif.Props.Undecidable
/-
The rules of bounded size can be said and are optimized.
-/
namespace Verif
open Spec

/-- A part of an alternative. -/
def SmallPart (n : Nat) (r : Rule) : Prop :=
  (∃ t, r = lit t) ∨ (∃ k, k < n ∧ r = refTo k) ∨ (∃ k, k < n ∧ r = .optional (refTo k) 0) ∨ r = restRule

/-- An alternative: a token, or a sequence of up to four parts that begins with a token. -/
def SmallAlt (n : Nat) (r : Rule) : Prop :=
  (∃ t, r = lit t) ∨ ∃ t ps, r = .sequence (lit t :: ps) 0 ∧ ps.length ≤ 3 ∧ ∀ p ∈ ps, SmallPart n p

/-- A link of a chain. -/
def SmallLink (n : Nat) (r : Rule) : Prop :=
  r = .select [] 0 ∨ ∃ a k, SmallAlt n a ∧ k < n ∧ r = .select [a, refTo k] 0

theorem chain_links {n : Nat} : ∀ {as : List Rule} {k : Nat}, (∀ a ∈ as, SmallAlt n a) → k + as.length < n → ∀ r ∈ chainFrom k as, SmallLink n r
  | [], _, _, _, r, hr => by
    simp only [chainFrom, List.mem_singleton] at hr
    exact .inl hr
  | a :: as, k, h, hk, r, hr => by
    simp only [List.length_cons] at hk
    rcases List.mem_cons.1 hr with rfl | hr
    · exact .inr ⟨a, k + 1, h a (by simp), by omega, rfl⟩
    · exact chain_links (fun b hb => h b (by simp [hb])) (by omega) r hr

/-- How many rules the chains are. -/
def chainsSize (xs : List (List Rule)) : Nat := (xs.map fun as => as.length + 1).sum

theorem chainsFrom_length : ∀ (k : Nat) (xs : List (List Rule)), (chainsFrom k xs).length = chainsSize xs
  | _, [] => rfl
  | k, as :: xs => by
    have := chainsFrom_length (k + (as.length + 1)) xs
    simp [chainsFrom, chainsSize, chainFrom_length, this]

theorem chains_links {n : Nat} : ∀ {xs : List (List Rule)} {k : Nat}, (∀ as ∈ xs, ∀ a ∈ as, SmallAlt n a) → k + chainsSize xs ≤ n →
    ∀ r ∈ chainsFrom k xs, SmallLink n r
  | [], _, _, _, r, hr => by simp [chainsFrom] at hr
  | as :: xs, k, h, hk, r, hr => by
    simp only [chainsSize, List.map_cons, List.sum_cons] at hk
    rcases List.mem_append.1 hr with hr | hr
    · exact chain_links (h as (by simp)) (by omega) r hr
    · exact chains_links (fun bs hb => h bs (by simp [hb])) (by simp only [chainsSize]; omega) r hr

/-- The heads refer to links. -/
theorem heads_refer {n : Nat} {rules : List Rule} : ∀ {pre : List Rule} {xs : List (List Rule)} {post : List Rule} {k : Nat},
    k = pre.length → rules = pre ++ (chainsFrom k xs ++ post) → (∀ as ∈ xs, ∀ a ∈ as, SmallAlt n a) → k + chainsSize xs ≤ n →
    ∀ r ∈ headsFrom k xs, ∃ j l, r = refTo j ∧ j < n ∧ rules[j]? = some l ∧ SmallLink n l
  | _, [], _, _, _, _, _, _, r, hr => by simp [headsFrom] at hr
  | pre, as :: xs, post, k, hk, e, h, hn, r, hr => by
    subst hk
    have hn' := hn
    simp only [chainsSize, List.map_cons, List.sum_cons] at hn
    rcases List.mem_cons.1 hr with rfl | hr
    · have hc : ∃ l, rules[pre.length]? = some l ∧ l ∈ chainFrom pre.length as := by
        rw [e, chainsFrom]
        cases as <;> simp [chainFrom]
      obtain ⟨l, h1, h2⟩ := hc
      exact ⟨_, l, rfl, by omega, h1, chain_links (h as (by simp)) (by omega) l h2⟩
    · exact heads_refer (pre := pre ++ chainFrom pre.length as) (xs := xs) (post := post) (by simp [chainFrom_length])
        (by simp [e, chainsFrom]) (fun bs hb => h bs (by simp [hb])) (by simp only [chainsSize]; omega) r hr

section
variable {N : Nat} {R : List (List Nat × List Nat)} {F : List (List Nat)} {q : Rule}

theorem small_length (w : List Nat) :
    (smallSyntax N R F q w).rules.length = 8 + R.length + chainsSize (historyAlts N R F) + 1 := by
  simp [smallSyntax, smallRules, chains_length, chainFrom_length, chainsFrom_length, markAlts, historyAlts]
  omega

theorem small_alts {n : Nat} (hn : 8 ≤ n) : ∀ as ∈ historyAlts N R F, ∀ a ∈ as, SmallAlt n a := by
  have hl : ∀ t, SmallPart n (lit t) := fun t => .inl ⟨t, rfl⟩
  have hr : ∀ k, k < 8 → SmallPart n (refTo k) := fun k hk => .inr (.inl ⟨k, by omega, rfl⟩)
  have ho : SmallPart n (.optional (refTo 7) 0) := .inr (.inr (.inl ⟨7, by omega, rfl⟩))
  intro as has a ha
  simp only [historyAlts, List.mem_cons, List.not_mem_nil, or_false] at has
  rcases has with rfl | rfl | rfl | rfl | rfl
  · simp only [List.mem_append, List.mem_map, List.mem_singleton] at ha
    rcases ha with ⟨x, -, rfl⟩ | rfl
    · exact .inr ⟨_, _, rfl, by simp, by simp [hl, hr]⟩
    · exact .inl ⟨_, rfl⟩
  · simp only [List.mem_append, List.mem_map, List.mem_singleton] at ha
    rcases ha with ⟨x, -, rfl⟩ | rfl
    · exact .inr ⟨_, _, rfl, by simp, by simp [hl, hr, ho]⟩
    · exact .inl ⟨_, rfl⟩
  · simp only [List.mem_append, List.mem_map] at ha
    rcases ha with ⟨x, -, rfl⟩ | ⟨x, -, rfl⟩
    · exact .inr ⟨_, _, rfl, by simp, by simp [hl, hr]⟩
    · exact .inr ⟨_, _, rfl, by simp, by simp [hl, hr]⟩
  · rw [List.mem_append, List.mem_map, List.mem_singleton] at ha
    rcases ha with ⟨x, -, rfl⟩ | rfl
    · exact .inr ⟨_, _, rfl, by simp, by simp [hr]⟩
    · exact .inl ⟨_, rfl⟩
  · simp only [List.mem_append, List.mem_map] at ha
    rcases ha with ⟨x, -, rfl⟩ | ⟨x, -, rfl⟩
    · exact .inr ⟨_, _, rfl, by simp, by simp [SmallPart]⟩
    · exact .inr ⟨_, _, rfl, by simp, by simp [hr]⟩

/-- What the rules are. -/
theorem small_cases (w : List Nat) (r : Rule) (hr : r ∈ (smallSyntax N R F q w).rules) :
    (∃ j l, r = refTo j ∧ j < (smallSyntax N R F q w).rules.length ∧ (smallSyntax N R F q w).rules[j]? = some l ∧
      SmallLink (smallSyntax N R F q w).rules.length l) ∨
    r = smallHistory ∨ r = q ∨ SmallLink (smallSyntax N R F q w).rules.length r ∨ r = smallStart w := by
  have hl := small_length (N := N) (R := R) (F := F) (q := q) w
  have ha : ∀ as ∈ historyAlts N R F, ∀ a ∈ as, SmallAlt (smallSyntax N R F q w).rules.length a := small_alts (by omega)
  have hr' : r ∈ headsFrom (8 + R.length) (historyAlts N R F) ++ [smallHistory, q] ++ chainFrom 7 (markAlts R.length) ++
    chainsFrom (8 + R.length) (historyAlts N R F) ++ [smallStart w] := hr
  simp only [List.mem_append, List.mem_cons, List.not_mem_nil, or_false] at hr'
  rcases hr' with (((hr | rfl | rfl) | hr) | hr) | rfl
  · exact .inl (heads_refer (pre := headsFrom (8 + R.length) (historyAlts N R F) ++ [smallHistory, q] ++ chainFrom 7 (markAlts R.length))
      (post := [smallStart w]) (by simp [chains_length, chainFrom_length, historyAlts, markAlts]; omega) (by simp [smallSyntax, smallRules]) ha
      (by omega) r hr)
  · exact .inr (.inl rfl)
  · exact .inr (.inr (.inl rfl))
  · refine .inr (.inr (.inr (.inl (chain_links (fun a h => ?_) (by simp [markAlts]; omega) r hr))))
    obtain ⟨k, -, rfl⟩ := List.mem_map.1 h
    exact .inl ⟨_, rfl⟩
  · exact .inr (.inr (.inr (.inl (chains_links ha (by omega) r hr))))
  · exact .inr (.inr (.inr (.inr rfl)))

/-- All links have it if these have. -/
theorem link_speakable {n : Nat} {r : Rule} (h : SmallLink n r) : Speakable n r ∧ wrap r = r ∧ (Rule.ids r).length ≤ 10 ∧ Bare r := by
  have hp : ∀ {p}, SmallPart n p → Speakable n p ∧ wrap p = p ∧ (Rule.ids p).length ≤ 2 ∧ Bare p := by
    rintro p (⟨t, rfl⟩ | ⟨k, hk, rfl⟩ | ⟨k, hk, rfl⟩ | rfl)
    · exact ⟨trivial, rfl, by simp [lit, Rule.ids], flatB_flat rfl⟩
    · exact ⟨hk, rfl, by simp [refTo, Rule.ids], flatB_flat rfl⟩
    · exact ⟨hk, rfl, by simp [refTo, Rule.ids], flatB_flat rfl⟩
    · exact ⟨trivial, rfl, by simp [restRule, Rule.ids], flatB_flat rfl⟩
  have hps : ∀ {ps : List Rule}, (∀ p ∈ ps, SmallPart n p) → SpeakableL n ps ∧ wrapAll ps = ps ∧ (Rule.idsL ps).length ≤ 2 * ps.length ∧ ∀ p ∈ ps, Bare p := by
    intro ps
    induction ps with
    | nil => exact fun _ => ⟨trivial, rfl, by simp [Rule.idsL], by simp⟩
    | cons p ps ih =>
      intro h
      obtain ⟨h1, h2, h3, h4⟩ := hp (h p (by simp))
      obtain ⟨h5, h6, h7, h8⟩ := ih fun p hp => h p (by simp [hp])
      refine ⟨⟨h1, h5⟩, by rw [wrapAll, h2, h6], by simp only [Rule.idsL, List.length_append, List.length_cons]; omega, ?_⟩
      intro x hx
      rcases List.mem_cons.1 hx with rfl | hx
      · exact h4
      · exact h8 x hx
  have ha : ∀ {a}, SmallAlt n a → Speakable n a ∧ wrap a = a ∧ (Rule.ids a).length ≤ 8 ∧ Bare a := by
    rintro a (⟨t, rfl⟩ | ⟨t, ps, rfl, hl, h⟩)
    · exact ⟨trivial, rfl, by simp [lit, Rule.ids], flatB_flat rfl⟩
    · obtain ⟨h5, h6, h7, h8⟩ := hps (ps := lit t :: ps) (by
        intro p hp
        rcases List.mem_cons.1 hp with rfl | hp
        · exact .inl ⟨_, rfl⟩
        · exact h p hp)
      refine ⟨h5, by rw [wrap, h6], ?_, flat_sequence h8⟩
      obtain ⟨-, -, h9, -⟩ := hps h
      simp only [Rule.ids, Rule.idsL, lit, List.length_append, List.length_cons, List.length_nil] at *
      omega
  rcases h with rfl | ⟨a, k, h, hk, rfl⟩
  · exact ⟨trivial, rfl, by simp [Rule.ids, Rule.idsL], flat_select (by simp)⟩
  · obtain ⟨h1, h2, h3, h4⟩ := ha h
    refine ⟨⟨h1, hk, trivial⟩, by simp [wrap, wrapAll, h2, refTo], ?_, flat_select fun r hr => ?_⟩
    · simp only [Rule.ids, Rule.idsL, refTo, List.length_append, List.length_cons, List.length_nil]
      omega
    · simp only [List.mem_cons, List.not_mem_nil, or_false] at hr
      rcases hr with rfl | rfl
      · exact h4
      · exact flatB_flat rfl


/-- A select has at most two alternatives. -/
def Binary (r : Rule) : Prop := ∀ args id, Occurs (.select args id) r → args.length ≤ 2

theorem binary_of {r : Rule} (h1 : ∀ args id, r = .select args id → args.length ≤ 2) (h2 : ∀ c, Child c r → Binary c) : Binary r := by
  intro args id ho
  cases ho with
  | refl => exact h1 _ _ rfl
  | step ho hc => exact h2 _ hc _ _ ho

theorem binary_lit (t : Str) : Binary (lit t) := binary_of (by simp [lit]) fun c hc => nomatch hc

theorem binary_ref (k : Nat) : Binary (refTo k) := binary_of (by simp [refTo]) fun c hc => nomatch hc

theorem binary_seq {rs : List Rule} {id : DebugId} (h : ∀ r ∈ rs, Binary r) : Binary (.sequence rs id) :=
  binary_of (by simp) fun c hc => by cases hc with | sequence hm => exact h c hm

theorem binary_sel {rs : List Rule} {id : DebugId} (hl : rs.length ≤ 2) (h : ∀ r ∈ rs, Binary r) : Binary (.select rs id) :=
  binary_of (by rintro args id e; cases e; exact hl) fun c hc => by cases hc with | select hm => exact h c hm

theorem binary_not {r : Rule} {id : DebugId} (h : Binary r) : Binary (.not r id) :=
  binary_of (by simp) fun c hc => by cases hc; exact h

theorem binary_opt {r : Rule} {id : DebugId} (h : Binary r) : Binary (.optional r id) :=
  binary_of (by simp) fun c hc => by cases hc; exact h

theorem link_binary {n : Nat} {r : Rule} (h : SmallLink n r) : Binary r := by
  have hp : ∀ {p}, SmallPart n p → Binary p := by
    rintro p (⟨t, rfl⟩ | ⟨k, hk, rfl⟩ | ⟨k, hk, rfl⟩ | rfl)
    · exact binary_lit t
    · exact binary_ref k
    · exact binary_opt (binary_ref k)
    · exact binary_of (by simp [restRule]) fun c hc => nomatch hc
  rcases h with rfl | ⟨a, k, h, hk, rfl⟩
  · exact binary_sel (by simp) (by simp)
  · refine binary_sel (by simp) fun r hr => ?_
    simp only [List.mem_cons, List.not_mem_nil, or_false] at hr
    rcases hr with rfl | rfl
    · rcases h with ⟨t, rfl⟩ | ⟨t, ps, rfl, -, h⟩
      · exact binary_lit t
      · refine binary_seq fun r hr => ?_
        rcases List.mem_cons.1 hr with rfl | hr
        · exact binary_lit t
        · exact hp (h r hr)
    · exact binary_ref k

theorem binary_start (w : List Nat) : Binary (smallStart w) := by
  refine binary_seq fun r hr => ?_
  simp only [List.mem_cons, List.not_mem_nil, or_false] at hr
  rcases hr with rfl | rfl | rfl
  · exact binary_not (binary_not (binary_seq fun r hr => by rw [List.mem_singleton.1 hr]; exact binary_lit _))
  · exact binary_ref 5
  · exact binary_ref 6

theorem binary_history : Binary smallHistory := by
  refine binary_sel (by simp) fun r hr => ?_
  simp only [List.mem_cons, List.not_mem_nil, or_false] at hr
  rcases hr with rfl | rfl
  · exact binary_ref 4
  · refine binary_seq fun r hr => ?_
    simp only [List.mem_cons, List.not_mem_nil, or_false] at hr
    rcases hr with rfl | rfl | rfl | rfl | rfl
    · refine binary_not (binary_not (binary_seq fun r hr => ?_))
      simp only [List.mem_cons, List.not_mem_nil, or_false] at hr
      rcases hr with rfl | rfl | rfl
      · exact binary_ref 1
      · exact binary_opt (binary_ref 7)
      · exact binary_lit _
    · exact binary_ref 3
    · refine binary_not (binary_not (binary_seq fun r hr => ?_))
      simp only [List.mem_cons, List.not_mem_nil, or_false] at hr
      rcases hr with rfl | rfl
      · exact binary_ref 2
      · exact binary_lit _
    · exact binary_ref 3
    · exact binary_ref 5

/-- The end of the text: a rule that does not refer to much. -/
structure EndOk (q : Rule) : Prop where
  speakable : ∀ n, 8 ≤ n → Speakable n q
  wrapped : wrap q = q
  ids : (Rule.ids q).length ≤ 10
  bare : Bare q
  binary : Binary q
  calls : ∀ refs, _root_.Acc (ByteCall refs) q
  closed : ∀ L, (pegOf L q).Closed 7

theorem nothing_endOk : EndOk nothingRule where
  speakable _ _ := trivial
  wrapped := rfl
  ids := by simp [nothingRule, Rule.ids]
  bare := flatB_flat rfl
  binary := binary_of (by simp [nothingRule]) fun c hc => nomatch hc
  calls refs := ⟨_, fun c hc => nomatch hc⟩
  closed L := by simp [nothingRule, pegOf, Peg.Closed]

theorem loop_endOk : EndOk loopRule where
  speakable n hn := ⟨trivial, (by omega : 6 < n), trivial⟩
  wrapped := rfl
  ids := by simp [loopRule, nothingRule, refTo, Rule.ids, Rule.idsL]
  bare := flatB_flat rfl
  binary := binary_seq fun r hr => by
    simp only [List.mem_cons, List.not_mem_nil, or_false] at hr
    rcases hr with rfl | rfl
    · exact nothing_endOk.binary
    · exact binary_ref 6
  calls refs := ⟨_, fun c hc => by cases hc; exact nothing_endOk.calls refs⟩
  closed L := by simp [loopRule, nothingRule, refTo, pegOf, pegSeq, Peg.Closed]

/-- All this holds for all the rules. -/
theorem small_ok (hq : EndOk q) (w : List Nat) (r : Rule) (hr : r ∈ (smallSyntax N R F q w).rules) :
    Speakable (smallSyntax N R F q w).rules.length r ∧ wrap r = r ∧ (Rule.ids r).length ≤ 20 ∧ Bare r ∧ Binary r ∧
      _root_.Acc (ByteCall (smallSyntax N R F q w).rules) r := by
  have hl := small_length (N := N) (R := R) (F := F) (q := q) w
  have hlink : ∀ {l n}, SmallLink n l → _root_.Acc (ByteCall (smallSyntax N R F q w).rules) l := by
    rintro l n (rfl | ⟨a, k, -, -, rfl⟩)
    · exact ⟨_, fun c hc => nomatch hc⟩
    · exact ⟨_, fun c hc => nomatch hc⟩
  rcases small_cases w r hr with ⟨j, l, rfl, hj, hjl, hll⟩ | rfl | rfl | h | rfl
  · refine ⟨hj, rfl, by simp [refTo, Rule.ids], flatB_flat rfl, binary_ref j, ⟨_, fun c hc => ?_⟩⟩
    cases hc with
    | node hc =>
      rw [hjl] at hc
      cases hc
      exact hlink hll
  · refine ⟨?_, rfl, ?_, flatB_flat rfl, binary_history, ⟨_, fun c hc => nomatch hc⟩⟩
    · have h8 : ∀ k, k < 8 → k < (smallSyntax N R F q w).rules.length := fun k hk => by omega
      simp [smallHistory, Speakable, SpeakableL, refTo, ahead, lit, h8]
    · decide
  · exact ⟨hq.speakable _ (by omega), hq.wrapped, by have := hq.ids; omega, hq.bare, hq.binary, hq.calls _⟩
  · obtain ⟨h1, h2, h3, h4⟩ := link_speakable h
    exact ⟨h1, h2, by omega, h4, link_binary h, hlink h⟩
  · refine ⟨?_, rfl, ?_, flatB_flat rfl, binary_start w, ⟨_, fun c hc => ?_⟩⟩
    · have h8 : ∀ k, k < 8 → k < (smallSyntax N R F q w).rules.length := fun k hk => by omega
      simp [smallStart, Speakable, SpeakableL, refTo, ahead, lit, h8]
    · simp [smallStart, ahead, lit, refTo, Rule.ids, Rule.idsL]
    · cases hc
      refine ⟨_, fun c hc => ?_⟩
      cases hc
      refine ⟨_, fun c hc => ?_⟩
      cases hc
      exact ⟨_, fun c hc => nomatch hc⟩

open Props in
/-- For each family there is one beginning of a file, such that the file with a word put in is read as a syntax that accepts the same and
rejects the same as the syntax for the histories of the word. -/
theorem small_file {L : Lexer} (hL : L.Lawful) (hX : L.Exact) (hz : ReadsZero L) (hq : EndOk q) : ∃ p : Str, ∀ w : List Nat, ∃ syn,
    (∀ r, SyntaxReturns L (p ++ codes w.reverse ++ startAfter) r ↔ r = .ok syn) ∧ SyntaxOk syn ∧ NoIndent syn.rules ∧
      ∀ text ind, (Props.Acc L syn text ind ↔ Props.Acc L (historySyntax N R F q w) text ind) ∧
        (Rej L syn text ind ↔ Rej L (historySyntax N R F q w) text ind) := by
  obtain ⟨p, hp⟩ := file_text (rules := smallRules N R F q) (m := (smallSyntax N R F q []).rules.length) hL hz fun r hr =>
    (small_ok (w := []) hq r (by simp [smallSyntax, hr])).1
  refine ⟨p, fun w => ?_⟩
  have hok := small_ok (N := N) (R := R) (F := F) hq w
  have hb : ∀ r ∈ (smallSyntax N R F q w).rules, Bare r := fun r hr => (hok r hr).2.2.2.1
  obtain ⟨syn, h1, h2, h3, h4⟩ := doc_means (rules := (smallSyntax N R F q w).rules) hL hX (fun r hr => (hok r hr).1)
    (fun r hr => by have := (hok r hr).2.2.1; omega) (fun r hr => (hok r hr).2.1) (bare_noIndent hb)
    (by
      rintro ind args id t u ⟨x, hx, ho⟩ - hu b hb
      have := (hok x hx).2.2.2.2.1 args id ho
      rw [List.drop_eq_nil_of_le (by omega)] at hb
      simp at hb)
    (fun r hr => (hok r hr).2.2.2.2.2)
  refine ⟨syn, h1 _ (hp w), h2, h3, fun text ind => ⟨?_, ?_⟩⟩
  · rw [(h4 text ind).1]
    show Props.Acc L (smallSyntax N R F q w) text ind ↔ _
    rw [acc_last hL hb, acc_last hL (history_bare hq.bare w), small_last (hq.closed L)]
  · rw [(h4 text ind).2]
    show Rej L (smallSyntax N R F q w) text ind ↔ _
    rw [rej_last hb (by simp [smallSyntax]), rej_last (history_bare hq.bare w) (by simp [historySyntax])]
    simp only [small_last (hq.closed L)]

end
end Verif
