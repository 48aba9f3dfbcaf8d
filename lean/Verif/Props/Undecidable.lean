import Verif.Proofs.RewritingTotal
import Verif.Proofs.Halting
import Verif.Props.PegBool
import Verif.Props.Sayable
/-
C104: what cannot be decided about a syntax.
-/
namespace Verif.Props
open Spec

section
variable {L : Lexer} {N : Nat} {R : List (List Nat × List Nat)} {F : List (List Nat)} {q : Rule}

theorem history_bare (hq : Bare q) (w : List Nat) : ∀ r ∈ (historySyntax N R F q w).rules, Bare r := by
  have hlit : ∀ t, Bare (lit t) := fun t => flatB_flat rfl
  have href : ∀ i, Bare (refTo i) := fun i => flatB_flat rfl
  have hmark : ∀ K, Bare (markRule K) := fun K => flat_of (by simp [markRule]) (by simp [markRule]) fun c hc => by
    cases hc
    exact flat_select fun r hr => by
      obtain ⟨k, -, rfl⟩ := List.mem_map.1 hr
      exact hlit _
  have hahead : ∀ r, Bare r → Bare (ahead r) := fun r h => flat_not (flat_not h)
  intro r hr
  simp only [historySyntax, List.mem_cons, List.not_mem_nil, or_false] at hr
  rcases hr with rfl | rfl | rfl | rfl | rfl | rfl | rfl | rfl
  · refine flat_select fun r hr => ?_
    simp only [List.mem_append, List.mem_map, List.mem_singleton] at hr
    rcases hr with ⟨a, -, rfl⟩ | rfl
    · exact flatB_flat rfl
    · exact hlit _
  · refine flat_select fun r hr => ?_
    simp only [List.mem_append, List.mem_map, List.mem_singleton] at hr
    rcases hr with ⟨a, -, rfl⟩ | rfl
    · refine flat_sequence fun r hr => ?_
      simp only [List.mem_cons, List.not_mem_nil, or_false] at hr
      rcases hr with rfl | rfl | rfl | rfl
      · exact hlit _
      · exact href _
      · exact hmark _
      · exact hlit _
    · exact hlit _
  · refine flat_select fun r hr => ?_
    simp only [List.mem_append, List.mem_map] at hr
    rcases hr with ⟨a, -, rfl⟩ | ⟨a, -, rfl⟩ <;> exact flatB_flat rfl
  · exact flatB_flat rfl
  · refine flat_select fun r hr => ?_
    simp only [List.mem_append, List.mem_map] at hr
    rcases hr with ⟨a, -, rfl⟩ | ⟨a, -, rfl⟩ <;> exact flatB_flat rfl
  · refine flat_select fun r hr => ?_
    simp only [List.mem_cons, List.not_mem_nil, or_false] at hr
    rcases hr with rfl | rfl
    · exact href _
    · refine flat_sequence fun r hr => ?_
      simp only [List.mem_cons, List.not_mem_nil, or_false] at hr
      rcases hr with rfl | rfl | rfl | rfl | rfl
      · refine hahead _ (flat_sequence fun r hr => ?_)
        simp only [List.mem_cons, List.not_mem_nil, or_false] at hr
        rcases hr with rfl | rfl | rfl
        · exact href _
        · exact hmark _
        · exact hlit _
      · exact href _
      · exact flatB_flat rfl
      · exact href _
      · exact href _
  · exact hq
  · exact flatB_flat rfl

/-- What has been read when the start has been checked. -/
theorem start_read {w : List Nat} {text : Str} {rs : List Rule} {n : Nat}
    (h : Peg.Matches ((historySyntax N R F q w).rules.map (pegOf L)) (pegSeq L (ahead (lit (codes w.reverse ++ ['#'])) :: refTo 5 :: rs)) text (some n)) :
    ReachesWord R F w := by
  obtain ⟨⟨k, h1⟩, h2⟩ := ahead_reads h
  rw [lit_peg] at h1
  obtain ⟨s', rfl, -⟩ := word_reads h1
  obtain ⟨k', m, h3, -, -⟩ := refTo_seq h2
  refine history_inv (L := L) rfl rfl rfl rfl rfl rfl h3 ?_
  rw [List.append_assoc, lettersOf_codes]
  simp [lettersOf]

/-- If rewriting does not get there, every text is rejected. -/
theorem not_reached (hq : Bare q) {w : List Nat} (h : ¬ ReachesWord R F w) (text : Str) (ind : Indent) :
    Rej L (historySyntax N R F q w) text ind := by
  rw [rej_last (history_bare hq w) (by simp [historySyntax])]
  refine ⟨none, ⟨.sequence [ahead (lit (codes w.reverse ++ ['#'])), refTo 5, refTo 6] 0, rfl, ?_⟩, by simp⟩
  rw [pegOf, pegSeq]
  obtain ⟨x, hx, -⟩ := settled_tag (G := (historySyntax N R F q w).rules.map (pegOf L)) (L := L) (codes w.reverse ++ ['#']) text
  simp only [ahead, pegOf]
  simp only [lit, pegOf] at hx ⊢
  cases x with
  | none => exact .seq_no (.neg_no (.neg_ok hx))
  | some k =>
    refine seq_zero (.neg_ok (.neg_no hx)) ?_
    rw [pegSeq]
    obtain ⟨y, hy, -⟩ := history_settled (G := (historySyntax N R F q w).rules.map (pegOf L)) (L := L) (N := N) (R := R) (F := F) rfl rfl rfl rfl rfl rfl text
    cases y with
    | none => exact .seq_no (by rw [refTo_peg]; exact .ref rfl hy)
    | some n =>
      refine absurd (start_read (L := L) (N := N) (q := q) (w := w) (rs := []) (text := text) (n := n + 0) ?_) h
      refine ahead_then (k := k) (by simp only [lit, pegOf]; exact hx) ?_
      rw [pegSeq, refTo_peg, pegSeq]
      exact .seq (o := some 0) (.ref rfl hy) .empty

/-- If it does, there is a text that is read up to its end, where `q` comes. -/
theorem reached (hR : ∀ p ∈ R, ∀ a ∈ p.2, a < N) {w : List Nat} (hw : ∀ a ∈ w, a < N) (h : ReachesWord R F w) :
    ∃ text, (Peg.Matches ((historySyntax N R F q w).rules.map (pegOf L)) (pegOf L q) [] (some 0) →
        Last L (historySyntax N R F q w) text (some text.length)) ∧
      ∀ x, Last L (historySyntax N R F q w) text x → ∃ y, Peg.Matches ((historySyntax N R F q w).rules.map (pegOf L)) (pegOf L q) [] y := by
  obtain ⟨w', h1, h2⟩ := h
  obtain ⟨t, ht⟩ := history_ok (G := (historySyntax N R F q w).rules.map (pegOf L)) (L := L) (N := N) (R := R) (F := F) rfl rfl rfl rfl rfl rfl hR h1 h2 hw
  have hs : Peg.Matches ((historySyntax N R F q w).rules.map (pegOf L)) (pegOf L (lit (codes w.reverse ++ ['#']))) (codes w.reverse ++ '#' :: t)
      (some (codes w.reverse ++ ['#']).length) := by
    rw [lit_peg]
    exact word_ok (by simp)
  refine ⟨codes w.reverse ++ '#' :: t, fun hq => ⟨_, rfl, ?_⟩, ?_⟩
  · show Peg.Matches _ (pegSeq L _) _ _
    refine ahead_then hs ?_
    rw [pegSeq, refTo_peg]
    refine .seq (o := some 0) (.ref rfl ht) ?_
    rw [List.drop_length, pegSeq, refTo_peg, pegSeq]
    exact .seq (o := some 0) (.ref rfl hq) .empty
  · rintro x ⟨r, hr, hx⟩
    cases hr
    have hx : Peg.Matches ((historySyntax N R F q w).rules.map (pegOf L)) (pegSeq L [ahead (lit (codes w.reverse ++ ['#'])), refTo 5, refTo 6]) _ x := hx
    rw [pegSeq] at hx
    simp only [ahead, pegOf] at hx
    cases hx with
    | seq_no h1 => cases h1.det (.neg_ok (.neg_no hs))
    | seq h1 h2 =>
      cases h1.det (.neg_ok (.neg_no hs))
      rw [pegSeq, refTo_peg, List.drop_zero] at h2
      cases h2 with
      | seq_no h3 => cases h3.det (.ref rfl ht)
      | seq h3 h4 =>
        cases h3.det (.ref rfl ht)
        rw [List.drop_length, pegSeq, refTo_peg] at h4
        cases h4 with
        | seq_no h5 =>
          cases h5 with
          | ref he h6 => cases he; exact ⟨_, h6⟩
        | seq h5 _ =>
          cases h5 with
          | ref he h6 => cases he; exact ⟨_, h6⟩

theorem nothing_reads (G : List Peg) : Peg.Matches G (pegOf L nothingRule) [] (some 0) := by
  simp only [nothingRule, pegOf, if_pos]
  exact .star_stop .char_end

theorem nothing_settled (G : List Peg) (s : Str) : Settled G (pegOf L nothingRule) s := by
  simp only [nothingRule, pegOf, if_pos]
  induction s with
  | nil => exact ⟨_, .star_stop .char_end, by simp⟩
  | cons c s ih =>
    by_cases hc : isWs c = true
    · obtain ⟨x, hx, hl⟩ := ih
      refine ⟨x.map (1 + ·), .star_more (.char_ok hc) hx, ?_⟩
      intro n hn
      obtain ⟨m, rfl, rfl⟩ := Option.map_eq_some_iff.1 hn
      have := hl m rfl
      simp only [List.length_cons]
      omega
    · exact ⟨_, .star_stop (.char_no (by simpa using hc)), by simp⟩

theorem speakableL_iff {n : Nat} {rs : List Rule} : SpeakableL n rs ↔ ∀ r ∈ rs, Speakable n r := by
  induction rs with
  | nil => simp [SpeakableL]
  | cons r rs ih => simp [SpeakableL, ih]

theorem history_speakable {w : List Nat} (hq : Speakable 8 q) : ∀ r ∈ (historySyntax N R F q w).rules, Speakable 8 r := by
  intro r hr
  simp only [historySyntax, List.mem_cons, List.not_mem_nil, or_false] at hr
  rcases hr with rfl | rfl | rfl | rfl | rfl | rfl | rfl | rfl
  case inr.inr.inr.inr.inr.inr.inl => exact hq
  all_goals
    simp [sameRule, copyRule, stepRule, skipRule, foundRule, historyRule, Speakable, SpeakableL, speakableL_iff, lit, refTo, ahead, markRule, restRule]
  all_goals
    intro r hr
    rcases hr with ⟨a, -, rfl⟩ | hr
    · simp [Speakable, SpeakableL, speakableL_iff]
    · first
      | (obtain ⟨a, hr⟩ := hr; first | (obtain ⟨-, rfl⟩ := hr) | (obtain ⟨b, c, -, rfl⟩ := hr)
         simp [Speakable, SpeakableL])
      | (subst hr; simp [Speakable])

theorem history_syntaxOk (hq : Speakable 8 q) (w : List Nat) : SyntaxOk (historySyntax N R F q w) :=
  fun r hr => speakable_ok (refs := (historySyntax N R F q w).rules) (history_speakable hq r hr)

theorem bare_noIndent {rules : List Rule} (h : ∀ q ∈ rules, Bare q) : NoIndent rules :=
  fun q hq _ _ ho => (h q hq _ ho).1 _ _ _ rfl

/-- Without lines, running for ever is neither accepting nor rejecting. -/
theorem bare_diverges {syn : Syntax} (hs : SyntaxOk syn) (hi : NoIndent syn.rules) {text : Str} {ind : Indent} :
    ParseDiverges L syn text [] ind ↔ ¬ Acc L syn text ind ∧ ¬ Rej L syn text ind := by
  constructor
  · intro hd
    constructor
    · rintro ⟨toks', h1, n, h2⟩; exact h1 (h2 ▸ hd n)
    · rintro ⟨e, toks', h1, n, h2⟩; exact h1 (h2 ▸ hd n)
  · rintro ⟨h1, h2⟩ n
    cases h3 : parseWithIndent L n syn text [] ind with
    | timeout => rfl
    | ok toks' => exact absurd ⟨toks', by simp, n, h3⟩ h1
    | err e toks' => exact absurd ⟨e, toks', by simp, n, h3⟩ h2
    | panic => exact absurd ⟨by simp, n, h3⟩ (C26_no_panic hs (.inr hi))

/-! ### C104 -/

/-- Some text is accepted just if rewriting gets there. -/
theorem C104_histories (hL : L.Lawful) (hR : ∀ p ∈ R, ∀ a ∈ p.2, a < N) {w : List Nat} (hw : ∀ a ∈ w, a < N) (ind : Indent) :
    (∃ text, Acc L (historySyntax N R F nothingRule w) text ind) ↔ ReachesWord R F w := by
  constructor
  · rintro ⟨text, h⟩
    obtain ⟨r, hr, h⟩ := (acc_last hL (history_bare (flatB_flat rfl) w)).1 h
    cases hr
    exact start_read h
  · intro h
    obtain ⟨text, h1, -⟩ := reached (L := L) (q := nothingRule) hR hw h
    exact ⟨text, (acc_last hL (history_bare (flatB_flat rfl) w)).2 (h1 (nothing_reads _))⟩

/-- And parsing always returns. -/
theorem C104_returns (hL : L.Lawful) (w : List Nat) (text : Str) (ind : Indent) :
    Acc L (historySyntax N R F nothingRule w) text ind ∨ Rej L (historySyntax N R F nothingRule w) text ind := by
  obtain ⟨x, hx, hl⟩ : ∃ x, Last L (historySyntax N R F nothingRule w) text x ∧ ∀ n, x = some n → n ≤ text.length := by
    obtain ⟨x, hx, hl⟩ : Settled ((historySyntax N R F nothingRule w).rules.map (pegOf L))
        (pegSeq L [ahead (lit (codes w.reverse ++ ['#'])), refTo 5, refTo 6]) text :=
      settled_cons (settled_ahead (settled_tag _ _)) fun s _ => settled_cons (settled_ref (r := historyRule R.length) rfl
        (history_settled (L := L) rfl rfl rfl rfl rfl rfl _)) fun s _ => settled_cons (settled_ref (r := nothingRule) rfl (nothing_settled _ _))
          fun _ _ => settled_empty _
    exact ⟨x, ⟨_, rfl, hx⟩, hl⟩
  have hb := history_bare (N := N) (R := R) (F := F) (q := nothingRule) (flatB_flat rfl) w
  cases x with
  | none => exact .inr ((rej_last hb (by simp [historySyntax])).2 ⟨none, hx, by simp⟩)
  | some n =>
    rcases Nat.lt_or_eq_of_le (hl n rfl) with h | h
    · exact .inr ((rej_last hb (by simp [historySyntax])).2 ⟨some n, hx, by simpa using h⟩)
    · exact .inl ((acc_last hL hb).2 (h ▸ hx))

/-- If rewriting does not get there all texts are rejected, whatever comes at the end. -/
theorem C104_otherwise (hq : Bare q) {w : List Nat} (h : ¬ ReachesWord R F w) (text : Str) (ind : Indent) :
    Rej L (historySyntax N R F q w) text ind := not_reached hq h text ind

/-- A rule that comes back to itself at the end of the text does not match and does not fail. -/
theorem loop_never {G : List Peg} (hk : G[6]? = some (pegOf L loopRule)) {x : Option Nat} : ¬ Peg.Matches G (pegOf L loopRule) [] x := by
  have hl : pegOf L loopRule = .seq (.star (.char isWs)) (.seq (.ref 6) .empty) := by
    simp [loopRule, nothingRule, pegOf, pegSeq, refTo]
  rw [hl] at hk ⊢
  have : ∀ {e s x}, Peg.Matches G e s x → s = [] →
      e ≠ .ref 6 ∧ e ≠ .seq (.ref 6) .empty ∧ e ≠ .seq (.star (.char isWs)) (.seq (.ref 6) .empty) := by
    intro e s x h
    induction h with
    | seq_no h ih =>
      intro hs
      refine ⟨by simp, fun e => ?_, fun e => ?_⟩
      · cases e; exact (ih hs).1 rfl
      · cases e; subst hs; cases h.det (Peg.Matches.star_stop .char_end)
    | seq h _ ih ih' =>
      intro hs
      refine ⟨by simp, fun e => ?_, fun e => ?_⟩
      · cases e; exact (ih hs).1 rfl
      · cases e; exact (ih' (by simp [hs])).2.1 rfl
    | ref hi _ ih =>
      intro hs
      refine ⟨fun e => ?_, by simp, by simp⟩
      cases e
      rw [hk] at hi
      cases hi
      exact (ih hs).2.2 rfl
    | _ => simp
  exact fun h => (this h rfl).2.2 rfl

/-- Some text is neither accepted nor rejected just if rewriting gets there. -/
theorem C104_loops (hL : L.Lawful) (hR : ∀ p ∈ R, ∀ a ∈ p.2, a < N) {w : List Nat} (hw : ∀ a ∈ w, a < N) (ind : Indent) :
    (∃ text, ParseDiverges L (historySyntax N R F loopRule w) text [] ind) ↔ ReachesWord R F w := by
  have hb := history_bare (N := N) (R := R) (F := F) (q := loopRule) (flatB_flat rfl) w
  have ho : SyntaxOk (historySyntax N R F loopRule w) := history_syntaxOk (by simp [loopRule, nothingRule, refTo, Speakable, SpeakableL]) w
  constructor
  · rintro ⟨text, h⟩
    by_contra hn
    exact ((bare_diverges ho (bare_noIndent hb)).1 h).2 (not_reached (flatB_flat rfl) hn text ind)
  · intro h
    obtain ⟨text, -, h2⟩ := reached (L := L) (q := loopRule) hR hw h
    refine ⟨text, (bare_diverges ho (bare_noIndent hb)).2 ⟨fun h => ?_, fun h => ?_⟩⟩
    · obtain ⟨y, hy⟩ := h2 _ ((acc_last hL hb).1 h)
      exact loop_never rfl hy
    · obtain ⟨x, hx, -⟩ := (rej_last hb (by simp [historySyntax])).1 h
      obtain ⟨y, hy⟩ := h2 _ hx
      exact loop_never rfl hy

end

/-- A number in binary in a word. -/
def binaryWord (pre post : List Nat) (i j n : Nat) : List Nat := pre ++ (n.bits.reverse.map fun b => if b then i else j) ++ post

theorem binaryWord_below {N : Nat} {pre post : List Nat} {i j : Nat} (h1 : ∀ a ∈ pre, a < N) (h2 : ∀ a ∈ post, a < N) (h3 : i < N) (h4 : j < N)
    (n : Nat) : ∀ a ∈ binaryWord pre post i j n, a < N := by
  intro a ha
  simp only [binaryWord, List.mem_append, List.mem_map] at ha
  rcases ha with (ha | ⟨b, -, rfl⟩) | ha
  · exact h1 a ha
  · split <;> assumption
  · exact h2 a ha

/-- The word is computed from the number. -/
theorem C104_words (pre post : List Nat) (i j : Nat) : Primrec (binaryWord pre post i j) := by
  refine Primrec.list_append.comp (Primrec.list_append.comp (Primrec.const pre) ?_) (Primrec.const post)
  exact Primrec.list_map (Primrec.list_reverse.comp bits_primrec) ((Primrec.dom_finite fun b : Bool => if b then i else j).comp Primrec.snd)

/-- A family of syntaxes, the same but for one token, in which the number `n` stands in binary: parsing always returns, and no
program can tell from `n` whether any text is accepted. -/
theorem C104_undecidable : ∃ (N : Nat) (R : List (List Nat × List Nat)) (F : List (List Nat)) (pre post : List Nat) (i j : Nat),
    ∀ (L : Lexer), L.Lawful → ∀ ind : Indent,
      (∀ n text, Acc L (historySyntax N R F nothingRule (binaryWord pre post i j n)) text ind ∨
        Rej L (historySyntax N R F nothingRule (binaryWord pre post i j n)) text ind) ∧
      ¬ ComputablePred fun n => ∃ text, Acc L (historySyntax N R F nothingRule (binaryWord pre post i j n)) text ind := by
  obtain ⟨N, R, F, pre, post, i, j, hR, h1, h2, h3, h4, hn⟩ := words_undecidable
  refine ⟨N, R, F, pre, post, i, j, fun L hL ind => ⟨fun n text => C104_returns hL _ text ind, fun h => hn (h.of_eq fun n => ?_)⟩⟩
  exact C104_histories hL hR (binaryWord_below h1 h2 h3 h4 n) ind

/-- Another family, for which no program can tell whether there is a text on which parsing runs for ever. -/
theorem C104_loops_undecidable : ∃ (N : Nat) (R : List (List Nat × List Nat)) (F : List (List Nat)) (pre post : List Nat) (i j : Nat),
    ∀ (L : Lexer), L.Lawful → ∀ ind : Indent,
      ¬ ComputablePred fun n => ∃ text, ParseDiverges L (historySyntax N R F loopRule (binaryWord pre post i j n)) text [] ind := by
  obtain ⟨N, R, F, pre, post, i, j, hR, h1, h2, h3, h4, hn⟩ := words_undecidable
  refine ⟨N, R, F, pre, post, i, j, fun L hL ind => fun h => hn (h.of_eq fun n => ?_)⟩
  exact C104_loops hL hR (binaryWord_below h1 h2 h3 h4 n) ind

/-- Rewriting `0` to `1`: the word `0`, the same with the mark of the pair, and the word `1`, all but those with marks backwards. -/
example : Acc stdLexer (historySyntax 2 [([0], [1])] [[1]] nothingRule [0]) c!"b#db#ab#" Indent.default ∧
    Rej stdLexer (historySyntax 2 [([0], [1])] [[1]] nothingRule [0]) c!"b#db#b#" Indent.default ∧
    Rej stdLexer (historySyntax 2 [([0], [1])] [[1]] nothingRule [0]) c!"ab#" Indent.default :=
  ⟨⟨[], by simp, 40, by decide +kernel⟩, ⟨⟨⟨2, 0⟩, .didNotExpectTag [] 0⟩, [], by simp, 40, by decide +kernel⟩,
    ⟨⟨⟨0, 0⟩, .didNotExpectTag [] 0⟩, [], by simp, 40, by decide +kernel⟩⟩

/-- From `1` the word `0` is not reached, and so nothing is accepted. -/
example (text : Str) : Rej stdLexer (historySyntax 2 [([0], [1])] [[0]] nothingRule [1]) text Indent.default :=
  not_reached (flatB_flat rfl) (fun ⟨w', h, hf⟩ => by
    cases h with
    | refl => simp at hf
    | step h _ =>
      obtain ⟨x, y, u, v, hm, e, -⟩ := h
      simp only [List.mem_singleton, Prod.mk.injEq] at hm
      obtain ⟨rfl, rfl⟩ := hm
      have : (0 : Nat) ∈ [1] := e ▸ by simp
      simp at this) text _

end Verif.Props
