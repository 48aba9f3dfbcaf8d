import Verif.Proofs.SmallHistory
import Verif.Props.Sayable
import Verif.Props.Optimize
import Verif.Props.PegBool
/-
Files for syntaxes in rules of a bounded size, in which only one token changes.
-/
namespace Verif
open Spec

/-! ### Tables -/

theorem acc_acyclic {α : Type} {r : α → α → Prop} {x : α} (h : _root_.Acc r x) : ¬ Relation.TransGen r x x := by
  induction h with
  | intro x _ ih =>
    intro hc
    cases hc with
    | single h => exact ih x h (.single h)
    | tail h1 h2 => exact ih _ h2 (Relation.TransGen.trans (.single h2) h1)

/-- If `unique_byte` comes to an end on the rules, it does on everything. -/
theorem all_acc {refs : List Rule} (h : ∀ r ∈ refs, _root_.Acc (ByteCall refs) r) : ∀ (n : Nat) (x : Rule), sizeOf x < n →
    _root_.Acc (ByteCall refs) x
  | 0, _, hn => absurd hn (by omega)
  | n + 1, x, hn => ⟨_, fun c hc => by
    cases hc with
    | notNot => exact all_acc h n _ (by simp at hn; omega)
    | select => exact all_acc h n _ (by simp at hn; omega)
    | item => exact all_acc h n _ (by simp at hn; omega)
    | sequence => exact all_acc h n _ (by simp at hn; omega)
    | repeat_ => exact all_acc h n _ (by simp at hn; omega)
    | node hk => exact h _ (List.mem_of_getElem? hk)⟩

mutual
/-- Optimizing does not bring in lines with indentation. -/
theorem sim_flat {refs : List Rule} {n : Nat} {Q : Rule → Prop} {r r' : Rule} (h : Sim refs n Q r r') (hr : Flat r) : Flat r' := by
  have key : ∀ {r : Rule}, (∀ x id, r ≠ .lines x true id) → (∀ c, Child c r → Flat c) → Flat r := by
    intro r h1 h2 x id ho
    cases ho with
    | refl => exact h1 _ _ rfl
    | step ho hc => exact h2 _ hc x id ho
  match h with
  | .whitespace | .tag | .untilAny | .untilAnyOrWs | .text | .number | .node => exact hr
  | .fastSelect h =>
    refine key (by simp) ?_
    rintro c (_ | hc)
    rename_i hc
    exact simL_flat h (fun q hq => flat_child hr (.fast hq)) c hc
  | .select h =>
    refine key (by simp) ?_
    rintro c (hc | _)
    exact simL_flat h (fun q hq => flat_child hr (.select hq)) c hc
  | .fast ht hne h =>
    refine key (by simp) ?_
    rintro c (_ | hc)
    rename_i hc
    exact simL_flat h (fun q hq => flat_child hr (.select hq)) c hc
  | .tail ht h0 hu hQ h =>
    have hall := simL_flat h (fun q hq => flat_child hr (.select hq))
    refine key (by simp) ?_
    rintro c (_ | hc)
    rename_i hc
    rcases List.mem_append.1 hc with hc | hc
    · exact hall c (List.mem_of_mem_take hc)
    · simp at hc
      subst hc
      refine key (by simp) ?_
      rintro c (hc | _)
      exact hall c (List.mem_of_mem_drop hc)
  | .guarded hg ht h0 hu h =>
    rename_i gs rs rs' id t u
    have hrs : ∀ q ∈ rs, Flat q := by
      intro q hq
      rw [← List.take_append_drop u rs] at hq
      rcases List.mem_append.1 hq with hq | hq
      · exact flat_child hr (.select (by rw [hg]; exact List.mem_append_left _ hq))
      · exact flat_child (flat_child hr (.select (c := notAtEnd q) (by
          rw [hg]; exact List.mem_append_right _ (List.mem_map_of_mem hq)))) (.sequence (by simp))
    have hall := simL_flat h hrs
    refine key (by simp) ?_
    rintro c (_ | hc)
    rename_i hc
    rcases List.mem_append.1 hc with hc | hc
    · exact hall c (List.mem_of_mem_take hc)
    · simp at hc
      subst hc
      refine key (by simp) ?_
      rintro c (hc | _)
      exact hall c (List.mem_of_mem_drop hc)
  | .sequence h =>
    refine key (by simp) ?_
    intro c hc
    cases hc with
    | sequence hc => exact simL_flat h (fun q hq => flat_child hr (.sequence hq)) c hc
  | .separateBy h h' =>
    refine key (by simp) ?_
    intro c hc
    cases hc with
    | item => exact sim_flat h (flat_child hr .item)
    | sep => exact sim_flat h' (flat_child hr .sep)
  | .repeat_ h =>
    refine key (by simp) ?_
    intro c hc
    cases hc with
    | repeat_ => exact sim_flat h (flat_child hr .repeat_)
  | .lines h =>
    refine key (by cases flat_lines hr; simp) ?_
    intro c hc
    cases hc with
    | lines => exact sim_flat h (flat_child hr .lines)
  | .optional h =>
    refine key (by simp) ?_
    intro c hc
    cases hc with
    | optional => exact sim_flat h (flat_child hr .optional)
  | .not h =>
    refine key (by simp) ?_
    intro c hc
    cases hc with
    | not => exact sim_flat h (flat_child hr .not)
theorem simL_flat {refs : List Rule} {n : Nat} {Q : Rule → Prop} {rs rs' : List Rule} (h : SimL refs n Q rs rs') (hr : ∀ q ∈ rs, Flat q) :
    ∀ q ∈ rs', Flat q := by
  match h with
  | .nil => simp
  | .cons h h' =>
    intro q hq
    rcases List.mem_cons.1 hq with hq | hq
    · rw [hq]
      exact sim_flat h (hr _ (by simp))
    · exact simL_flat h' (fun q hq => hr q (by simp [hq])) q hq
end

theorem optimizes_flat {syn syn' : Syntax} (h : Optimizes syn syn') (hn : NoIndent syn.rules) : NoIndent syn'.rules := by
  obtain ⟨n, h⟩ := h
  obtain ⟨rules, h1, h2⟩ := Comp.bind_ok.1 h
  cases h2
  have hsim : SimL syn.rules n (fun _ => True) syn.rules rules :=
    opt_simL syn.rules (by simp) (by rw [optimizeRules_eq]; exact h1)
  exact simL_flat hsim hn

theorem renumber_flat {R : DebugId → DebugId → Prop} {rules rules' : List Rule} (h : RenumberedL R rules rules') (hn : NoIndent rules) :
    NoIndent rules' := by
  intro q' hq' x' id' ho
  obtain ⟨q, hq, h1⟩ := h.mem hq'
  obtain ⟨x, h2, h3⟩ := renumber_occurs ho h1
  cases h3
  exact hn q hq _ _ h2

/-! ### What is read from a file -/

section
variable {L : Lexer}
open Props

/-- The text of a document says the rules, if it is a text for them. -/
theorem doc_says {rules : List Rule} (hs : ∀ q ∈ rules, Speakable rules.length q) (hn : ∀ q ∈ rules, 2 * (Rule.ids q).length < 2 ^ 64) :
    ∃ rs, (∀ text, Doc.Text L ⟨sayStrings, sayNodes (spoken 0 rules)⟩ text → Says L text rs) ∧
      RenumberedL (fun _ _ => True) (rules.map wrap) (syntaxOf rs).rules := by
  obtain ⟨ho, rs, hr, h2⟩ := sayDoc_read (rs := spoken 0 rules)
    (by
      intro x hx
      obtain ⟨⟨ix, e1⟩, r, hr, e2⟩ := spoken_mem hx
      rw [e1, e2]
      exact ⟨nameOf_good ix, renamed_sayable r (hs r hr)⟩)
    (by
      intro x hx
      obtain ⟨_, r, hr, e2⟩ := spoken_mem hx
      rw [e2, rename_ids]
      have := wrap_ids r
      have := hn r hr
      omega)
  refine ⟨rs, fun text ht => ⟨_, ht, ho, hr⟩, ?_⟩
  have hnames : rs.map (·.1) = namesOf 0 rules.length := by
    rw [map_names h2, spoken_names]
  have := spoken_resolved hs h2
  rw [← hnames] at this
  exact this

/-- If no token stands under `not`, no table leaves anything out, and the optimizer returns, what is read from the text accepts the
same and rejects the same. -/
theorem doc_means (hL : L.Lawful) (hX : L.Exact) {rules : List Rule} (hs : ∀ q ∈ rules, Speakable rules.length q)
    (hn : ∀ q ∈ rules, 2 * (Rule.ids q).length < 2 ^ 64) (hw : ∀ q ∈ rules, wrap q = q) (hi : NoIndent rules)
    (ht : ∀ ind, TailsRefused (envOf L rules ind)) (ha : ∀ r ∈ rules, _root_.Acc (ByteCall rules) r) :
    ∃ syn, (∀ text, Doc.Text L ⟨sayStrings, sayNodes (spoken 0 rules)⟩ text → ∀ r, SyntaxReturns L text r ↔ r = .ok syn) ∧
      SyntaxOk syn ∧ NoIndent syn.rules ∧ ∀ text ind, (Props.Acc L syn text ind ↔ Props.Acc L ⟨rules, []⟩ text ind) ∧
        (Rej L syn text ind ↔ Rej L ⟨rules, []⟩ text ind) := by
  obtain ⟨rs, h1, h2⟩ := doc_says (L := L) hs hn
  have hwm : rules.map wrap = rules := by
    conv => rhs; rw [← List.map_id rules]
    exact List.map_congr_left hw
  rw [hwm] at h2
  have hok : SyntaxOk ⟨rules, []⟩ := fun q hq => speakable_ok (hs q hq)
  obtain ⟨o, ho⟩ := C31_returns (syn := ⟨rules, []⟩) (fun x _ => acc_acyclic (all_acc ha _ x (Nat.lt_succ_self _))) hok
  obtain ⟨o', ho', h3⟩ := C61_optimizes (syn := ⟨rules, []⟩) h2 ho
  have hok' := (C31_result_ok ho hok).2.2
  refine ⟨o', fun text htext r => ?_, renumber_syntaxOk h3 hok', renumber_flat h3 (optimizes_flat ho hi), fun text ind => ⟨?_, ?_⟩⟩
  · rw [C83_read hL hX (h1 text htext)]
    constructor
    · rintro ⟨syn, h4, rfl⟩
      rw [C31_deterministic ho' h4]
    · rintro rfl
      exact ⟨_, ho', rfl⟩
  · exact exists_congr fun toks => (C61_accepts h3 text [] toks).symm.trans (C27_accepts_the_same_partial hL ho (ht ind) text [] toks).symm
  · refine (renumber_rejects_iff h3 text []).symm.trans (C27_rejects_the_same_partial hL ho (ht ind) text []).symm

/-! ### The text of a file -/

theorem spoken_append (a : Nat) (rs rs' : List Rule) : spoken a (rs ++ rs') = spoken a rs ++ spoken (a + rs.length) rs' := by
  induction rs generalizing a with
  | nil => rfl
  | cons r rs ih =>
    simp only [List.cons_append, spoken, ih, List.length_cons]
    rw [show a + 1 + rs.length = a + (rs.length + 1) by omega]

theorem sayNodes_before (hL : L.Lawful) (hz : ReadsZero L) : ∀ {rs : List (Str × Rule)}, (∀ x ∈ rs, GoodName x.1 ∧ Sayable x.2) →
    ∃ p, ∀ es u, EntriesText L false es ('\n' :: u) →
      ∃ t, p ++ '\n' :: u = '\n' :: t ∧ EntriesText L false ((sayNodes rs).map (fun n => .node n.1 n.2.1 n.2.2) ++ es) ('\n' :: t)
  | [], _ => ⟨[], fun es u h => ⟨u, rfl, h⟩⟩
  | x :: rs, h => by
    obtain ⟨p, hp⟩ := sayNodes_before hL hz fun x hx => h x (List.mem_cons_of_mem _ hx)
    obtain ⟨hn, hs⟩ := h x (by simp)
    obtain ⟨a, ha, -⟩ := say_text hL x.2 hs
    have hs : Space [' '] := by simp [Space]; decide
    refine ⟨'\n' :: (c!"0" ++ ' ' :: (x.1 ++ c!" = " ++ a)) ++ p, fun es u hu => ?_⟩
    obtain ⟨t, e, ht⟩ := hp es u hu
    refine ⟨c!"0" ++ ' ' :: (x.1 ++ c!" = " ++ a) ++ '\n' :: t, by simp [← e], ['\n'], c!"0" ++ ' ' :: (x.1 ++ c!" = " ++ a), '\n' :: t,
      by simp [Space]; decide, by simp, ?_, ht, by simp⟩
    exact ⟨c!"0", [' '], [' '], [' '], a, hz _ _ (by decide), hs, by simp, hn.1, hn.2, hs, by simp, hs, ha, by simp⟩

/-- Characters that stand for themselves between quotes. -/
theorem quoted_plain {s : Str} (h : ∀ c ∈ s, quoteChar c = [c]) : quoted s = '"' :: s ++ ['"'] := by
  have : s.flatMap quoteChar = s := by
    induction s with
    | nil => rfl
    | cons c s ih => simp [h c (by simp), ih fun d hd => h d (by simp [hd])]
  rw [quoted, this]

theorem codes_plain (w : List Nat) : ∀ c ∈ codes w ++ ['#'], quoteChar c = [c] := by
  intro c hc
  simp only [codes, List.mem_append, List.mem_flatMap, code, List.mem_singleton] at hc
  rcases hc with ⟨n, -, hc | rfl⟩ | rfl
  · rw [List.eq_of_mem_replicate hc]; decide
  · decide
  · decide

/-- The start of the last rule. -/
def startBefore (k : Nat) : Str := c!"\n0 " ++ nameOf k ++ c!" = [!![\""
/-- And its end. -/
def startAfter : Str := c!"#\"] nnnnnn nnnnnnn]"

theorem start_text (hL : L.Lawful) (hz : ReadsZero L) (k : Nat) (w : List Nat) :
    ∃ u, startBefore k ++ codes w.reverse ++ startAfter = '\n' :: u ∧
      EntriesText L false ((sayNodes (spoken k [smallStart w])).map fun n => .node n.1 n.2.1 n.2.2) ('\n' :: u) := by
  have hsp : Space [' '] := by simp [Space]; decide
  refine ⟨c!"0 " ++ nameOf k ++ c!" = [!![\"" ++ codes w.reverse ++ startAfter, by simp [startBefore], ?_⟩
  refine ⟨['\n'], c!"0 " ++ nameOf k ++ c!" = [!![\"" ++ codes w.reverse ++ startAfter, [], by simp [Space]; decide, by simp, ?_,
    (by simp [spoken, sayNodes, EntriesText, Space] : EntriesText L false ((sayNodes (spoken (k + 1) [])).map fun n => .node n.1 n.2.1 n.2.2) []), by simp⟩
  have hd : say (rename (wrap (smallStart w))) =
      .sequence [.not (.not (.sequence [.tag none (.value (codes w.reverse ++ ['#'])) none none])), .reference (nameOf 5) none, .reference (nameOf 6) none] := by
    simp [smallStart, ahead, lit, refTo, wrap, wrapAll, wrapToken, rename, renameAll, say, sayAll, sayV, ifSet]
  refine ⟨c!"0", [' '], [' '], [' '], c!"[!![\"" ++ codes w.reverse ++ startAfter, hz _ _ (by decide), hsp, by simp, (nameOf_good k).1, (nameOf_good k).2,
    hsp, by simp, hsp, ?_, by simp⟩
  show Desc.Text L (say (rename (wrap (smallStart w)))) _
  rw [hd]
  refine ⟨by simp, c!"!![" ++ (quoted (codes w.reverse ++ ['#']) ++ c!"] nnnnnn nnnnnnn"), ?_, by rw [quoted_plain (codes_plain _)]; simp [startAfter]⟩
  refine ⟨[], c!"!![" ++ (quoted (codes w.reverse ++ ['#']) ++ [']']), c!" nnnnnn nnnnnnn", by simp [Space], ?_, ?_, fun _ => ⟨' ', rfl, by decide⟩, by simp⟩
  · refine ⟨'!' :: ('[' :: (quoted (codes w.reverse ++ ['#']) ++ [']'])), ?_, by simp, by simp, by simp⟩
    refine ⟨'[' :: (quoted (codes w.reverse ++ ['#']) ++ [']']), ?_, by simp, by simp, rfl⟩
    refine ⟨by simp, quoted (codes w.reverse ++ ['#']), ?_, rfl⟩
    refine ⟨[], quoted (codes w.reverse ++ ['#']), [], by simp [Space], ?_, by simp [Desc.TextL, Space], by simp, by simp⟩
    exact ⟨[], quoted (codes w.reverse ++ ['#']), rfl, ⟨quoted_lit hL _, fun e => absurd (quoted_empty e) (by simp)⟩, rfl, rfl⟩
  · refine ⟨[' '], nameOf 5, c!" nnnnnnn", hsp, ⟨[], (nameOf_good 5).1, (nameOf_good 5).2, rfl, by simp⟩, ?_, fun _ => ⟨' ', rfl, by decide⟩, rfl⟩
    exact ⟨[' '], nameOf 6, [], hsp, ⟨[], (nameOf_good 6).1, (nameOf_good 6).2, rfl, by simp⟩, by simp [Desc.TextL, Space], by simp, rfl⟩

/-- Rules before the last make a text that does not depend on the last. -/
theorem file_text (hL : L.Lawful) (hz : ReadsZero L) {rules : List Rule} {m : Nat} (hs : ∀ q ∈ rules, Speakable m q) :
    ∃ p, ∀ w, Doc.Text L ⟨sayStrings, sayNodes (spoken 0 (rules ++ [smallStart w]))⟩ (p ++ codes w.reverse ++ startAfter) := by
  obtain ⟨p, hp⟩ := sayNodes_before (rs := spoken 0 rules) hL hz
    (by
      intro x hx
      obtain ⟨⟨ix, e1⟩, r, hr, e2⟩ := spoken_mem hx
      rw [e1, e2]
      exact ⟨nameOf_good ix, renamed_sayable r (hs r hr)⟩)
  refine ⟨c!"_e:\"\"" ++ (p ++ startBefore rules.length), fun w => ?_⟩
  obtain ⟨u, e, hu⟩ := start_text (L := L) hL hz rules.length w
  obtain ⟨t, e', ht⟩ := hp _ u hu
  have hnodes : sayNodes (spoken 0 (rules ++ [smallStart w])) = sayNodes (spoken 0 rules) ++ sayNodes (spoken rules.length [smallStart w]) := by
    rw [spoken_append, sayNodes, List.map_append, Nat.zero_add]
    rfl
  refine ⟨[.string c!"e" []], (sayNodes (spoken 0 (rules ++ [smallStart w]))).map (fun n : F64 × Str × Desc => Entry.node n.1 n.2.1 n.2.2),
    by simp [Entry.isNode], ?_, ⟨[], c!"_e:\"\"", '\n' :: t, by simp [Space], by simp, ?_, ?_, ?_⟩, rfl, (nodesIn_map _).symm⟩
  · intro e he
    obtain ⟨n, -, rfl⟩ := List.mem_map.1 he
    rfl
  · exact ⟨[], c!"\"\"", name_e, by simp [Space], quoted_lit hL [], rfl⟩
  · rw [hnodes, List.map_append]
    exact ht
  · rw [← e', ← e]
    simp

end
end Verif
